import Verif.Proofs.InStep
import Verif.Props.Writes
import Verif.Props.Roots
/-
How much is written by packing: C71.
-/
set_option autoImplicit false
namespace Banyan

open PTree Concrete

variable {T : TreeTypes} {V : Type} {E : Env T V} {cx : Ctx E} {s s' : St E} {c : List (Option (T.Key × V))} {t : PTree T V}

theorem simplifyRoots_writes (h : E.Lawful) (fuel : Nat) (roots : List (Index T)) (from_ : Nat) (s : St E) :
    Post (simplifyRoots cx fuel roots from_) s (fun _ s' => ∃ b, s'.puts = s.puts ++ [b]) AnyErr := by
  induction fuel generalizing from_ s with
  | zero => exact fun _ => trivial
  | succ fuel ih =>
    unfold simplifyRoots
    refine Post.assertBind (Or.inr trivial) fun _ => Post.assertBind (Or.inr trivial) fun _ => Post.liftBind (fun _ _ => trivial) fun r _ => ?_
    have key : ∀ count, Post (newBranch cx ((roots.drop from_).take count) .packed >>= fun node =>
        pure (roots.take from_ ++ [.branch node] ++ (roots.drop (from_ + count)))) s (fun _ s' => ∃ b, s'.puts = s.puts ++ [b]) AnyErr := by
      intro count
      refine Post.bind (frame_newBranch h _ _) (fun _ => Frame.pure _) (newBranch_writes h _ _ s) ?_
      rintro i s1 _ _ ⟨b, h1, _⟩
      exact Post.pure fun _ => ⟨b, h1⟩
    cases r with
    | «sealed» count => exact key count
    | unsealed count => exact key count
    | skip count => exact ih _ s

theorem treeFromRootsLoop_writes (h : E.Lawful) (fuel : Nat) (roots : List (Index T)) (s : St E) :
    Post (treeFromRootsLoop cx fuel roots) s (fun _ s' => ∃ bs, s'.puts = s.puts ++ bs ∧ bs.length ≤ fuel) AnyErr := by
  induction fuel generalizing roots s with
  | zero =>
    unfold treeFromRootsLoop
    split
    · exact fun _ => trivial
    · exact Post.pure fun _ => ⟨[], by simp, by simp⟩
  | succ fuel ih =>
    unfold treeFromRootsLoop
    split
    · refine Post.bind (frame_simplifyRoots h _ _ _) (fun _ => frame_treeFromRootsLoop h _ _) (simplifyRoots_writes h _ _ _ s) ?_
      rintro rs s1 hx _ ⟨b, h1⟩
      refine Post.mono (frame_treeFromRootsLoop h _ _) (ih rs s1) ?_ (fun _ h => h)
      rintro _ s2 _ _ ⟨bs, h2, h3⟩
      exact ⟨b :: bs, by rw [h2, h1]; simp, by simp; omega⟩
    · exact Post.pure fun _ => ⟨[], by simp, by simp⟩

theorem treeFromRoots_writes (h : E.Lawful) (roots : List (Index T)) (s : St E) :
    Post (treeFromRoots cx roots) s (fun _ s' => ∃ bs, s'.puts = s.puts ++ bs ∧ bs.length ≤ 2 * roots.length) AnyErr := by
  unfold treeFromRoots
  refine Post.assertBind (Or.inr trivial) fun _ => Post.assertBind (Or.inr trivial) fun _ => ?_
  refine Post.bind0 (frame_treeFromRootsLoop h _ _).frame0 (fun _ => frame0_setIndex _) (treeFromRootsLoop_writes h _ _ s) ?_
  rintro rs s1 _ _ h1
  exact fun _ => h1

/-- What `pack` writes: at most two blocks for each sealed subtree that it keeps, three for each element behind these, and two for each level. -/
theorem pack_writes (ok : cx.Ok) (fuel : Nat) (t : Option (PTree T V)) (s : St E) (hh : HoldsI (NodeInv.trivial cx) s t)
    (hfuel : rootLevel s.root < fuel) (hcount : (optContent t).length + 1 < u32max) :
    Post (pack cx fuel) s (fun _ s' => ∃ bs, s'.puts = s.puts ++ bs ∧ bs.length ≤ 2 * (optRoots t).length +
      3 * ((optContent t).length - (contents (optRoots t)).length) + 2 * rootLevel s'.root) AnyErr := by
  have hpk : pack cx fuel s = (roots cx fuel >>= fun rs => treeFromRoots cx rs >>= fun _ => getIndex >>= fun root =>
    Tree.collectFrom fuel (snapshot cx s) (rootCount root) >>= fun items =>
      match sequenceOpt items with
      | none => throw (.fail "found purged data")
      | some remainder => extend cx (fuel + rootLevel root) remainder) s := rfl
  unfold Post
  rw [hpk]
  change Post _ s _ _
  refine Reads.bindPost (roots_reads hh hfuel) fun c hc => ?_
  have hinfo : (∀ r ∈ optRoots t, Good (NodeInv.trivial cx) s.store r) ∧ (∀ r ∈ optRoots t, r.index.isSealed = true) ∧
      (optRoots t).Pairwise (fun a b => a.index.level ≥ b.index.level) := by
    cases t with
    | none => simp [optRoots]
    | some t =>
      have := optRoots_info t
      exact ⟨fun r hr => (hh.good t rfl).mem (this.mem r hr), this.sealed, this.sorted⟩
  have hfr2 : ∀ (items : List (Option (T.Key × V))) (root : Option (Index T)), Frame0 cx (match sequenceOpt items with
      | none => throw (.fail "found purged data")
      | some remainder => extend cx (fuel + rootLevel root) remainder : M E Unit) := by
    intro items root
    cases sequenceOpt items with
    | none => exact (Frame.throw _).frame0
    | some r => exact frame0_extend ok.env _ _
  refine Post.bind0 (frame0_treeFromRoots ok.env _) (fun _ => Frame0.bind frame_getIndex.frame0 fun _ =>
    Frame0.bind (frame_treeCollectFrom ok.env _ _ _).frame0 fun items => hfr2 _ _)
    (Post.and (treeFromRoots_spec (I := NodeInv.trivial cx) (vals := fun _ => True) ok.env ok.types ok.cfg (R := AnyErr) (fun _ _ => trivial) (optRoots t)
      { s with cache := c } hc hinfo.1 hinfo.2.1 hinfo.2.2) (treeFromRoots_writes ok.env ((optRoots t).map index) { s with cache := c })) ?_
  rintro _ s2 hx2 _ ⟨⟨t1, hh1, hcont1, hpk1, hlev1, hone, hnil, hkeep, hmin1⟩, bs, hb1, hb2⟩
  refine Post.getIndexBind ?_
  have hcount1 := rootCount_eq ok.types hh1
  have hcol : Reads cx.sec (Tree.collectFrom fuel (snapshot cx s) (rootCount s2.root) : M E (List (Option (T.Key × V)))) s2
      ((optContent t).drop (contents (optRoots t)).length) := by
    rw [← hcont1, ← hcount1]
    unfold Tree.collectFrom snapshot
    rw [hh.root]
    cases t with
    | none => simpa [optContent] using Reads.pure hh1.coherent []
    | some t =>
      have hg := (hh.good t rfl).mono hx2.store
      have := collect0_reads ok.env ok.types fuel t (rootCount s2.root) [] s2 hg.stored hg.counts hh1.coherent (by rw [hh.level] at hfuel; exact hfuel)
      simpa [optContent] using this
  refine Reads.bindPost hcol fun c3 hc3 => ?_
  rcases (all_some_or_none ((optContent t).drop (contents (optRoots t)).length)).symm with hnone | ⟨rest, hrest⟩
  · rw [sequenceOpt_none hnone]
    exact fun _ => trivial
  rw [hrest, sequenceOpt_map_some]
  have hh3 : HoldsI (NodeInv.trivial cx) { s2 with cache := c3 } t1 := ⟨hh1.root, hc3, hh1.good⟩
  have hlen : (optContent t).length - (contents (optRoots t)).length = rest.length := by
    have h2 := congrArg List.length hrest
    rwa [List.length_drop, List.length_map] at h2
  have hsub := (optRoots_sublist t).length_le
  have hlev : rootLevel s2.root ≤ (contents (optRoots t)).length := by
    by_cases hr : optRoots t = []
    · have := hnil hr
      subst this
      rw [hh1.root]
      exact Nat.zero_le _
    · exact hlev1 hr
  have hw := extend_writes ok.env ok.types ok.cfg (fuel + rootLevel s2.root) rest { s2 with cache := c3 }
  unfold Post at hw ⊢
  cases he : extend cx (fuel + rootLevel s2.root) rest { s2 with cache := c3 } with
  | error e s' => simp only [he]; exact fun _ => trivial
  | ok a s' =>
    simp only [he] at hw ⊢
    intro hs
    obtain ⟨bs', k1, _, _, k4⟩ := hw hs
    have hm := extend_level_holds ok hh3 (fuel + rootLevel s2.root) rest (by show rootLevel s2.root < _; omega)
      (by show rootLevel s2.root + rest.length + 1 < u32max; omega) he hs
    rw [Nat.max_eq_right hm] at k4
    refine ⟨bs ++ bs', by rw [k1]; show s2.puts ++ bs' = _; rw [hb1, List.append_assoc], ?_⟩
    rw [List.length_map] at hb2
    rw [List.length_append, hlen]
    omega

/-- C71 for `pack`: packing writes at most two blocks for each of the sealed subtrees that it keeps (`roots`), three for each element behind them, and
a logarithmic number of others. So what has been packed already costs almost nothing. -/
theorem C71_pack (ok : cx.Ok) (hr : Reach cx s) (fuel : Nat) (hf : rootLevel s.root < fuel) (hc : Contains cx s c) {is : List (Index T)} {s0 : St E}
    (hroots : roots cx fuel s = .ok is s0) (he : pack cx fuel s = .ok () s') (hs : Small E s') :
    ∃ bs, s'.puts = s.puts ++ bs ∧ bs.length ≤ 2 * is.length + 3 * (c.length - (is.map fun i => i.count).sum) + 2 * Nat.log2 c.length + 4 := by
  have hs0 := ((frame0_pack ok.env fuel).ok he).small hs
  have he' : s' = endState (pack cx fuel) s := by unfold endState; rw [he]
  have hr' : Reach cx s' := he' ▸ hr.run (.pack fuel (.refl s) hf)
  have hlog := C70_log ok hr' hs (C03_pack_preserves ok hr fuel hf he hs hc) (C04_pack_packs ok hr fuel hf he hs)
  obtain ⟨t0, hi⟩ := ok.inv hr hs0
  rw [hi.holds.contains ok.env ok.types] at hc
  subst hc
  have hcnt := hi.count
  have hm : maxElements = 2147483645 := rfl
  have hu : u32max = 4294967295 := rfl
  obtain ⟨bs, h1, h2⟩ := (pack_writes ok fuel t0 s hi.holds hf (by omega)).ok he hs
  refine ⟨bs, h1, ?_⟩
  obtain ⟨_, _, h⟩ := roots_reads (cx := cx) hi.holds hf
  rw [hroots] at h
  simp only [EStateM.Result.ok.injEq] at h
  have hlen : (is.map fun i => i.count).sum = (contents (optRoots t0)).length := by
    rw [h.1, List.map_map]
    cases t0 with
    | none => rfl
    | some t =>
      have hcn := ((hi.holds.snap).wf t rfl).counts
      have info := rootsOf_info t i32max
      have : ∀ l : List (PTree T V), (∀ x ∈ l, x ∈ t.nodes) → (l.map ((fun i => i.count) ∘ index)).sum = (contents l).length := by
        intro l hm
        induction l with
        | nil => rfl
        | cons x l ih =>
          rw [contents_cons, List.length_append, ← ih fun y hy => hm y (List.mem_cons_of_mem _ hy),
            content_length ok.types (t := x) (fun n hn => hcn n (nodes_trans (hm x (by simp)) hn))]
          rfl
      exact this _ info.mem
  have hl : is.length = (optRoots t0).length := by rw [h.1, List.length_map]
  rw [hlen, hl]
  omega

/-- C71: packing the ten elements of `unpacked10`, six of which are in two packed subtrees, writes at most 26 blocks. (It writes eight.) -/
example : ∃ s' bs, pack (ctx tiny) 10 unpacked10 = .ok () s' ∧ s'.puts = unpacked10.puts ++ bs ∧ bs.length ≤ 2 * 2 + 3 * (10 - 6) + 2 * 3 + 4 := by
  have key : ∀ {s s' : St env} {l : List (Nat × Nat × Bool)}, Reach (ctx tiny) s → rootLevel s.root < 10 → Contains (ctx tiny) s ((seq 0 10).map some) →
      (valueOf (roots (ctx tiny) 10) s).map (List.map fun i => (i.level, i.count, i.isSealed)) = some l → pack (ctx tiny) 10 s = .ok () s' →
      Small env s' → ∃ bs, s'.puts = s.puts ++ bs ∧ bs.length ≤ 2 * l.length + 3 * (10 - (l.map fun x => x.2.1).sum) + 2 * Nat.log2 10 + 4 := by
    intro s s' l hr hl hc hv he hs
    unfold valueOf at hv
    cases hro : roots (ctx tiny) 10 s with
    | error e s0 => rw [hro] at hv; cases hv
    | ok is s0 =>
      rw [hro] at hv
      simp only [Option.map_some, Option.some.injEq] at hv
      subst hv
      obtain ⟨bs, h1, h2⟩ := C71_pack tiny_ok hr 10 hl hc hro he hs
      refine ⟨bs, h1, ?_⟩
      rw [List.length_map, List.map_map]
      exact h2
  obtain ⟨bs, h1, h2⟩ := key unpacked10_reach (by decide +kernel) unpacked10_contains unpacked10_roots (s' := endState (pack (ctx tiny) 10) unpacked10)
    (ok_of_succeeds (by decide +kernel)) (small_of (by decide +kernel))
  exact ⟨_, bs, ok_of_succeeds (by decide +kernel), h1, Nat.le_trans h2 (by decide +kernel)⟩

example : (endState (pack (ctx tiny) 10) unpacked10).puts.length = unpacked10.puts.length + 8 := by decide +kernel

end Banyan
