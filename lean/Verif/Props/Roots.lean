import Verif.Props.PackEdge
import Verif.Props.Nodes
import Verif.Props.Atomic
import Verif.Proofs.Sees
/-
The roots of a tree, the part that packing keeps: C92.
-/
set_option autoImplicit false
namespace Banyan

open PTree Concrete

variable {T : TreeTypes} {V : Type} {E : Env T V} {cx : Ctx E} {s : St E} {c : List (Option (T.Key × V))} {t : PTree T V}

/-- The elements begin with those of a leaf that is not sealed. -/
def BeginsUnsealed (t : PTree T V) (rest : List (T.Key × V)) : Prop :=
  ∃ (i : LeafIndex T) (vs : List V) (more : List (T.Key × V)), .leaf i vs ∈ t.nodes ∧ i.isSealed = false ∧
    rest = (T.keys.toVec i.keys).zip vs ++ more

theorem rootsOf_rest (t : PTree T V) : WF E t → ∀ l : Int, 0 ≤ l → PurgeOk t l →
    ∃ rest, t.content = contents (rootsOf t l).2 ++ rest.map some ∧
      (rest = [] ∧ 0 ≤ (rootsOf t l).1 ∨ BeginsUnsealed t rest ∧ (rootsOf t l).1 < 0) := by
  induction t using PTree.induct with
  | leaf i vs =>
    intro _ l h0 _
    simp only [rootsOf]
    split
    · exact ⟨[], by simp, .inl ⟨rfl, by simp⟩⟩
    · rename_i h
      exact ⟨(T.keys.toVec i.keys).zip vs, by simp [content],
        .inr ⟨⟨i, vs, [], by simp [nodes], by simpa [h0] using h, by simp⟩, by simp only; omega⟩⟩
  | purgedLeaf i =>
    intro _ l _ h
    simp only [PurgeOk] at h
    simp only [rootsOf]
    rw [if_pos h]
    exact ⟨[], by simp, .inl ⟨rfl, by simp⟩⟩
  | purgedBranch i =>
    intro _ l _ h
    simp only [PurgeOk] at h
    simp only [rootsOf]
    rw [if_pos h]
    exact ⟨[], by simp, .inl ⟨rfl, by simp⟩⟩
  | branch i cs ih =>
    intro hw l h0 h
    simp only [rootsOf]
    split
    · exact ⟨[], by simp, .inl ⟨rfl, by simp⟩⟩
    · rename_i h'
      simp only [PurgeOk] at h
      have h := h.resolve_left h'
      have key : ∀ (ds : List (PTree T V)), (∀ c ∈ ds, c ∈ cs) → ∀ l : Int, 0 ≤ l → PurgeOkL ds l →
          ∃ rest, contents ds = contents (rootsOfL ds l).2 ++ rest.map some ∧
            (rest = [] ∧ 0 ≤ (rootsOfL ds l).1 ∨ BeginsUnsealed (.branch i cs) rest ∧ (rootsOfL ds l).1 < 0) := by
        intro ds
        induction ds with
        | nil => intro _ l hl _; exact ⟨[], by simp [rootsOfL], .inl ⟨rfl, by simpa [rootsOfL] using hl⟩⟩
        | cons d ds ihd =>
          intro hd l hl hp
          simp only [PurgeOkL] at hp
          have hwd : WF E d := fun n hn => hw n (mem_nodes_branch.mpr (.inr ⟨d, hd d (by simp), hn⟩))
          obtain ⟨r1, e1, c1⟩ := ih d (hd d (by simp)) hwd l hl hp.1
          simp only [rootsOfL]
          rcases c1 with ⟨rfl, c1⟩ | ⟨⟨j, vs, more, g1, g2, g3⟩, c1⟩
          · obtain ⟨r2, e2, c2⟩ := ihd (fun c hc => hd c (by simp [hc])) _ c1 hp.2
            exact ⟨r2, by simp [e1, e2], c2⟩
          · obtain ⟨r2, e2⟩ : ∃ r2 : List (T.Key × V), contents ds = r2.map some := by
              have : ∀ (ds : List (PTree T V)) (l : Int), l < 0 → PurgeOkL ds l → ∃ r2 : List (T.Key × V), contents ds = r2.map some := by
                intro ds
                induction ds with
                | nil => intro _ _ _; exact ⟨[], rfl⟩
                | cons d ds ih =>
                  intro l hl hp
                  simp only [PurgeOkL] at hp
                  obtain ⟨a, ea, _, na⟩ := rootsOf_content d l hp.1
                  obtain ⟨b, eb⟩ := ih _ (Int.lt_of_le_of_lt (rootsOf_le d l) hl) hp.2
                  exact ⟨a ++ b, by rw [contents_cons, ea, na hl, eb]; simp⟩
              exact this ds _ c1 hp.2
            have hn := rootsOfL_neg ds _ c1
            refine ⟨r1 ++ r2, by rw [contents_cons, e1, e2, hn]; simp, .inr ⟨⟨j, vs, more ++ r2,
              mem_nodes_branch.mpr (.inr ⟨d, hd d (by simp), g1⟩), g2, by rw [g3]; simp⟩, ?_⟩⟩
            exact Int.lt_of_le_of_lt (rootsOfL_le ds _) c1
      have hlv : 1 ≤ i.level := by
        have hb := hw (.branch i cs) (by simp [nodes])
        obtain ⟨d, hd, he⟩ := hb.2.2.1
        omega
      obtain ⟨rest, e, c⟩ := key cs (fun _ h => h) _ (by omega) h
      exact ⟨rest, by simp [content, e], c⟩

theorem edge_leaf (t : PTree T V) : leavesOf t.edge = [] ∨
    ∃ i vs, leavesOf t.edge = [.leaf i vs] ∧ .leaf i vs ∈ t.nodes ∧ i.isSealed = false := by
  induction t using PTree.induct with
  | leaf i vs =>
    unfold edge
    split
    · exact .inl rfl
    · rename_i h
      exact .inr ⟨i, vs, rfl, by simp [nodes], by simpa using h⟩
  | purgedLeaf i => exact .inl rfl
  | purgedBranch i => exact .inl rfl
  | branch i cs ih =>
    unfold edge
    split
    · exact .inl rfl
    · have key : ∀ ds : List (PTree T V), (∀ d ∈ ds, d ∈ cs) → leavesOf (edgeL ds) = [] ∨
          ∃ j vs, leavesOf (edgeL ds) = [.leaf j vs] ∧ .leaf j vs ∈ (PTree.branch i cs).nodes ∧ j.isSealed = false := by
        intro ds
        induction ds with
        | nil => intro _; exact .inl rfl
        | cons d ds ihd =>
          intro hd
          cases ds with
          | nil =>
            rcases ih d (hd d (by simp)) with h | ⟨j, vs, h1, h2, h3⟩
            · exact .inl (by simpa [edgeL] using h)
            · exact .inr ⟨j, vs, by simpa [edgeL] using h1, mem_nodes_branch.mpr (.inr ⟨d, hd d (by simp), h2⟩), h3⟩
          | cons e es =>
            simp only [edgeL]
            exact ihd fun x hx => hd x (List.mem_cons_of_mem _ hx)
      have e : leavesOf (.branch i cs :: edgeL cs) = leavesOf (edgeL cs) := by simp [leavesOf]
      rw [e]
      exact key cs fun _ h => h

theorem roots_each (ok : cx.Ok) {l : List (PTree T V)} {t : PTree T V} (hsn : Snap cx s (some t) s) (hm : ∀ x ∈ l, x ∈ t.nodes)
    (hcl : ∀ x ∈ l, x.index.isSealed = true) (o : Nat) :
    Each (fun i d => Yields Tree.collect (some (i, cx.sec, o)) s d ∧ d.length = i.count ∧ Yields Tree.isPacked (some (i, cx.sec, o)) s true)
      (l.map index) (l.map content) := by
  have hcnt := (hsn.wf t rfl).counts
  induction l with
  | nil => trivial
  | cons x l ih =>
    have hx := hm x (by simp)
    have hsees : Sees cx.sec (some (x.index, cx.sec, o)) x s :=
      ⟨⟨_, rfl⟩, hsn.coherent, fun n hn => hsn.stored t rfl n (nodes_trans hx hn), fun n hn => hcnt n (nodes_trans hx hn),
        fun n hn => (hsn.wf t rfl).nonempty n (nodes_trans hx hn)⟩
    refine ⟨⟨hsees.collect ok.env ok.types, content_length ok.types (t := x) (fun n hn => hcnt n (nodes_trans hx hn)), ?_⟩,
      ih (fun y hy => hm y (List.mem_cons_of_mem _ hy)) fun y hy => hcl y (List.mem_cons_of_mem _ hy)⟩
    have := hsees.isPacked ok.env
    simpa only [closed_packed (hcl x (by simp)), decide_true] using this

/-- C92: the roots of a tree can be read. They are sealed and packed subtrees whose levels do not increase, and each of them can be read
as a tree of its own. Their contents, one after the other, are the content of the tree up to the first element of a leaf that is not
sealed; nothing has been purged behind them. -/
theorem C92_roots (ok : cx.Ok) (hr : Reach cx s) (hs : Small E s) (sh : Shows cx s t) (hc : Contains cx s c) :
    ∃ is cs rest, (∀ fuel, rootLevel s.root < fuel → ∃ s', roots cx fuel s = .ok is s') ∧
      (∀ i ∈ is, i.isSealed = true) ∧ is.Pairwise (fun a b => b.level ≤ a.level) ∧
      (∀ o, Each (fun i d => Yields Tree.collect (some (i, cx.sec, o)) s d ∧ d.length = i.count ∧
        Yields Tree.isPacked (some (i, cx.sec, o)) s true) is cs) ∧
      c = cs.flatten ++ rest.map some ∧ (rest = [] ∨ BeginsUnsealed t rest) := by
  obtain ⟨t0, hi⟩ := ok.inv hr hs
  rw [hi.holds.contains ok.env ok.types] at hc
  subst hc
  cases t0 with
  | none => have := hi.holds.root; rw [sh.root] at this; cases this
  | some t0 =>
    obtain rfl := sh.unique ok.env hi.holds.shows
    have hl := hi.level_lt
    rw [hi.holds.level] at hl
    have hsn := hi.holds.snap
    have info := rootsOf_info t i32max
    obtain ⟨rest, e, c⟩ := rootsOf_rest t (hsn.wf t rfl) i32max (by decide) (purgeOk_of_le hi.purge (Int.le_refl _) hl)
    refine ⟨(rootsOf t i32max).2.map index, (rootsOf t i32max).2.map content, rest, fun fuel hf => ?_, ?_, ?_,
      fun o => roots_each ok hsn info.mem info.sealed o, ?_, ?_⟩
    · obtain ⟨c, _, h⟩ := roots_reads (cx := cx) hi.holds hf
      exact ⟨_, h⟩
    · intro i hm
      obtain ⟨r, hr, rfl⟩ := List.mem_map.mp hm
      exact info.sealed r hr
    · exact List.pairwise_map.mpr info.sorted
    · rw [← List.flatMap_def, ← contents_eq]; exact e
    · exact c.imp And.left And.left

/-- C92: listing the roots reads only the branches above them and behind them: wherever these blocks are, the same roots are listed. Neither a leaf
nor anything below a root is read. -/
theorem C92_branches (ok : cx.Ok) (hr : Reach cx s) (hs : Small E s) (sh : Shows cx s t) {s2 : St E} (hroot : s2.root = s.root)
    (hco : Coherent E cx.sec s2)
    (hb : ∀ i cs, .branch i cs ∈ t.loose i32max → ∀ l, i.link = some l → E.get s2.store l = E.get s.store l)
    {fuel : Nat} (hf : rootLevel s.root < fuel) :
    ∃ is s1 s2', roots cx fuel s = .ok is s1 ∧ roots cx fuel s2 = .ok is s2' := by
  obtain ⟨t0, hi⟩ := ok.inv hr hs
  cases t0 with
  | none => have := hi.holds.root; rw [sh.root] at this; cases this
  | some t0 =>
    obtain rfl := sh.unique ok.env hi.holds.shows
    have hg := hi.holds.good t rfl
    obtain ⟨c, _, h1⟩ := roots_reads (cx := cx) hi.holds hf
    have hroot2 : s2.root = some t.index := by rw [hroot, sh.root]
    have h2 : Reads cx.sec (roots cx fuel) s2 ((optRoots (some t)).map index) := by
      unfold roots
      refine Reads.bind (a := s2.root) ⟨s2.cache, hco, rfl⟩ fun c hc => ?_
      rw [hroot2]
      simp only [rootsImpl]
      refine Reads.bind (roots0_partial fuel t i32max [] _ (fun n hn => (hg.stored n hn).linked)
        (fun i ds hn => (hg.stored _ (loose_nodes t _ _ hn)).congr (hb i ds hn)) hg.counts (by rw [hroot2] at hc; exact hc)
        (by rw [hi.holds.level] at hf; exact hf)) fun c2 hc2 => ?_
      simpa [optRoots] using Reads.pure hc2 _
    obtain ⟨c2, _, h2⟩ := h2
    exact ⟨_, _, _, h1, h2⟩

/-- C92: if the tree is packed then all that is not in the roots is a part of one leaf that is not full. -/
theorem C92_packed (ok : cx.Ok) (hr : Steady cx s) (hs : Small E s) (sh : Shows cx s t) (hc : Contains cx s c) (hp : ReportsPacked cx s)
    {fuel : Nat} (hf : rootLevel s.root < fuel) {is : List (Index T)} {s' : St E} (he : roots cx fuel s = .ok is s') :
    ∃ rest : List (T.Key × V), c.drop (is.map fun i => i.count).sum = rest.map some ∧ rest.length < cx.cfg.maxLeafCount := by
  have hrr := hr.reach ok.cfg
  obtain ⟨t0, hi⟩ := ok.inv hrr hs
  rw [hi.holds.contains ok.env ok.types] at hc
  subst hc
  cases t0 with
  | none => have := hi.holds.root; rw [sh.root] at this; cases this
  | some t0 =>
    obtain rfl := sh.unique ok.env hi.holds.shows
    obtain ⟨_, _, h⟩ := roots_reads (cx := cx) hi.holds hf
    rw [he] at h
    simp only [EStateM.Result.ok.injEq] at h
    have h1 := C91_leaves ok hrr hs sh
    rw [(C91_packed ok hrr hs sh hp).1] at h1
    have hcnt := ((hi.holds.snap).wf t rfl).counts
    have hlen : (is.map fun i => i.count).sum = (contents (rootsOf t i32max).2).length := by
      rw [h.1]
      simp only [optRoots, List.map_map]
      have : ∀ l : List (PTree T V), (∀ x ∈ l, x ∈ t.nodes) → (l.map ((fun i => i.count) ∘ index)).sum = (contents l).length := by
        intro l hm
        induction l with
        | nil => rfl
        | cons x l ih =>
          rw [contents_cons, List.length_append, ← ih fun y hy => hm y (List.mem_cons_of_mem _ hy),
            content_length ok.types (t := x) (fun n hn => hcnt n (nodes_trans (hm x (by simp)) hn))]
          rfl
      exact this _ (rootsOf_info t i32max).mem
    simp only [optContent]
    rw [h1, hlen, List.drop_left]
    rcases edge_leaf t with h2 | ⟨i, vs, h2, h3, h4⟩
    · exact ⟨[], by rw [h2]; rfl, ok.cfg.leaf⟩
    · obtain ⟨_, _, _, _, _, _, _, _, _, h5, _⟩ := C37_leaves ok hr hs sh h3
      refine ⟨(T.keys.toVec i.keys).zip vs, by rw [h2]; simp [content], ?_⟩
      rw [List.length_zip]
      have := (h5 h4).2.1
      omega

/-- C92: the empty tree has no roots. -/
theorem C92_empty (hn : s.root = none) (fuel : Nat) : roots cx fuel s = .ok [] s := by
  have e : roots cx fuel s = (match s.root with | some index => rootsImpl cx.sec fuel index | none => pure []) s := rfl
  rw [e, hn]
  rfl

/-- C25 for `pack`: if `pack` fails, the content is as before, or what is behind the roots is lost: the elements from the first leaf on
that is not sealed. Missing: that nothing is lost, which is false (`C25_refuted`). -/
theorem C25_pack_roots_partial (ok : cx.Ok) (hr : Reach cx s) (fuel : Nat) (hf : rootLevel s.root < fuel) {e : Err} {s' : St E}
    (he : pack cx fuel s = .error e s') (hs : Small E s') (sh : Shows cx s t) (hc : Contains cx s c) :
    ∃ c' rest, Contains cx s' c' ∧ c = c' ++ rest.map some ∧ (rest = [] ∨ BeginsUnsealed t rest) := by
  obtain ⟨t0, hi⟩ := ok.inv hr (((frame0_pack ok.env fuel).err he).small hs)
  obtain ⟨t', h1, h2⟩ := pack_error ok.env ok.types ok.cfg hi.holds hf he hs
  rw [hi.holds.contains ok.env ok.types] at hc
  subst hc
  have h3 := (h1.contains ok.env ok.types).mpr rfl
  rcases h2 with rfl | ⟨h2, _⟩
  · exact ⟨_, [], h3, by simp, .inl rfl⟩
  · cases t0 with
    | none => have := hi.holds.root; rw [sh.root] at this; cases this
    | some t0 =>
      obtain rfl := sh.unique ok.env hi.holds.shows
      have hl := hi.level_lt
      rw [hi.holds.level] at hl
      obtain ⟨rest, e, c⟩ := rootsOf_rest t (hi.holds.snap.wf t rfl) i32max (by decide) (purgeOk_of_le hi.purge (Int.le_refl _) hl)
      exact ⟨_, rest, h3, by rw [h2]; exact e, c.imp And.left And.left⟩

/-! ### examples

Ten elements, the last three appended without packing: the roots have six of them, the rest begins with the seventh. -/

theorem unpacked10_roots : (valueOf (roots (ctx tiny) 10) unpacked10).map (List.map fun i => (i.level, i.count, i.isSealed)) =
    some [(1, 4, true), (0, 2, true)] := by decide +kernel

/-- Whether the blocks of the branches outside of the packed sealed subtrees of a loaded tree are not lost. -/
def looseBranchesLeft (ns : List Nat) (s : St env) : Bool :=
  match loaded tiny s with
  | some t => (t.loose i32max).all fun n => match n with
    | .branch i _ => match i.link with
      | some (l : Nat) => decide ((punch ns s.store).blocks[l]? = s.store.blocks[l]?)
      | none => true
    | _ => true
  | none => false

/-- C92: the roots of ten elements are listed where all leaves and the branch in the first root are missing. -/
example : ∃ is s1 s2, roots (ctx tiny) 10 unpacked10 = .ok is s1 ∧ roots (ctx tiny) 10 (hole [0, 1, 2, 3, 4, 7, 8] unpacked10) = .ok is s2 ∧
    is.map (fun i => (i.level, i.count, i.isSealed)) = [(1, 4, true), (0, 2, true)] := by
  have key : ∀ {s : St env} (ns : List Nat), Reach (ctx tiny) s → Small env s → looseBranchesLeft ns s = true → rootLevel s.root < 10 →
      ∃ is s1 s2, roots (ctx tiny) 10 s = .ok is s1 ∧ roots (ctx tiny) 10 (hole ns s) = .ok is s2 := by
    intro s ns hr hs h hf
    unfold looseBranchesLeft at h
    cases ht : loaded tiny s with
    | none => rw [ht] at h; cases h
    | some t =>
      rw [ht] at h
      refine C92_branches tiny_ok hr hs (shows_of_loaded tiny_ok hr hs ht) (s2 := hole ns s) rfl (hole_coherent tiny _ _) ?_ hf
      intro i cs hn l hl
      have h2 := List.all_eq_true.1 h _ hn
      simp only [hl] at h2
      have h3 : ∀ (a b : Store) (l : Nat), a.blocks[l]? = b.blocks[l]? → a.get l = b.get l := by
        intro a b l h
        unfold Store.get
        rw [h]
      exact h3 _ _ l (of_decide_eq_true h2)
  obtain ⟨is, s1, s2, h1, h2⟩ := key [0, 1, 2, 3, 4, 7, 8] unpacked10_reach unpacked10_small (by decide +kernel) (by decide +kernel)
  have hv := unpacked10_roots
  unfold valueOf at hv
  rw [h1] at hv
  simp only [Option.map_some, Option.some.injEq] at hv
  exact ⟨is, s1, s2, h1, h2, hv⟩

example : ∃ (t : PTree types Nat) (is : List (Index types)) (cs : List (List (Option (Nat × Nat)))) (rest : List (Nat × Nat)), Shows (ctx tiny) unpacked10 t ∧ (∃ s', roots (ctx tiny) 10 unpacked10 = .ok is s') ∧
    is.map (fun i => (i.level, i.count, i.isSealed)) = [(1, 4, true), (0, 2, true)] ∧ (seq 0 10).map some = cs.flatten ++ rest.map some ∧
    BeginsUnsealed t rest := by
  obtain ⟨t, ht⟩ := unpacked10_shows
  obtain ⟨is, cs, rest, h1, _, _, h4, h5, h6⟩ := C92_roots tiny_ok unpacked10_reach unpacked10_small ht unpacked10_contains
  have hv := unpacked10_roots
  obtain ⟨s', hs'⟩ := h1 10 (by decide +kernel)
  unfold valueOf at hv
  rw [hs'] at hv
  simp only [Option.map_some, Option.some.injEq] at hv
  refine ⟨t, is, cs, rest, ht, ⟨s', hs'⟩, hv, h5, h6.resolve_left ?_⟩
  rintro rfl
  have key : ∀ {is : List (Index types)} {cs : List (List (Option (Nat × Nat)))}, Each (fun i d => d.length = i.count) is cs →
      cs.flatten.length = (is.map fun i => i.count).sum := by
    intro is
    induction is with
    | nil => intro cs h; cases cs with
      | nil => rfl
      | cons => exact h.elim
    | cons i is ih => intro cs h; cases cs with
      | nil => exact h.elim
      | cons c cs => simp only [List.flatten_cons, List.length_append, List.map_cons, List.sum_cons, h.1, ih h.2]
  have weaken : ∀ {is : List (Index types)} {cs : List (List (Option (Nat × Nat)))} {P : Index types → List (Option (Nat × Nat)) → Prop},
      Each (fun i d => P i d ∧ d.length = i.count ∧ Yields Tree.isPacked (some (i, (ctx tiny).sec, 0)) unpacked10 true) is cs →
        Each (fun i d => d.length = i.count) is cs := by
    intro is
    induction is with
    | nil => intro cs P h; cases cs with
      | nil => trivial
      | cons => exact h.elim
    | cons i is ih => intro cs P h; cases cs with
      | nil => exact h.elim
      | cons c cs => exact ⟨h.1.2.1, ih h.2⟩
  have h7 := key (weaken (h4 0))
  have h8 : (is.map fun i => i.count).sum = 6 := by
    have := congrArg (fun l => (l.map fun x : Nat × Nat × Bool => x.2.1).sum) hv
    rw [List.map_map] at this
    exact this
  have h9 := congrArg List.length h5
  rw [List.length_append] at h9
  have h10 : ((seq 0 10).map some).length = 10 := by decide
  have h11 := h10.symm.trans (h9.trans (congrArg (· + 0) (h7.trans h8)))
  exact absurd h11 (by decide)

/-- a failing `pack` on a store with room for one more block: the six elements of the roots remain, see `C25_refuted` -/
example : ∃ (t : PTree types Nat) (c' : List (Option (Nat × Nat))) (rest : List (Nat × Nat)), Shows (ctx tiny) nearlyFull t ∧
    Contains (ctx tiny) (endState (pack (ctx tiny) 10) nearlyFull) c' ∧ (seq 0 10).map some = c' ++ rest.map some ∧
    (rest = [] ∨ BeginsUnsealed t rest) := by
  have hs : Small env nearlyFull := small_of (by decide +kernel)
  have hc : Contains (ctx tiny) nearlyFull ((seq 0 10).map some) :=
    contains_of_ext0 tiny_ok unpacked10_reach unpacked10_small (withRoom_ext0 1 unpacked10) (withRoom_root 1 unpacked10) unpacked10_contains
  obtain ⟨t, ht⟩ := nearlyFull_reach.shows tiny_ok hs (by
    intro h
    have h2 : (nearlyFull.root.isNone = false) := by decide +kernel
    rw [h] at h2
    cases h2)
  have he := error_of C25_refuted.1
  obtain ⟨c', rest, h1, h2, h3⟩ := C25_pack_roots_partial tiny_ok nearlyFull_reach 10 (by decide +kernel) he (small_of (by decide +kernel)) ht hc
  exact ⟨t, c', rest, ht, h1, h2, h3⟩

/-- The packed tree of seven elements: all but the last one are in the roots. -/
example : ∃ t is s', Shows (ctx tiny) packed7 t ∧ roots (ctx tiny) 10 packed7 = .ok is s' ∧
    is.map (fun i => (i.level, i.count)) = [(1, 4), (0, 2)] ∧
    ∃ rest : List (Nat × Nat), ((seq 0 7).map some).drop (is.map fun i => i.count).sum = rest.map some ∧ rest.length < tiny.maxLeafCount := by
  obtain ⟨t, ht⟩ := packed7_reach.shows tiny_ok packed7_small (by
    intro h
    have h2 : (packed7.root.isNone = false) := by decide +kernel
    rw [h] at h2
    cases h2)
  obtain ⟨is, _, _, h1, _⟩ := C92_roots tiny_ok packed7_reach packed7_small ht packed7_contains
  obtain ⟨s', hs'⟩ := h1 10 (by decide +kernel)
  have hv : (valueOf (roots (ctx tiny) 10) packed7).map (List.map fun i => (i.level, i.count)) = some [(1, 4), (0, 2)] := by decide +kernel
  unfold valueOf at hv
  rw [hs'] at hv
  simp only [Option.map_some, Option.some.injEq] at hv
  exact ⟨t, is, s', ht, hs', hv, C92_packed tiny_ok packed7_steady packed7_small ht packed7_contains packed7_packed (by decide +kernel) hs'⟩

end Banyan
