import Verif.Proofs.Writes
import Verif.Props.Depth
import Verif.Props.Shape
import Verif.Props.Repair
/-
What is written: C71.
-/
set_option autoImplicit false
namespace Banyan

open PTree Concrete

variable {T : TreeTypes} {V : Type} {E : Env T V} {cx : Ctx E} {s s' : St E} {t : PTree T V}

theorem sublist_of_writes {bs : List Bytes} (hw : ∀ i, s'.root = some i → Writes E cx.sec s'.store i bs) (ht : Shows cx s' t) :
    bs.Sublist (t.blocks E s'.store) := (hw _ ht.root).sublist t ht.stored

/-- Appending does not lower the level of the root. -/
theorem extend_level_holds (ok : cx.Ok) {t : Option (PTree T V)} (hh : HoldsI (NodeInv.trivial cx) s t) (fuel : Nat) (xs : List (T.Key × V))
    (hf : rootLevel s.root < fuel) (hn : rootLevel s.root + xs.length + 1 < u32max) (he : extend cx fuel xs s = .ok () s') (hs : Small E s') :
    rootLevel s.root ≤ rootLevel s'.root := by
  suffices h : Post (extend cx fuel xs) s (fun _ s' => rootLevel s.root ≤ rootLevel s'.root) (fun _ => True) from h.ok he hs
  unfold extend
  by_cases hx : xs = []
  · subst hx
    exact Post.pure fun _ => Nat.le_refl _
  · rw [if_neg (by simpa using hx)]
    refine Post.getIndexBind ?_
    cases t with
    | none =>
      rw [hh.root]
      exact Post.mono0 (cx := cx) (Frame0.bind (frame_extendAbove ok.env _ _ _ _).frame0 fun _ => frame0_setIndex _)
        (Q := fun _ _ => True) (by unfold Post; split <;> exact fun _ => trivial) (fun _ _ _ _ _ => Nat.zero_le _) (fun _ h => h)
    | some t =>
      have hrl : rootLevel s.root = t.index.level := hh.level
      rw [hh.root]
      unfold extendAbove
      refine Post.bind0 (frame_extendAboveWith ok.env (frame_extend0 ok.env fuel) _ _ _).frame0 (fun _ => frame0_setIndex _)
        (extendAboveWith_some (I := NodeInv.trivial cx) (vals := fun _ => True) ok.env ok.types ok.cfg (fun _ _ => trivial)
          (frame_extend0 ok.env fuel) u32max t xs hx (fun _ _ => trivial) (by omega) s
          (extend0_spec (vals := fun _ => True) ok.env ok.types ok.cfg (fun _ _ => trivial) fuel t xs (fun _ _ => trivial) (by omega) (Or.inr fun _ => trivial) s
            (hh.good t rfl) hh.coherent)) ?_
      rintro ⟨i, rest⟩ s1 hext _ ⟨t', taken, g1, g2, g3, _⟩
      intro _
      have := g3.level
      simp only at g1
      show t.index.level ≤ i.level
      rw [g1]
      exact this

theorem extend_level (ok : cx.Ok) (hr : Reach cx s) (fuel : Nat) (xs : List (T.Key × V)) (hf : rootLevel s.root < fuel)
    (hn : rootCount s.root + xs.length ≤ maxElements) (he : extend cx fuel xs s = .ok () s') (hs : Small E s') :
    rootLevel s.root ≤ rootLevel s'.root := by
  obtain ⟨t, hi⟩ := ok.inv hr (((frame0_extend ok.env fuel xs).ok he).small hs)
  have h1 := hi.level
  have h2 := hi.count
  have h3 := rootCount_eq ok.types hi.holds
  have hm : maxElements = 2147483645 := rfl
  have hu : u32max = 4294967295 := rfl
  exact extend_level_holds ok hi.holds fuel xs hf (by omega) he hs

/-- C71 for `extend`: the blocks handed to the store are blocks of nodes of the new tree, each written once, children
before their parents and from left to right. Nothing else is written. Less than three blocks are written for
each new element, and two for each level of the tree, so large batches are cheap. -/
theorem C71_extend (ok : cx.Ok) (hr : Reach cx s) (fuel : Nat) (xs : List (T.Key × V)) (hf : rootLevel s.root < fuel)
    (hn : rootCount s.root + xs.length ≤ maxElements) (he : extend cx fuel xs s = .ok () s') (hs : Small E s') (ht : Shows cx s' t) :
    ∃ bs, s'.puts = s.puts ++ bs ∧ bs.Sublist (t.blocks E s'.store) ∧ bs.length ≤ 3 * xs.length + 2 * t.index.level - 1 := by
  obtain ⟨bs, h1, h2, h3, h4⟩ := (extend_writes ok.env ok.types ok.cfg fuel xs s).ok he hs
  have h5 := extend_level ok hr fuel xs hf hn he hs
  have h6 : rootLevel s'.root = t.index.level := by rw [ht.root]; rfl
  exact ⟨bs, h1, sublist_of_writes h2 ht, by rwa [Nat.max_eq_right h5, h6] at h4⟩

/-- C71 for `extend_unpacked`: the same. -/
theorem C71_extendUnpacked (ok : cx.Ok) (fuel : Nat) (xs : List (T.Key × V)) (he : extendUnpacked cx fuel xs s = .ok () s')
    (hs : Small E s') (ht : Shows cx s' t) :
    ∃ bs, s'.puts = s.puts ++ bs ∧ bs.Sublist (t.blocks E s'.store) ∧ bs.length ≤ 3 * xs.length + 2 * t.index.level - 1 := by
  obtain ⟨bs, h1, h2, h3, h4⟩ := (extendUnpacked_writes ok.env ok.types ok.cfg fuel xs s).ok he hs
  have h6 : rootLevel s'.root = t.index.level := by rw [ht.root]; rfl
  exact ⟨bs, h1, sublist_of_writes h2 ht, by rwa [h6] at h4⟩

/-- C71: appending to a packed tree costs a logarithmic number of blocks, and a constant number for each element. -/
theorem C71_log (ok : cx.Ok) (hr : Reach cx s) (fuel : Nat) (xs : List (T.Key × V)) (hf : rootLevel s.root < fuel)
    {c : List (Option (T.Key × V))} (hn : rootCount s.root + xs.length ≤ maxElements) (he : extend cx fuel xs s = .ok () s')
    (hs : Small E s') (hc : Contains cx s c) (hp : ReportsPacked cx s) :
    ∃ bs, s'.puts = s.puts ++ bs ∧ bs.length ≤ 3 * xs.length + 2 * Nat.log2 (c.length + xs.length) + 3 := by
  obtain ⟨bs, h1, h2, h3, h4⟩ := (extend_writes ok.env ok.types ok.cfg fuel xs s).ok he hs
  have h5 := extend_level ok hr fuel xs hf hn he hs
  rw [Nat.max_eq_right h5] at h4
  have hs0 := ((frame0_extend ok.env fuel xs).ok he).small hs
  have he' : s' = endState (extend cx fuel xs) s := by unfold endState; rw [he]
  have hr' : Reach cx s' := he' ▸ hr.run (.extend fuel xs (.refl s) hf hn)
  have hp' : ReportsPacked cx s' := C05_extend_keeps_packed ok hr fuel xs hf hn he hs hp
  have hc' : Contains cx s' (c ++ xs.map some) := C01_extend_appends ok hr fuel xs hf hn he hs hc
  have h6 := C70_log ok hr' hs hc' hp'
  rw [List.length_append, List.length_map] at h6
  exact ⟨bs, h1, Nat.le_trans h4 (by omega)⟩

/-- C71 for `retain`: only blocks of nodes of the new tree are written, children before their parents. -/
theorem C71_retain (ok : cx.Ok) (fuel : Nat) (q : Query T) (he : retain cx fuel q s = .ok () s') (hs : Small E s') (ht : Shows cx s' t) :
    ∃ bs, s'.puts = s.puts ++ bs ∧ bs.Sublist (t.blocks E s'.store) := by
  obtain ⟨bs, h1, h2, h3⟩ := (retain_writes ok.env fuel q s).ok he hs
  exact ⟨bs, h1, sublist_of_writes h2 ht⟩

/-- C71 for `repair`: the same, for whatever is left of the tree. -/
theorem C71_repair (ok : cx.Ok) (fuel : Nat) {report : List (RepairMsg T)} (he : repair cx fuel s = .ok report s') (hs : Small E s')
    (ht : Shows cx s' t) : ∃ bs, s'.puts = s.puts ++ bs ∧ bs.Sublist (t.blocks E s'.store) := by
  obtain ⟨bs, h1, h2, h3⟩ := (repair_writes ok.env fuel s).ok he hs
  exact ⟨bs, h1, sublist_of_writes h2 ht⟩

/-! Concrete cases, with leaves of two elements and branches of two children. -/

/-- How many of the blocks written since `s` are not blocks of the tree. -/
def garbage (s s' : St env) (t : PTree types Nat) : Nat :=
  ((s'.puts.drop s.puts.length).filter fun b => !(t.blocks env s'.store).contains b).length

/-- C71: the seven blocks of a tree of seven elements are written once each. -/
example : ∃ t bs, Shows (ctx tiny) packed7 t ∧ packed7.puts = (start 100).puts ++ bs ∧ bs.Sublist (t.blocks env packed7.store)
    ∧ bs.length = 7 ∧ (t.blocks env packed7.store).length = 7 := by
  have h1 : (match loaded tiny packed7 with
      | some t => decide ((t.blocks env packed7.store).length = 7 ∧ packed7.puts.length = (start 100).puts.length + 7)
      | none => false) = true := by decide +kernel
  cases ht : loaded tiny packed7 with
  | none => rw [ht] at h1; cases h1
  | some t =>
    rw [ht] at h1
    have h1 := of_decide_eq_true h1
    have st := shows_of_loaded tiny_ok packed7_reach packed7_small ht
    obtain ⟨bs, h2, h3, _⟩ := C71_extend (cx := ctx tiny) (s := start 100) (s' := packed7) tiny_ok (start_reach tiny 100) 10 (seq 0 7)
      (by decide +kernel) (by decide +kernel) packed7_ok packed7_small st
    have h4 := congrArg List.length h2
    rw [List.length_append] at h4
    exact ⟨t, bs, st, h2, h3, by omega, h1.1⟩

/-- C71: three more elements without packing take four blocks, and the other seven blocks of the tree are shared. -/
example : ∃ t bs, Shows (ctx tiny) unpacked10 t ∧ unpacked10.puts = packed7.puts ++ bs ∧ bs.Sublist (t.blocks env unpacked10.store)
    ∧ bs.length = 4 ∧ (t.blocks env unpacked10.store).length = 11 := by
  have h1 : (match loaded tiny unpacked10 with
      | some t => decide ((t.blocks env unpacked10.store).length = 11 ∧ unpacked10.puts.length = packed7.puts.length + 4)
      | none => false) = true := by decide +kernel
  cases ht : loaded tiny unpacked10 with
  | none => rw [ht] at h1; cases h1
  | some t =>
    rw [ht] at h1
    have h1 := of_decide_eq_true h1
    have st := shows_of_loaded tiny_ok unpacked10_reach unpacked10_small ht
    obtain ⟨bs, h2, h3, _⟩ := C71_extendUnpacked (cx := ctx tiny) (s := packed7) (s' := unpacked10) tiny_ok 10 (seq 7 3) unpacked10_ok
      unpacked10_small st
    have h4 := congrArg List.length h2
    rw [List.length_append] at h4
    exact ⟨t, bs, st, h2, h3, by omega, h1.1⟩

/-- Seven elements, of which the first four are purged. -/
def kept7 : St env := endState (retain (ctx tiny) 10 (offsetRangeQuery ⟨.included 4, .unbounded⟩)) packed7

theorem kept7_ok : retain (ctx tiny) 10 (offsetRangeQuery ⟨.included 4, .unbounded⟩) packed7 = .ok () kept7 := ok_of_succeeds (by decide +kernel)

theorem kept7_reach : Reach (ctx tiny) kept7 := reach_retain packed7_reach 10 _ (by decide +kernel)

theorem kept7_small : Small env kept7 := small_of (by decide +kernel)

/-- C71: purging the first four of seven elements writes one block, the new root. -/
example : ∃ t bs, Shows (ctx tiny) kept7 t ∧ kept7.puts = packed7.puts ++ bs ∧ bs.Sublist (t.blocks env kept7.store) ∧ bs.length = 1 := by
  have h1 : (match loaded tiny kept7 with
      | some _ => decide (kept7.puts.length = packed7.puts.length + 1)
      | none => false) = true := by decide +kernel
  cases ht : loaded tiny kept7 with
  | none => rw [ht] at h1; cases h1
  | some t =>
    rw [ht] at h1
    have h1 := of_decide_eq_true h1
    have st := shows_of_loaded tiny_ok kept7_reach kept7_small ht
    obtain ⟨bs, h2, h3⟩ := C71_retain (cx := ctx tiny) (s := packed7) (s' := kept7) tiny_ok 10 _ kept7_ok kept7_small st
    have h4 := congrArg List.length h2
    rw [List.length_append] at h4
    exact ⟨t, bs, st, h2, h3, by omega⟩

/-- C71: the repair of seven elements that lost the branch over the first four writes one block, the new root. -/
example : ∃ t bs, Shows (ctx tiny) (repaired [2] packed7) t ∧ (repaired [2] packed7).puts = (hole [2] packed7).puts ++ bs
    ∧ bs.Sublist (t.blocks env (repaired [2] packed7).store) ∧ bs.length = 1 := by
  have hs : Small env (repaired [2] packed7) := small_of (by decide +kernel)
  have hr : Reach (ctx tiny) (repaired [2] packed7) := ReachIn.repair 10 _ packed7_reach packed7_packed (hole_damaged tiny [2] packed7)
    (hole_coherent tiny [2] packed7) (by decide +kernel) lost2 (by constructor <;> simp)
  have hl : (loaded tiny (repaired [2] packed7)).isSome = true := by decide +kernel
  obtain ⟨t, hl⟩ := Option.isSome_iff_exists.1 hl
  have ht := shows_of_loaded tiny_ok hr hs hl
  have h1 : (repaired [2] packed7).puts.length = (hole [2] packed7).puts.length + 1 := by decide +kernel
  obtain ⟨bs, h2, h3⟩ := C71_repair (cx := ctx tiny) (s := hole [2] packed7) (s' := repaired [2] packed7) tiny_ok 10 lost2 hs ht
  have h4 := congrArg List.length h2
  rw [List.length_append] at h4
  exact ⟨t, bs, ht, h2, h3, by omega⟩

/-- Ten elements, packed. -/
def repacked10 : St env := endState (pack (ctx tiny) 20) unpacked10

/-- C71 does not hold for `pack`: packing the ten elements of `unpacked10` writes blocks that are not part of the packed
tree. `pack` first writes a branch over the sealed subtrees it keeps, and appending the other elements replaces it. -/
theorem C71_pack_writes_garbage : ∃ t b, pack (ctx tiny) 20 unpacked10 = .ok () repacked10 ∧ Shows (ctx tiny) repacked10 t
    ∧ b ∈ repacked10.puts.drop unpacked10.puts.length ∧ b ∉ t.blocks env repacked10.store := by
  have h1 : (match loaded tiny repacked10 with
      | some t => decide (0 < garbage unpacked10 repacked10 t)
      | none => false) = true := by decide +kernel
  have hs : Small env repacked10 := small_of (by decide +kernel)
  have hr : Reach (ctx tiny) repacked10 := reach_pack unpacked10_reach 20 (by decide +kernel)
  cases ht : loaded tiny repacked10 with
  | none => rw [ht] at h1; cases h1
  | some t =>
    rw [ht] at h1
    have h1 := of_decide_eq_true h1
    obtain ⟨b, hb⟩ := List.exists_mem_of_length_pos h1
    rw [List.mem_filter] at hb
    refine ⟨t, b, ok_of_succeeds (by decide +kernel), shows_of_loaded tiny_ok hr hs ht, hb.1, ?_⟩
    intro hc
    have := hb.2
    rw [List.contains_iff_mem.2 hc] at this
    cases this

end Banyan
