import Verif.Proofs.Partial
import Verif.Props.Shape
import Verif.Props.Iter
import Verif.Concrete.Hole
/-
Reading from stores that hold only a part of the blocks of a tree: C66.
-/
set_option autoImplicit false
namespace Banyan

open PTree Concrete

variable {T : TreeTypes} {V : Type} {E : Env T V} {X : Type} {cx : Ctx E} {s s2 : St E} {c : List (Option (T.Key × V))} {t : PTree T V}

/-- The loaded tree is the one of the invariant. -/
theorem Reach.snap (ok : cx.Ok) (hr : Reach cx s) (hs : Small E s) (sh : Shows cx s t) : Snap cx s (some t) s := by
  obtain ⟨t0, hi⟩ := ok.inv hr hs
  obtain rfl := hi.shows ok.env sh
  exact hi.holds.snap

/-- C66: the chunks of a filtered iteration (in both directions) are the same if only the blocks of the nodes the query
selects are available. -/
theorem C66_chunks (ok : cx.Ok) (hr : Reach cx s) (hs : Small E s) (sh : Shows cx s t) (q : Query T) (mode : Mode) (mkExtra : Index T → X)
    (hsame : SameBlocks E s.store s2.store (t.needs q 0)) (hco : Coherent E cx.sec s2) :
    ∃ chunks, Delivers (fun between n fuel t => Tree.chunks q mode mkExtra between n fuel t) cx.sec (snapshot cx s) s chunks ∧
      Delivers (fun between n fuel t => Tree.chunks q mode mkExtra between n fuel t) cx.sec (snapshot cx s) s2 chunks :=
  ⟨_, (hr.snap ok hs sh).chunks ok.env ok.types mode, (hr.snap ok hs sh).chunks_partial ok.env ok.types mode hsame hco⟩

/-- C66: all matching elements are delivered if only the blocks of the nodes the query selects are available. -/
theorem C66_elements (ok : cx.Ok) (hr : Reach cx s) (hs : Small E s) (sh : Shows cx s t) (hc : Contains cx s c) (q : Query T)
    (covers : T.Summary → T.Key → Prop) (m : Nat → T.Key → Bool) (hcov : Covering T covers) (hq : QueryFor q covers m)
    (hsame : SameBlocks E s.store s2.store (t.needs q 0)) (hco : Coherent E cx.sec s2)
    (between : Nat → St E → St E) (hb : Harmless cx.sec between) (n fuel : Nat) (hf : 2 * rootLevel s.root + 4 ≤ fuel)
    (hn : rootCount s.root ≤ n) :
    ∃ s', Tree.elements q .forward between n fuel (snapshot cx s) s2 = .ok ((matching m 0 c).map .ok) s' := by
  obtain ⟨chunks, h1, h2⟩ := C66_chunks ok hr hs sh q .forward (fun _ => ()) hsame hco
  obtain ⟨s1, h1⟩ := h1 between n fuel hb (by rw [snapshot_level]; exact hf)
  obtain ⟨s', h2⟩ := h2 between n fuel hb (by rw [snapshot_level]; exact hf)
  obtain ⟨s3, r, h3, _, h4⟩ := C09_filtered_exact ok hr hs hc q covers m hcov hq between hb n fuel hf
  refine ⟨s', ?_⟩
  unfold Tree.elements at h3 ⊢
  rw [bind_apply] at h3 ⊢
  simp only at h1 h2
  rw [h1] at h3
  rw [h2]
  rw [← h4 hn]
  exact congrArg (fun x => EStateM.Result.ok x s') (EStateM.Result.ok.inj h3).1

/-- C66: what the query selects. Each needed leaf contains an element that is delivered. -/
theorem C66_needed_leaf (ok : cx.Ok) (hr : Reach cx s) (hs : Small E s) (sh : Shows cx s t) (hc : Contains cx s c) (q : Query T)
    (covers : T.Summary → T.Key → Prop) (m : Nat → T.Key → Bool) (hq : QueryFor q covers m) (i : LeafIndex T) (vs : List V)
    (hn : .leaf i vs ∈ t.needs q 0) :
    ∃ o j k v, At c o (.leaf i vs) ∧ (PTree.leaf i vs).content[j]? = some (some (k, v)) ∧ (o + j, k, v) ∈ matching m 0 c := by
  obtain ⟨t0, hi⟩ := ok.inv hr hs
  obtain rfl := hi.shows ok.env sh
  rw [hi.holds.contains ok.env ok.types] at hc
  subst hc
  have hcnt := (hi.holds.snap.wf t rfl).counts
  obtain ⟨o, h1, j, k, v, h2, h3⟩ := needs_match ok.types hq t hcnt 0 i vs hn
  refine ⟨o, j, k, v, h1, h2, ?_⟩
  rw [Nat.zero_add] at h3
  rw [C09_matching_mem]
  refine ⟨?_, h3⟩
  obtain ⟨a, b, h4, h5⟩ := h1
  show t.content[o + j]? = _
  have hj := (List.getElem?_eq_some_iff.mp h2).1
  rw [h4, List.append_assoc, List.getElem?_append_right (by omega), h5, Nat.add_sub_cancel_left, List.getElem?_append_left hj]
  exact h2

/-- C66: reading a position needs the blocks on the way to it only. -/
theorem C66_get (ok : cx.Ok) (hr : Reach cx s) (hs : Small E s) (sh : Shows cx s t) (hc : Contains cx s c) (o : Nat)
    (hsame : SameBlocks E s.store s2.store (t.wayTo o)) (hco : Coherent E cx.sec s2) :
    Yields (fun fuel t => Tree.get fuel t o) (snapshot cx s) s2 (c[o]?.join) := by
  have hsn := hr.snap ok hs sh
  have := hc.unique (hsn.collect ok.env ok.types)
  subst this
  exact hsn.get_partial ok.env ok.types o hsame hco

/-- C66: `collect_from` needs the blocks of nodes with elements from the offset on. -/
theorem C66_collectFrom (ok : cx.Ok) (hr : Reach cx s) (hs : Small E s) (sh : Shows cx s t) (hc : Contains cx s c) (o : Nat)
    (hsame : SameBlocks E s.store s2.store (t.tailFrom o)) (hco : Coherent E cx.sec s2) :
    Yields (fun fuel t => Tree.collectFrom fuel t o) (snapshot cx s) s2 (c.drop o) := by
  have hsn := hr.snap ok hs sh
  have := hc.unique (hsn.collect ok.env ok.types)
  subst this
  exact hsn.collectFrom_partial ok.env ok.types o hsame hco

/-! ### an example -/

theorem punch_keeps (ns : List Nat) (σ : Store) (l : Nat) (h : l ∉ ns) : (punch ns σ).get l = σ.get l := by
  have key : ∀ (ns : List Nat) (bs : List (Option Bytes)), l ∉ ns → (ns.foldl (fun b n => b.set n none) bs)[l]? = bs[l]? := by
    intro ns
    induction ns with
    | nil => intro bs _; rfl
    | cons n ns ih =>
      intro bs hl
      rw [List.mem_cons, not_or] at hl
      rw [List.foldl_cons, ih _ hl.2, List.getElem?_set_ne (fun e => hl.1 e.symm)]
  unfold Store.get
  rw [show (punch ns σ).blocks[l]? = σ.blocks[l]? from key ns _ h]

/-- The blocks of the nodes are not among the lost ones. -/
def avoids (ns : List Nat) (l : List (PTree types Nat)) : Bool :=
  l.all fun n => match (show Option Nat from n.index.link) with | some l => !ns.contains l | none => true

theorem not_mem_of {ns : List Nat} {k : Nat} (h : (!ns.contains k) = true) : k ∉ ns := by simpa using h

theorem sameBlocks_of (ns : List Nat) (s : St env) (l : List (PTree types Nat)) (h : avoids ns l = true) :
    SameBlocks env s.store (hole ns s).store l := by
  intro n hn k hk
  have h1 := List.all_eq_true.mp h n hn
  rw [show (show Option Nat from n.index.link) = some k from hk] at h1
  exact punch_keeps ns s.store k (not_mem_of h1)

/-- The elements with keys from 3 to 4 of the tree of ten elements are delivered without the blocks of the other leaves and
of the last branch, and so is the element at offset 5. The tail of the tree does not need the blocks at the start. -/
theorem example66 : ((loaded tiny unpacked10).map fun t =>
    avoids [0, 4, 7, 8, 9] (t.needs (keyRange 3 4) 0) && avoids [0, 1, 2, 4, 7, 8, 9] (t.wayTo 5) && avoids [0, 1, 2] (t.tailFrom 5)) = some true := by
  decide +kernel

example : (∃ s', Tree.elements (keyRange 3 4) .forward idle 10 20 (snapshot (ctx tiny) unpacked10) (hole [0, 4, 7, 8, 9] unpacked10) =
      .ok ([((3 : Nat), (3 : Nat), (30 : Nat)), (4, 4, 40)].map .ok) s') ∧
    Yields (fun fuel t => Tree.get fuel t 5) (snapshot (ctx tiny) unpacked10) (hole [0, 1, 2, 4, 7, 8, 9] unpacked10) (some ((5 : Nat), 50)) ∧
    Yields (fun fuel t => Tree.collectFrom fuel t 5) (snapshot (ctx tiny) unpacked10) (hole [0, 1, 2] unpacked10) ((seq 5 5).map some) := by
  have hx := example66
  cases ht : loaded tiny unpacked10 with
  | none => rw [ht] at hx; cases hx
  | some t =>
    rw [ht] at hx
    simp only [Option.map_some, Option.some.injEq, Bool.and_eq_true] at hx
    have sh := shows_of_loaded tiny_ok unpacked10_reach unpacked10_small ht
    refine ⟨?_, ?_, ?_⟩
    · obtain ⟨s', h⟩ := C66_elements (s2 := hole [0, 4, 7, 8, 9] unpacked10) tiny_ok unpacked10_reach unpacked10_small sh unpacked10_contains (keyRange 3 4) covers _ covering
        (keyRange_queryFor 3 4) (sameBlocks_of _ _ _ hx.1.1) (hole_coherent tiny _ _) idle (idle_harmless _) 10 20 (by decide +kernel) (by decide +kernel)
      exact ⟨s', h⟩
    · exact C66_get (s2 := hole [0, 1, 2, 4, 7, 8, 9] unpacked10) tiny_ok unpacked10_reach unpacked10_small sh unpacked10_contains 5 (sameBlocks_of _ _ _ hx.1.2) (hole_coherent tiny _ _)
    · exact C66_collectFrom (s2 := hole [0, 1, 2] unpacked10) tiny_ok unpacked10_reach unpacked10_small sh unpacked10_contains 5 (sameBlocks_of _ _ _ hx.2) (hole_coherent tiny _ _)

end Banyan
