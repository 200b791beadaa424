import Verif.Proofs.SnapIter
import Verif.Props.Read
/-
Iterating over the elements and chunks of a tree: C09, C10, C11, C12.
-/
set_option autoImplicit false
namespace Banyan

open PTree Concrete

variable {T : TreeTypes} {V : Type} {E : Env T V} {X : Type} {cx : Ctx E} {s : St E} {c : List (Option (T.Key × V))}

/-- C10: for any query, the chunks delivered by an iteration have non-empty ranges that follow each other without holes
from 0 to the number of elements. A chunk contains only elements of the tree (with their offsets, in ascending order)
which are in its range. -/
theorem C10_chunks_partition (ok : cx.Ok) (hr : Reach cx s) (hs : Small E s) (hc : Contains cx s c) (q : Query T)
    (mkExtra : Index T → X) :
    ∃ chunks, Delivers (fun between n fuel t => Tree.chunks q .forward mkExtra between n fuel t) cx.sec (snapshot cx s) s chunks ∧
      Consecutive 0 chunks (rootCount s.root) ∧
      ∀ ch ∈ chunks, ch.data.Pairwise (fun a b => a.1 < b.1) ∧
        ∀ n k v, (n, k, v) ∈ ch.data → ch.range.1 ≤ n ∧ n < ch.range.2 ∧ c[n]? = some (some (k, v)) := by
  obtain ⟨t, hi⟩ := ok.inv hr hs
  rw [hi.holds.contains ok.env ok.types] at hc
  subst hc
  have hsn := hi.holds.snap
  refine ⟨_, hsn.chunks ok.env ok.types .forward, ?_, ?_⟩
  · have hroot := hsn.root
    cases t with
    | none => rw [hroot]; rfl
    | some t =>
      rw [hroot]
      have := chunksOf_consecutive (q := q) (mkExtra := mkExtra) t (hsn.seen ok.types).ok hsn.positive 0
      rw [Nat.zero_add] at this
      exact this
  · intro ch hch
    cases t with
    | none => cases hch
    | some t =>
      obtain ⟨h1, h2, h3⟩ := chunksOf_chunkOf ok.types t (hsn.seen ok.types).ok 0 ch hch
      refine ⟨(matching_sorted _ _ _).sublist h3, fun n k v hn => ?_⟩
      obtain ⟨h4, h5, _⟩ := (mem_matching ..).mp (h3.subset hn)
      have h6 := (List.getElem?_eq_some_iff.mp h5).1
      rw [List.length_take, List.length_drop] at h6
      rw [List.getElem?_take_of_lt (by omega), List.getElem?_drop] at h5
      refine ⟨h4, by omega, ?_⟩
      rw [← h5]
      show t.content[n]? = _
      congr 1
      omega

/-- C11: iterating backward delivers the same chunks in the opposite order. -/
theorem C11_reverse_chunks (ok : cx.Ok) (hr : Reach cx s) (hs : Small E s) (q : Query T) (mkExtra : Index T → X)
    {chunks : List (Chunk T V X)}
    (hd : Delivers (fun between n fuel t => Tree.chunks q .forward mkExtra between n fuel t) cx.sec (snapshot cx s) s chunks) :
    Delivers (fun between n fuel t => Tree.chunks q .backward mkExtra between n fuel t) cx.sec (snapshot cx s) s chunks.reverse := by
  obtain ⟨t, hi⟩ := ok.inv hr hs
  have hsn := hi.holds.snap
  have h1 := hsn.chunks (q := q) (mkExtra := mkExtra) ok.env ok.types .forward
  have := hd.unique h1
  subst this
  exact hsn.chunks (q := q) (mkExtra := mkExtra) ok.env ok.types .backward

/-- C09: iterating over the elements with a query that selects the elements satisfying `m` delivers the elements of the
content that are present and satisfy `m`, with their offsets, in ascending order; a consumer that stops early gets a
prefix. The number of chunks to be read is at most the number of elements. -/
theorem C09_filtered_exact (ok : cx.Ok) (hr : Reach cx s) (hs : Small E s) (hc : Contains cx s c) (q : Query T)
    (covers : T.Summary → T.Key → Prop) (m : Nat → T.Key → Bool) (hcov : Covering T covers) (hq : QueryFor q covers m)
    (between : Nat → St E → St E) (hb : Harmless cx.sec between) (n fuel : Nat) (hf : 2 * rootLevel s.root + 4 ≤ fuel) :
    ∃ s' r, Tree.elements q .forward between n fuel (snapshot cx s) s = .ok (r.map .ok) s' ∧ r <+: matching m 0 c ∧
      (rootCount s.root ≤ n → r = matching m 0 c) := by
  obtain ⟨t, hi⟩ := ok.inv hr hs
  rw [hi.holds.contains ok.env ok.types] at hc
  subst hc
  have hsn := hi.holds.snap
  obtain ⟨s', h1⟩ := hsn.chunks (q := q) (mkExtra := fun _ => ()) ok.env ok.types .forward between n fuel hb (by rw [snapshot_level]; exact hf)
  have h2 : (optChunks q (fun _ => ()) t).flatMap Chunk.data = matching m 0 (optContent t) := by
    cases t with
    | none => rfl
    | some t => exact chunksOf_matching ok.types hcov hq t (hsn.wf t rfl).formed 0
  refine ⟨s', ((optChunks q (fun _ => ()) t).take n).flatMap Chunk.data, ?_, ?_, ?_⟩
  · unfold Tree.elements
    rw [bind_apply]
    simp only at h1
    rw [h1]
    exact congrArg (fun x => EStateM.Result.ok x s') (flattenChunks_ok _)
  · rw [← h2]
    conv => rhs; rw [← List.take_append_drop n (optChunks q (fun _ => ()) t), List.flatMap_append]
    exact List.prefix_append _ _
  · intro hn
    rw [← h2, List.take_of_length_le]
    refine Nat.le_trans ?_ hn
    have hroot := hsn.root
    cases t with
    | none => exact Nat.zero_le _
    | some t =>
      have := consecutive_length (chunksOf_consecutive (q := q) (mkExtra := fun _ => ()) t (hsn.seen ok.types).ok hsn.positive 0)
      rw [hroot]
      rw [Nat.zero_add, Nat.zero_add] at this
      exact this

/-- `matching` is what it is meant to be. -/
theorem C09_matching_mem (m : Nat → T.Key → Bool) (n : Nat) (k : T.Key) (v : V) :
    (n, k, v) ∈ matching m 0 c ↔ c[n]? = some (some (k, v)) ∧ m n k = true := by
  rw [mem_matching]
  simp

theorem C09_matching_ascending (m : Nat → T.Key → Bool) : (matching m 0 c).Pairwise fun a b => a.1 < b.1 := matching_sorted _ _ _

/-- The elements with keys from 3 to 8 of a tree of which the first four elements have been removed. -/
example : ∃ s' r, Tree.elements (keyRange 3 8) .forward idle 10 20 (snapshot (ctx tiny) retained10) retained10 = .ok (r.map .ok) s' ∧
    r = [((4 : Nat), (4 : Nat), (40 : Nat)), (5, 5, 50), (6, 6, 60), (7, 7, 70), (8, 8, 80)] := by
  obtain ⟨s', r, h1, _, h3⟩ := C09_filtered_exact tiny_ok retained10_reach retained10_small retained10_contains (keyRange 3 8) covers _
    covering (keyRange_queryFor 3 8) idle (idle_harmless _) 10 20 (by decide +kernel)
  exact ⟨s', r, h1, h3 (by decide +kernel)⟩

/-- The chunks of that tree for the same query, forward and backward. -/
example : ∃ chunks : List (Chunk types Nat Bool),
    Delivers (fun between n fuel t => Tree.chunks (keyRange 3 8) .forward (fun i => i.isSealed) between n fuel t) (ctx tiny).sec
      (snapshot (ctx tiny) retained10) retained10 chunks ∧
    Delivers (fun between n fuel t => Tree.chunks (keyRange 3 8) .backward (fun i => i.isSealed) between n fuel t) (ctx tiny).sec
      (snapshot (ctx tiny) retained10) retained10 chunks.reverse ∧
    Consecutive 0 chunks 10 := by
  obtain ⟨chunks, h1, h2, _⟩ := C10_chunks_partition tiny_ok retained10_reach retained10_small retained10_contains (keyRange 3 8)
    (fun i => i.isSealed)
  have h3 : rootCount retained10.root = 10 := by decide +kernel
  rw [h3] at h2
  exact ⟨chunks, h1, C11_reverse_chunks tiny_ok retained10_reach retained10_small _ _ h1, h2⟩

/-- C12, the part that holds: iterating over the elements backward delivers the matching elements chunk by chunk: the
elements are grouped into consecutive ranges, the groups come in descending order, but within a group the elements are
in ascending order. In particular every matching element is delivered exactly once. What is missing: the order within
a chunk, see `C12_refuted`. -/
theorem C12_reverse_elements_partial (ok : cx.Ok) (hr : Reach cx s) (hs : Small E s) (hc : Contains cx s c) (q : Query T)
    (covers : T.Summary → T.Key → Prop) (m : Nat → T.Key → Bool) (hcov : Covering T covers) (hq : QueryFor q covers m)
    (between : Nat → St E → St E) (hb : Harmless cx.sec between) (n fuel : Nat) (hf : 2 * rootLevel s.root + 4 ≤ fuel)
    (hn : rootCount s.root ≤ n) :
    ∃ (s' : St E) (groups : List (List (Nat × T.Key × V))), Tree.elements q .backward between n fuel (snapshot cx s) s = .ok (groups.reverse.flatten.map .ok) s' ∧
      groups.flatten = matching m 0 c := by
  obtain ⟨t, hi⟩ := ok.inv hr hs
  rw [hi.holds.contains ok.env ok.types] at hc
  subst hc
  have hsn := hi.holds.snap
  obtain ⟨s', h1⟩ := hsn.chunks (q := q) (mkExtra := fun _ => ()) ok.env ok.types .backward between n fuel hb (by rw [snapshot_level]; exact hf)
  have h2 : (optChunks q (fun _ => ()) t).flatMap Chunk.data = matching m 0 (optContent t) := by
    cases t with
    | none => rfl
    | some t => exact chunksOf_matching ok.types hcov hq t (hsn.wf t rfl).formed 0
  have h3 : (optChunks q (fun _ => ()) t).length ≤ n := by
    refine Nat.le_trans ?_ hn
    have hroot := hsn.root
    cases t with
    | none => exact Nat.zero_le _
    | some t =>
      have := consecutive_length (chunksOf_consecutive (q := q) (mkExtra := fun _ => ()) t (hsn.seen ok.types).ok hsn.positive 0)
      rw [hroot]
      rw [Nat.zero_add, Nat.zero_add] at this
      exact this
  refine ⟨s', (optChunks q (fun _ => ()) t).map Chunk.data, ?_, ?_⟩
  · unfold Tree.elements
    rw [bind_apply]
    simp only [ordered] at h1
    rw [List.take_of_length_le (by simpa using h3)] at h1
    rw [h1]
    show EStateM.Result.ok (flattenChunks _) s' = _
    rw [flattenChunks_ok, ← List.map_reverse, List.flatMap_def]
  · rw [← h2, List.flatMap_def]

/-- The elements delivered in reverse, for the tree of seven elements with two elements per leaf. -/
def reversed7 : Option (List (Nat × Nat × Nat)) :=
  (valueOf (Tree.elements allQuery .backward idle 20 20 (snapshot (ctx tiny) packed7)) packed7).map
    fun l => l.filterMap fun | .ok x => some x | .error _ => none

/-- C12 is false: within a chunk the elements are in ascending order. -/
theorem C12_refuted : reversed7 = some [(6, 6, 60), (4, 4, 40), (5, 5, 50), (2, 2, 20), (3, 3, 30), (0, 0, 0), (1, 1, 10)] := by
  decide +kernel

end Banyan
