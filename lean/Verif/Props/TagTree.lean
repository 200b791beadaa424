import Verif.Proofs.TagTree
import Verif.Concrete.Tagged
import Verif.Concrete.LoadG
/-
Tag queries on trees and compact sequences: C48, C56.
-/
set_option autoImplicit false
namespace Banyan

open PTree Tag Concrete

/-! ### C56 -/

/-- All ways of reading the sequence made from a list agree with the list. -/
def ReadsAs {β : Type} (S : CompactSeq β) (l : List β) : Prop :=
  S.toVec (S.ofList l) = l ∧ S.len (S.ofList l) = l.length ∧ (∀ i, S.get (S.ofList l) i = l[i]?) ∧
    S.first (S.ofList l) = l.head? ∧ S.last (S.ofList l) = l.getLast? ∧
    ∀ bits : List Bool, bits.length = l.length → S.select (S.ofList l) bits = ((l.zip bits).filter Prod.snd).map Prod.fst

theorem zip_select {β : Type} (l : List β) (bits : List Bool) (h : bits.length = l.length) :
    ((List.range l.length).filterMap fun i => if bits[i]? = some true then l[i]? else none) = ((l.zip bits).filter Prod.snd).map Prod.fst := by
  induction l generalizing bits with
  | nil => rfl
  | cons a l ih =>
    cases bits with
    | nil => cases h
    | cons b bits =>
      rw [List.length_cons, List.range_succ_eq_map, List.filterMap_cons, List.filterMap_map]
      have h1 := ih bits (by simpa using h)
      have h2 : ((fun i => if (b :: bits)[i]? = some true then (a :: l)[i]? else none) ∘ Nat.succ) =
          fun i => if bits[i]? = some true then l[i]? else none := by
        funext i
        simp only [Function.comp, List.getElem?_cons_succ]
      rw [h2, h1]
      cases b <;> simp

theorem range_filterMap {β : Type} (l : List β) : (List.range l.length).filterMap (fun i => l[i]?) = l := by
  have := zip_select l (List.replicate l.length true) (by simp)
  have h1 : (List.range l.length).filterMap (fun i => l[i]?) =
      (List.range l.length).filterMap fun i => if (List.replicate l.length true)[i]? = some true then l[i]? else none := by
    have key : ∀ r : List Nat, (∀ i ∈ r, i < l.length) → r.filterMap (fun i => l[i]?) =
        r.filterMap fun i => if (List.replicate l.length true)[i]? = some true then l[i]? else none := by
      intro r hr
      induction r with
      | nil => rfl
      | cons i r ih =>
        rw [List.filterMap_cons, List.filterMap_cons, ih fun j hj => hr j (List.mem_cons_of_mem _ hj), List.getElem?_replicate,
          if_pos (hr i (by simp))]
        simp
    exact key _ fun i hi => List.mem_range.mp hi
  rw [h1, this]
  clear this h1
  induction l with
  | nil => rfl
  | cons a l ih =>
    rw [List.length_cons, List.replicate_succ, List.zip_cons_cons, List.filter_cons_of_pos rfl, List.map_cons, ih]

/-- C56: every sequence type that respects the contract reads back as the list it was made from. -/
theorem C56_contract {β : Type} (S : CompactSeq β) (h : S.Lawful) (l : List β) (hl : l ≠ []) : ReadsAs S l := by
  have h1 := h.len_ofList l hl
  have h2 : S.get (S.ofList l) = fun i => l[i]? := funext fun i => h.get_ofList l i hl
  refine ⟨?_, h1, fun i => congrFun h2 i, ?_, ?_, ?_⟩
  · unfold CompactSeq.toVec
    rw [h1, h2, range_filterMap]
  · unfold CompactSeq.first
    rw [h2, List.head?_eq_getElem?]
  · unfold CompactSeq.last
    rw [h1, h2, if_neg (by simpa using hl), List.getLast?_eq_getElem?]
  · intro bits hb
    unfold CompactSeq.select
    rw [h1, h2]
    exact zip_select l bits hb

/-- C56: `VecSeq`, also for the empty list. -/
theorem C56_vec {β : Type} (l : List β) : ReadsAs (vecSeq β) l := by
  cases l with
  | nil => exact ⟨rfl, rfl, fun _ => rfl, rfl, rfl, fun bits hb => by cases bits <;> rfl⟩
  | cons a l => exact C56_contract _ (vecSeq_lawful β) _ (List.cons_ne_nil a l)

/-- C56: `UnitSeq`, also for the empty list; it is encoded as its length. -/
theorem C56_unit (l : List Unit) : ReadsAs unitSeq l ∧ unitSeqNumber (unitSeq.ofList l) = l.length ∧
    unitSeqOfNumber l.length = unitSeq.ofList l := by
  refine ⟨?_, rfl, rfl⟩
  cases l with
  | nil => exact ⟨rfl, rfl, fun _ => rfl, rfl, rfl, fun bits hb => by cases bits <;> rfl⟩
  | cons a l => exact C56_contract _ unitSeq_lawful _ (List.cons_ne_nil a l)

variable {α L : Type} [TotalOrd α] [DecidableEq L]

/-- C56: `KeySeq`, for all lists with at most 2^32 different tags: collecting the keys does not panic, nor do the ways of
reading them back, which all agree with the list; the same holds after encoding and decoding. -/
theorem C56_keys (l : List (Key α)) (h : FewTags (l.map Key.tags)) :
    ∃ s, KeySeq.fromIter l = some s ∧ s.toVec = some l ∧ s.len = l.length ∧ (∀ i, s.get i = some l[i]?) ∧ s.first = l.head? ∧ s.last = l.getLast? ∧
      (∀ bits : List Bool, bits.length = l.length → s.select bits = some (((l.zip bits).filter Prod.snd).map Prod.fst)) ∧
      KeySeq.ofParts s.parts = some s := by
  obtain ⟨s, h1, h2, h3, h4, _⟩ := fromIter_spec h
  have hat : s.at? = fun i => l[i]? := funext h4
  have hget : ∀ i, s.get i = some l[i]? := fun i => by rw [h2.get_at?, h4]
  refine ⟨s, h1, ?_, h3, hget, ?_, ?_, ?_, ofParts_parts h2⟩
  · unfold KeySeq.toVec
    rw [h3, hat]
    have key : ∀ r : List Nat, (∀ i ∈ r, i < l.length) → r.mapM (fun i => l[i]?) = some (r.filterMap fun i => l[i]?) := by
      intro r hr
      induction r with
      | nil => rfl
      | cons i r ih =>
        rw [List.mapM_cons, List.filterMap_cons, List.getElem?_eq_getElem (hr i (by simp)), ih fun j hj => hr j (List.mem_cons_of_mem _ hj)]
        rfl
    rw [key _ fun i hi => List.mem_range.mp hi, range_filterMap]
  · unfold KeySeq.first
    rw [h4, List.head?_eq_getElem?]
  · unfold KeySeq.last
    rw [h3]
    cases l with
    | nil => rfl
    | cons a l => rw [if_neg (by simp), h4, List.getLast?_eq_getElem?]
  · intro bits hb
    unfold KeySeq.select
    rw [h3, ← zip_select l bits hb]
    have key : ∀ r : List Nat, (∀ i ∈ r, i < l.length) → (r.mapM (s.selectAt bits)).map (List.filterMap id) =
        some (r.filterMap fun i => if bits[i]? = some true then l[i]? else none) := by
      intro r hr
      induction r with
      | nil => rfl
      | cons i r ih =>
        have hi := hr i (by simp)
        have ih' := ih fun j hj => hr j (List.mem_cons_of_mem _ hj)
        obtain ⟨r', hr1, hr2⟩ := Option.map_eq_some_iff.mp ih'
        have hbi : bits[i]? = some (bits[i]'(by omega)) := List.getElem?_eq_getElem _
        have hsel : s.selectAt bits i = some (if bits[i]? = some true then l[i]? else none) := by
          unfold KeySeq.selectAt
          rw [hbi]
          cases bits[i]'(by omega) with
          | true => simp [hget]
          | false => simp
        rw [List.mapM_cons, hsel, hr1, List.filterMap_cons, ← hr2]
        simp only [Option.pure_def, Option.bind_eq_bind, Option.bind_some, Option.map_some, List.filterMap_cons, id]
    exact key _ fun i hi => List.mem_range.mp hi

/-- C56: the contract of `CompactSeq` holds for `KeySeq` if there are at most 2^32 tags. -/
theorem C56_lawful (h : Vocabulary α) : (tagTypes α L).Lawful := tagTypes_lawful h

/-- Three keys, one without tags. -/
def keys3 : List (Key Four) := [Key.single 1 1 (VecSet.ofList [2, 0]), Key.single 2 2 VecSet.empty, Key.range 3 9 (VecSet.ofList [3])]

example : FewTags (keys3.map Key.tags) := Vocabulary.few four_vocabulary _

example : (KeySeq.fromIter keys3).map (fun s => (s.minTime, s.maxTime, s.tags.tags.elems, s.tags.elements.map VecSet.elems)) =
    some ([1, 2, 3], [1, 2, 9], [0, 2, 3], [[0, 1], [], [2]]) := by decide +kernel

example : ((KeySeq.fromIter keys3).bind (·.select [true, false, true])) = some [keys3[0], keys3[2]] := by decide +kernel

/-! ### C48 -/

variable {V : Type} {E : Env (tagTypes α L) V} {cx : Ctx E} {s : St E} {c : List (Option ((tagTypes α L).Key × V))}

/-- C48, the part that always holds: nothing is delivered that is not accepted by the query when asked about its key.
What is missing: everything accepted is delivered, see `C48_refuted`. -/
theorem C48_sound_partial (hv : Vocabulary α) (ok : cx.Ok) (hr : Reach cx s) (hs : Small E s) (hc : Contains cx s c) (q : List (Key α))
    (between : Nat → St E → St E) (hb : Harmless cx.sec between) (n fuel : Nat) (hf : 2 * rootLevel s.root + 4 ≤ fuel) :
    ∃ (s' : St E) (r : List (Nat × (tagTypes α L).Key × V)), Tree.elements (dnfQuery q) .forward between n fuel (snapshot cx s) s = .ok (r.map .ok) s' ∧
      ∀ o k v, (o, k, v) ∈ r → c[o]? = some (some (k, v)) ∧ Tag.contains q k = true := by
  obtain ⟨t, hi⟩ := ok.inv hr hs
  have hsn := hi.holds.snap
  obtain ⟨s', h1⟩ := hsn.chunks (q := dnfQuery q) (mkExtra := fun _ => ()) ok.env ok.types .forward between n fuel hb (by rw [snapshot_level]; exact hf)
  obtain ⟨chunks, h2, _, h3⟩ := C10_chunks_partition ok hr hs hc (dnfQuery q) (fun _ => ())
  have h4 := h2.unique (hsn.chunks (q := dnfQuery q) (mkExtra := fun _ => ()) ok.env ok.types .forward)
  simp only [ordered] at h4 h1
  refine ⟨s', ((optChunks (dnfQuery q) (fun _ => ()) t).take n).flatMap Chunk.data, ?_, ?_⟩
  · unfold Tree.elements
    rw [bind_apply, h1]
    exact congrArg (fun x => EStateM.Result.ok x s') (flattenChunks_ok _)
  · intro o k v hm
    obtain ⟨ch, hch, hd⟩ := List.mem_flatMap.mp hm
    have hch := List.mem_of_mem_take hch
    refine ⟨((h3 ch (by rw [h4]; exact hch)).2 o k v hd).2.2, ?_⟩
    cases t with
    | none => cases hch
    | some t =>
      refine chunksOf_sound (m := fun _ k => Tag.contains q k) ok.types ?_ t 0 ch hch o k v hd
      intro o i j k hj hk
      rw [dnfQuery_containing hv q o i _ hk] at hj
      obtain ⟨b, _, hb⟩ := Option.map_eq_some_iff.mp hj
      rw [Bool.and_eq_true, Bool.and_eq_true] at hb
      exact hb.2.2

/-- C48, when it holds: if all tags of the query occur in every node, and every element has a tag and a proper time
range, then the elements accepted by the query are delivered, and no others. What is missing: queries with tags that do
not occur everywhere, and elements without tags, see `C48_refuted`. -/
theorem C48_exact_partial (hv : Vocabulary α) (ok : cx.Ok) (hr : Reach cx s) (hs : Small E s) {t : PTree (tagTypes α L) V} (ht : Shows cx s t)
    (hc : Contains cx s c) (q : List (Key α)) (hq : ∀ i ∈ t.nodes, FindsTags q i.index)
    (hk : ∀ (k : Key α) (v : V), some (k, v) ∈ c → k.tags.elems ≠ [] ∧ k.time.minTime ≤ k.time.maxTime)
    (between : Nat → St E → St E) (hb : Harmless cx.sec between) (n fuel : Nat) (hf : 2 * rootLevel s.root + 4 ≤ fuel)
    (hn : rootCount s.root ≤ n) :
    ∃ s', Tree.elements (dnfQuery q) .forward between n fuel (snapshot cx s) s =
      .ok ((matching (T := tagTypes α L) (fun _ k => Tag.contains q k) 0 c).map .ok) s' := by
  have hi := ht.inv ok hr hs
  rw [hi.holds.contains ok.env ok.types] at hc
  subst hc
  have hsn := hi.holds.snap
  have hp : ∀ k v, some (k, v) ∈ t.content → proper (k : Key α) = true := by
    intro k v hm
    obtain ⟨h1, h2⟩ := hk k v hm
    unfold proper
    rw [Bool.and_eq_true, decide_eq_true_eq, Bool.not_eq_true', List.isEmpty_eq_false_iff]
    exact ⟨h1, h2⟩
  have hwf := hsn.wf t rfl
  have hcongr := chunksOf_congr (mkExtra := fun _ => ()) t (agree hv hwf.counts hq hp) 0
  obtain ⟨s1, h1⟩ := hsn.chunks (q := dnfQuery q) (mkExtra := fun _ => ()) ok.env ok.types .forward between n fuel hb (by rw [snapshot_level]; exact hf)
  have h2 : (chunksOf (dnfQuery q) (fun _ => ()) t 0).flatMap Chunk.data = matching (T := tagTypes α L) (fun _ k => Tag.contains q k) 0 t.content := by
    rw [hcongr, chunksOf_matching ok.types tagCovering (directQuery_queryFor q) t hwf.formed 0]
    have key : ∀ (c : List (Option (Key α × V))) (o : Nat), (∀ k v, some (k, v) ∈ c → proper k = true) →
        matching (T := tagTypes α L) (fun _ k => Tag.contains q k && proper k) o c = matching (T := tagTypes α L) (fun _ k => Tag.contains q k) o c := by
      intro c
      induction c with
      | nil => intro _ _; rfl
      | cons x c ih =>
        intro o hx
        cases x with
        | none => exact ih _ fun k v h => hx k v (List.mem_cons_of_mem _ h)
        | some x =>
          obtain ⟨k, v⟩ := x
          have hp1 := hx k v (by simp)
          have ih1 := ih (o + 1) fun k v h => hx k v (List.mem_cons_of_mem _ h)
          simp only [matching, hp1, Bool.and_true, ih1]
    exact key _ _ hp
  refine ⟨s1, ?_⟩
  unfold Tree.elements
  rw [bind_apply]
  simp only [ordered, optChunks] at h1
  rw [h1]
  simp only [optContent]
  rw [← h2, List.take_of_length_le]
  · exact congrArg (fun x => EStateM.Result.ok x s1) (flattenChunks_ok _)
  · refine Nat.le_trans ?_ hn
    have := consecutive_length (chunksOf_consecutive (q := dnfQuery q) (mkExtra := fun _ => ()) t (hsn.seen ok.types).ok hsn.positive 0)
    rw [hsn.root]
    rw [Nat.zero_add, Nat.zero_add] at this
    exact this

/-- C48: no query panics on a leaf or a branch. -/
theorem C48_total (hv : Vocabulary α) (q : List (Key α)) (s : (keySeq α).Carrier) (mask : List Bool) :
    (Tag.containing q s.1 mask).isSome = true ∧ (Tag.intersecting q s.1 mask).isSome = true := by
  obtain ⟨r, h1, _⟩ := containing_spec s.2 (Vocabulary.table hv s.1) q mask
  obtain ⟨r', h2, _⟩ := intersecting_spec s.2 (Vocabulary.table hv s.1) q mask
  rw [h1, h2]
  exact ⟨rfl, rfl⟩

/-- Six events in leaves of two events. -/
def events6 : List (Key Four × Nat) := [event 0 [0], event 1 [0, 1], event 2 [0], event 3 [0, 2], event 4 [1, 0], event 5 [0]]

def tagged6 : St tagEnv := endState (extend tagCtx 10 events6) tagStart

theorem tagged6_reach : Reach tagCtx tagged6 := tag_reach_extend tagStart_reach 10 events6 (by decide +kernel) (by decide +kernel)

theorem tagged6_small : Small tagEnv tagged6 := Params.small_of (P := tagged) (by decide +kernel)

/-- The content of a tree. -/
def tagContent (s : St tagEnv) : Option (List (Option (Key Four × Nat))) := Params.valueOf (P := tagged) (Tree.collect 100 (snapshot tagCtx s)) s

theorem tag_contains {s : St tagEnv} {c : List (Option (Key Four × Nat))} (hr : Reach tagCtx s) (hs : Small tagEnv s)
    (hl : (snapshot tagCtx s).level < 100) (h : tagContent s = some c) : Contains tagCtx s c := by
  obtain ⟨c', hc⟩ := reach_readable tag_ok hr hs
  obtain ⟨s', h1⟩ := hc 100 hl
  have h2 := Params.value_of (P := tagged) h
  have h3 : Tree.collect 100 (snapshot tagCtx s) s = EStateM.Result.ok c (endState (Tree.collect 100 (snapshot tagCtx s)) s) := h2
  rw [h1] at h3
  cases h3
  exact hc

theorem tagged6_contains : Contains tagCtx tagged6 (events6.map some) :=
  tag_contains tagged6_reach tagged6_small (by decide +kernel) (by decide +kernel)

/-- The times of the events that are accepted by the query when asked about each of them. -/
def accepted (q : List (Key Four)) (xs : List (Key Four × Nat)) : List Nat := (xs.filter fun x => Tag.contains q x.1).map fun x => x.1.time.minTime

/-- The query for events with at most tag 0. -/
def zero : List (Key Four) := [Key.filterTags (VecSet.ofList [0])]

def loaded6 : Option (PTree (tagTypes Four Nat) Nat) := tagged6.root.bind (loadG tagEnv tagCtx.sec tagged6.store 100)

/-- `FindsTags` can be decided. -/
def findsTags (q : List (Key Four)) (i : Index (tagTypes Four Nat)) : Bool :=
  q.all fun x => x.tags.isSubset (show Key Four from i.summarize).tags

theorem findsTags_iff (q : List (Key Four)) (i : Index (tagTypes Four Nat)) (h : findsTags q i = true) : FindsTags q i :=
  fun x hx => (VecSet.isSubset_iff _ _).mp (List.all_eq_true.mp h x hx)

/-- The tag occurs in all nodes, and all events have tags: the query is exact. -/
example : ∃ s', Tree.elements (dnfQuery zero) .forward (fun _ s => s) 10 20 (snapshot tagCtx tagged6) tagged6 =
    .ok ((matching (T := tagTypes Four Nat) (fun _ k => Tag.contains zero k) 0 (events6.map some)).map .ok) s' := by
  cases hl : loaded6 with
  | none =>
    have : loaded6.isSome = true := by decide +kernel
    rw [hl] at this
    cases this
  | some t =>
    obtain ⟨h1, h2⟩ := shows_of_loadG (cx := tagCtx) hl
    have h3 : (loaded6.map fun t => t.nodes.all fun n => findsTags zero n.index) = some true := by decide +kernel
    rw [hl] at h3
    have h4 := Option.some.inj h3
    refine C48_exact_partial four_vocabulary tag_ok tagged6_reach tagged6_small ⟨h1, h2⟩ tagged6_contains zero
      (fun n hn => findsTags_iff _ _ (List.all_eq_true.mp h4 n hn)) ?_ _ (fun _ s h => ⟨fun _ _ h => h, h⟩) 10 20 (by decide +kernel) (by decide +kernel)
    intro k v hk
    have h5 : (events6.all fun x => decide (x.1.tags.elems ≠ [] ∧ x.1.time.minTime ≤ x.1.time.maxTime)) = true := by decide +kernel
    obtain ⟨x, hx, hxk⟩ := List.mem_map.mp hk
    have := List.all_eq_true.mp h5 x hx
    cases hxk
    exact of_decide_eq_true this

example : accepted zero events6 = [0, 2, 5] ∧ timesFor zero tagged6 = some [0, 2, 5] := by decide +kernel

/-- Events with at most tag 0, or at most tag 1. -/
def zeroOrOne : List (Key Four) := [Key.filterTags (VecSet.ofList [0]), Key.filterTags (VecSet.ofList [1])]

/-- Events without tags. -/
def untagged : List (Key Four) := [Key.filterTags VecSet.empty]

/-- Two events without tags. -/
def untagged2 : St tagEnv := endState (extend tagCtx 10 [event 0 [], event 1 []]) tagStart

/-- C48 is false. The query for events with at most tag 0 or at most tag 1 accepts the events 0, 2 and 5. Event 2 is in a
leaf in which tag 1 does not occur, and is not delivered. The query for events without tags accepts both elements of
the second tree, but delivers nothing. -/
theorem C48_refuted : (accepted zeroOrOne events6 = [0, 2, 5] ∧ timesFor zeroOrOne tagged6 = some [0, 5]) ∧
    accepted untagged [event 0 [], event 1 []] = [0, 1] ∧ timesFor untagged untagged2 = some [] := by decide +kernel

/-- These are reachable states. -/
example : Reach tagCtx tagged6 ∧ Reach tagCtx untagged2 :=
  ⟨tagged6_reach, tag_reach_extend tagStart_reach 10 _ (by decide +kernel) (by decide +kernel)⟩

end Banyan
