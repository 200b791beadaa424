import Verif.Model.Tags
import Verif.Proofs.Tags
import Verif.Spec.Query
/-
Compact sequences of tagged keys.
-/
set_option autoImplicit false
namespace Banyan.Tag

variable {α : Type} [TotalOrd α]

/-- How the key at a position is represented. -/
structure KeySeq.Represents (s : KeySeq α) (i : Nat) (k : Key α) (e : VecSet Nat) : Prop where
  get : s.get i = some (some k)
  time : s.time i = some (some k.time)
  elements : s.tags.elements[i]? = some e
  tags : ∀ x, x ∈ k.tags.elems ↔ ∃ j ∈ e.elems, s.tags.tags.elems[j]? = some x
  bound : ∀ j ∈ e.elems, j < s.tags.tags.elems.length

theorem KeySeq.Valid.represents {s : KeySeq α} (h : s.Valid) {i : Nat} (hi : i < s.len) : ∃ k e, s.Represents i k e := by
  obtain ⟨h1, h2, h3, h4⟩ := h
  unfold KeySeq.len at hi
  have he := List.getElem?_eq_getElem hi
  have hb := h4 _ (List.getElem_mem hi)
  obtain ⟨t, h5, h6⟩ := TagIndex.expand_valid (t := s.tags) hb
  have hl := List.getElem?_eq_getElem (l := s.minLamport) (i := i) (by omega)
  have ha := List.getElem?_eq_getElem (l := s.minTime) (i := i) (by omega)
  have hb' := List.getElem?_eq_getElem (l := s.maxTime) (i := i) (by omega)
  refine ⟨⟨⟨s.minLamport[i]'(by omega), s.minTime[i]'(by omega), s.maxTime[i]'(by omega)⟩, t⟩, s.tags.elements[i], ?_, ?_, he, h6, hb⟩
  · unfold KeySeq.get TagIndex.get
    rw [he, hl, ha, hb']
    simp only
    rw [h5]
    rfl
  · unfold KeySeq.time
    rw [hl, ha, hb']

theorem KeySeq.get_ge {s : KeySeq α} {i : Nat} (hi : s.len ≤ i) : s.get i = some none := by
  unfold KeySeq.get TagIndex.get
  rw [List.getElem?_eq_none (l := s.tags.elements) hi]
  simp only [Option.map_some, Option.some.injEq]
  cases s.minLamport[i]? <;> cases s.minTime[i]? <;> cases s.maxTime[i]? <;> rfl

theorem KeySeq.at?_ge {s : KeySeq α} {i : Nat} (hi : s.len ≤ i) : s.at? i = none := by
  unfold KeySeq.at?
  rw [KeySeq.get_ge hi]
  rfl

theorem KeySeq.Represents.at? {s : KeySeq α} {i : Nat} {k : Key α} {e : VecSet Nat} (h : s.Represents i k e) : s.at? i = some k := by
  unfold KeySeq.at?
  rw [h.get]
  rfl

theorem KeySeq.Valid.get_at? {s : KeySeq α} (h : s.Valid) (i : Nat) : s.get i = some (s.at? i) := by
  rcases Nat.lt_or_ge i s.len with hi | hi
  · obtain ⟨k, e, hr⟩ := h.represents hi
    rw [hr.get, hr.at?]
  · rw [KeySeq.get_ge hi, KeySeq.at?_ge hi]

/-- Collecting keys gives a valid sequence of these keys. -/
theorem fromIter_spec {l : List (Key α)} (h : FewTags (l.map Key.tags)) :
    ∃ s, KeySeq.fromIter l = some s ∧ s.Valid ∧ s.len = l.length ∧ (∀ i, s.at? i = l[i]?) ∧ s.tags.tags = tableOf (l.map Key.tags) ∧
      s.minLamport = l.map (fun k => k.time.minLamport) ∧ s.minTime = l.map (fun k => k.time.minTime) ∧
      s.maxTime = l.map (fun k => k.time.maxTime) := by
  obtain ⟨t, h1, h2, h3⟩ := fromElements_spec h
  have hlen : t.elements.length = l.length := by simpa using congrArg List.length h3
  have hel : ∀ (i : Nat) k, l[i]? = some k → ∃ is, t.elements[i]? = some is ∧ t.expand is = some k.tags ∧ ∀ j ∈ is.elems, j < t.tags.elems.length := by
    intro i k hk
    have h4 := congrArg (fun x => x[i]?) h3
    simp only [List.getElem?_map, hk, Option.map_some] at h4
    obtain ⟨is, h5, h6⟩ := Option.map_eq_some_iff.mp h4
    have h7 := expand_mapToIndexSet (t := t) (a := k.tags) (is := is) (by rw [h2]; exact h.table)
      (fun x hx => by rw [h2]; exact (mem_tableOf _ _).mpr ⟨k.tags, List.mem_map_of_mem (List.mem_of_getElem? hk), hx⟩) (by rw [h2]; exact h6.symm)
    exact ⟨is, h5, h7⟩
  refine ⟨⟨l.map fun k => k.time.minLamport, l.map fun k => k.time.minTime, l.map fun k => k.time.maxTime, t⟩, ?_, ⟨?_, ?_, ?_, ?_⟩, hlen, ?_, h2, rfl, rfl, rfl⟩
  · unfold KeySeq.fromIter
    rw [h1]
    rfl
  · simp [hlen]
  · simp [hlen]
  · simp [hlen]
  · intro is his j hj
    obtain ⟨i, hi⟩ := List.mem_iff_getElem?.mp his
    simp only at hi
    have hil := (List.getElem?_eq_some_iff.mp hi).1
    obtain ⟨is', h5, _, h6⟩ := hel i _ (List.getElem?_eq_getElem (by omega))
    rw [hi] at h5
    cases h5
    exact h6 j hj
  · intro i
    rcases Nat.lt_or_ge i l.length with hi | hi
    · obtain ⟨is, h5, h6, _⟩ := hel i _ (List.getElem?_eq_getElem hi)
      unfold KeySeq.at? KeySeq.get TagIndex.get
      simp only [List.getElem?_map, h5, List.getElem?_eq_getElem hi]
      rw [h6]
      rfl
    · rw [List.getElem?_eq_none hi, KeySeq.at?_ge]
      show t.elements.length ≤ i
      omega

theorem Vocabulary.few (h : Vocabulary α) (e : List (VecSet α)) : FewTags e := fun l hl _ => h l hl

theorem ofList_spec (h : Vocabulary α) (l : List (Key α)) : (ofList l).1.len = l.length ∧ (∀ i, (ofList l).1.at? i = l[i]?) ∧
    (ofList l).1.tags.tags = tableOf (l.map Key.tags) ∧ KeySeq.fromIter l = some (ofList l).1 := by
  obtain ⟨s, h1, h2, h3, h4, h5, _⟩ := fromIter_spec (Vocabulary.few h (l.map Key.tags))
  have : ofList l = ⟨s, h2⟩ := by
    unfold ofList
    rw [h1]
    simp only
    rw [dif_pos h2]
  rw [this]
  exact ⟨h3, h4, h5, h1⟩

theorem keySeq_lawful (h : Vocabulary α) : (keySeq α).Lawful where
  get_some := fun c i hi => by
    obtain ⟨k, e, hr⟩ := c.2.represents hi
    show (c.1.at? i).isSome = true
    rw [hr.at?]
    rfl
  len_ofList := fun l _ => (ofList_spec h l).1
  get_ofList := fun l i _ => (ofList_spec h l).2.1 i

theorem tagTypes_lawful {L : Type} [DecidableEq L] (h : Vocabulary α) : (tagTypes α L).Lawful := ⟨keySeq_lawful h, keySeq_lawful h⟩

/-! ### summaries -/

/-- The key `k` is in the range of the summary `s`. -/
def Covers (s k : Key α) : Prop :=
  s.time.minTime ≤ k.time.minTime ∧ k.time.maxTime ≤ s.time.maxTime ∧ ∀ x ∈ k.tags.elems, x ∈ s.tags.elems

theorem Covers.trans {a b c : Key α} (h1 : Covers a b) (h2 : Covers b c) : Covers a c :=
  ⟨Nat.le_trans h1.1 h2.1, Nat.le_trans h2.2.1 h1.2.1, fun x hx => h1.2.2 x (h2.2.2 x hx)⟩

theorem min?_some {l : List Nat} (h : l ≠ []) : ∃ m, l.min? = some m ∧ ∀ x ∈ l, m ≤ x := by
  cases hm : l.min? with
  | none => exact absurd (List.min?_eq_none_iff.mp hm) h
  | some m => exact ⟨m, rfl, fun x hx => (List.le_min?_iff hm).mp (Nat.le_refl _) x hx⟩

theorem max?_some {l : List Nat} (h : l ≠ []) : ∃ m, l.max? = some m ∧ ∀ x ∈ l, x ≤ m := by
  cases hm : l.max? with
  | none => exact absurd (List.max?_eq_none_iff.mp hm) h
  | some m => exact ⟨m, rfl, fun x hx => (List.max?_le_iff hm).mp (Nat.le_refl _) x hx⟩

theorem summarize_valid {s : KeySeq α} (h : s.Valid) (hn : s.len ≠ 0) : ∃ k, s.summarize = some k ∧ k.tags = s.tags.tags ∧
    ∀ i x, s.at? i = some x → Covers k x := by
  obtain ⟨h1, h2, h3, h4⟩ := id h
  unfold KeySeq.len at hn
  have hne : ∀ l : List Nat, l.length = s.tags.elements.length → l ≠ [] := by
    intro l hl hc
    subst hc
    simp only [List.length_nil] at hl
    omega
  obtain ⟨a, ha, ha'⟩ := min?_some (hne _ h1)
  obtain ⟨b, hb, hb'⟩ := min?_some (hne _ h2)
  obtain ⟨c, hc, hc'⟩ := max?_some (hne _ h3)
  refine ⟨⟨⟨a, b, c⟩, s.tags.tags⟩, ?_, rfl, ?_⟩
  · unfold KeySeq.summarize
    rw [ha, hb, hc]
    rfl
  · intro i x hx
    rcases Nat.lt_or_ge i s.len with hi | hi
    · obtain ⟨k, e, hr⟩ := h.represents hi
      rw [hr.at?] at hx
      cases hx
      have ht := hr.time
      unfold KeySeq.time at ht
      split at ht
      · cases ht
      · split at ht
        · rename_i hmin hmax
          simp only [Option.some.injEq] at ht
          refine ⟨?_, ?_, ?_⟩
          · rw [← ht]
            exact hb' _ (List.mem_of_getElem? hmin)
          · rw [← ht]
            exact hc' _ (List.mem_of_getElem? hmax)
          · intro x hx
            obtain ⟨j, _, hj⟩ := (hr.tags x).mp hx
            exact List.mem_of_getElem? hj
        · cases ht
    · rw [KeySeq.at?_ge hi] at hx
      cases hx

theorem summaryOf_covers (s : { s : KeySeq α // s.Valid }) {i : Nat} {x : Key α} (h : s.1.at? i = some x) : Covers (summaryOf s) x := by
  have hn : s.1.len ≠ 0 := by
    intro hc
    rw [KeySeq.at?_ge (by omega)] at h
    cases h
  obtain ⟨k, h1, _, h2⟩ := summarize_valid s.2 hn
  unfold summaryOf
  rw [h1]
  exact h2 i x h

theorem tagCovering {L : Type} [DecidableEq L] : Covering (tagTypes α L) Covers where
  keys := by
    intro ks k hk
    obtain ⟨i, _, h2⟩ := List.mem_filterMap.mp hk
    exact summaryOf_covers ks h2
  sums := by
    intro ss s k hs hc
    obtain ⟨i, _, h2⟩ := List.mem_filterMap.mp hs
    exact (summaryOf_covers ss h2).trans hc

end Banyan.Tag
