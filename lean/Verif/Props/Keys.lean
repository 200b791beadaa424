import Verif.Spec.Keys
import Verif.Props.TagTree
/-
Keys with time range and tags: C69.
-/
set_option autoImplicit false
namespace Banyan

open Tag Concrete

variable {α : Type} [TotalOrd α]

/-- C69: a filter contains a key iff the time range and the tags of the key are within those of the filter. -/
theorem C69_contains (q k : Key α) : q.contains k = true ↔
    q.time.minTime ≤ k.time.minTime ∧ k.time.maxTime ≤ q.time.maxTime ∧ ∀ x ∈ k.tags.elems, x ∈ q.tags.elems := by
  unfold Key.contains TimeData.contains
  rw [Bool.and_eq_true, VecSet.isSuperset_iff]
  constructor
  · rintro ⟨h1, h2⟩
    split at h1
    · cases h1
    · split at h1
      · cases h1
      · exact ⟨by omega, by omega, h2⟩
  · rintro ⟨h1, h2, h3⟩
    rw [if_neg (by omega), if_neg (by omega)]
    exact ⟨rfl, h3⟩

/-- C69: a filter intersects a key iff there is a common time and a common tag. (Time ranges of keys are not empty.) -/
theorem C69_intersects (q k : Key α) (hq : q.time.minTime ≤ q.time.maxTime) (hk : k.time.minTime ≤ k.time.maxTime) : q.intersects k = true ↔
    (∃ t, (q.time.minTime ≤ t ∧ t ≤ q.time.maxTime) ∧ (k.time.minTime ≤ t ∧ t ≤ k.time.maxTime)) ∧ ∃ x ∈ k.tags.elems, x ∈ q.tags.elems := by
  unfold Key.intersects TimeData.intersects
  rw [Bool.and_eq_true, Bool.not_eq_true', ← Bool.not_eq_true, VecSet.isDisjoint_iff]
  refine and_congr ?_ ?_
  · constructor
    · intro h1
      split at h1
      · cases h1
      · split at h1
        · cases h1
        · exact ⟨max q.time.minTime k.time.minTime, by omega, by omega⟩
    · rintro ⟨t, h1, h2⟩
      rw [if_neg (by omega), if_neg (by omega)]
  · grind

/-- C69: combining two keys gives the smallest key that both are within. -/
theorem C69_combine (a b : Key α) : IsBound (a.combine b) [a, b] := by
  refine ⟨fun x hx => ?_, fun k hk => ?_⟩
  · rcases List.mem_cons.mp hx with rfl | hx
    · exact ⟨Nat.min_le_left _ _, Nat.le_max_left _ _, Nat.min_le_left _ _, fun y hy => (VecSet.mem_extend _ _ _).mpr (.inl hy)⟩
    · rw [List.mem_singleton] at hx
      subst hx
      exact ⟨Nat.min_le_right _ _, Nat.le_max_right _ _, Nat.min_le_right _ _, fun y hy => (VecSet.mem_extend _ _ _).mpr (.inr hy)⟩
  · have ha := hk a (by simp)
    have hb := hk b (by simp)
    refine ⟨Nat.le_min.mpr ⟨ha.minTime, hb.minTime⟩, Nat.max_le.mpr ⟨ha.maxTime, hb.maxTime⟩, Nat.le_min.mpr ⟨ha.lamport, hb.lamport⟩, fun y hy => ?_⟩
    rcases (VecSet.mem_extend _ _ _).mp hy with hy | hy
    · exact ha.tags y hy
    · exact hb.tags y hy

/-- C69: the summary of a sequence of keys is the smallest key that all of them are within. -/
theorem C69_summarize (l : List (Key α)) (hl : l ≠ []) (h : FewTags (l.map Key.tags)) :
    ∃ s k, KeySeq.fromIter l = some s ∧ s.summarize = some k ∧ IsBound k l := by
  obtain ⟨t, ht, htab, _⟩ := fromElements_spec h
  have hne : ∀ f : Key α → Nat, l.map f ≠ [] := fun f => by simpa using hl
  refine ⟨_, ?k, by unfold KeySeq.fromIter; rw [ht]; rfl, ?h, ?b⟩
  case k => exact ⟨⟨((l.map fun k => k.time.minLamport).min?).getD 0, ((l.map fun k => k.time.minTime).min?).getD 0,
    ((l.map fun k => k.time.maxTime).max?).getD 0⟩, t.tags⟩
  all_goals
    obtain ⟨a, ha, ha'⟩ := min?_some (hne fun k => k.time.minLamport)
    obtain ⟨b, hb, hb'⟩ := min?_some (hne fun k => k.time.minTime)
    obtain ⟨c, hc, hc'⟩ := max?_some (hne fun k => k.time.maxTime)
  case h =>
    unfold KeySeq.summarize
    simp only [ha, hb, hc]
    rfl
  case b =>
    simp only [ha, hb, hc, Option.getD_some]
    refine ⟨fun x hx => ⟨hb' _ (List.mem_map_of_mem hx), hc' _ (List.mem_map_of_mem hx), ha' _ (List.mem_map_of_mem hx), fun y hy => ?_⟩, fun k hk => ⟨?_, ?_, ?_, fun y hy => ?_⟩⟩
    · rw [htab]
      exact (mem_tableOf _ _).mpr ⟨x.tags, List.mem_map_of_mem hx, hy⟩
    · obtain ⟨x, hx, rfl⟩ := List.mem_map.mp (List.min?_mem hb)
      exact (hk x hx).minTime
    · obtain ⟨x, hx, rfl⟩ := List.mem_map.mp (List.max?_mem hc)
      exact (hk x hx).maxTime
    · obtain ⟨x, hx, rfl⟩ := List.mem_map.mp (List.min?_mem ha)
      exact (hk x hx).lamport
    · rw [htab] at hy
      obtain ⟨e, he, hy⟩ := (mem_tableOf _ _).mp hy
      obtain ⟨x, hx, rfl⟩ := List.mem_map.mp he
      exact (hk x hx).tags y hy

/-- C69: the filter for tags accepts a key iff all of its tags are given, whatever its time is (a `u64`); the filter for a time
range also looks at the time. -/
theorem C69_filters (tags : VecSet α) (k : Key α) (hk : k.time.maxTime < 2 ^ 64) :
    ((Key.filterTags tags).contains k = true ↔ ∀ x ∈ k.tags.elems, x ∈ tags.elems) ∧
    ∀ a b, (Key.range a b tags).contains k = true ↔ a ≤ k.time.minTime ∧ k.time.maxTime ≤ b ∧ ∀ x ∈ k.tags.elems, x ∈ tags.elems := by
  refine ⟨?_, fun a b => C69_contains _ _⟩
  rw [C69_contains]
  exact ⟨fun h => h.2.2, fun h => ⟨Nat.zero_le _, by show k.time.maxTime ≤ 2 ^ 64 - 1; omega, h⟩⟩

/-- C69: the filter for tags intersects a key iff there is a common tag. -/
theorem C69_filter_intersects (tags : VecSet α) (k : Key α) (hk : k.time.minTime < 2 ^ 64) :
    (Key.filterTags tags).intersects k = true ↔ ∃ x ∈ k.tags.elems, x ∈ tags.elems := by
  unfold Key.intersects TimeData.intersects Key.filterTags
  rw [if_neg (by show ¬ (2 ^ 64 - 1 < k.time.minTime); omega), if_neg (by show ¬ (0 > k.time.maxTime); omega), Bool.true_and,
    Bool.not_eq_true', ← Bool.not_eq_true, VecSet.isDisjoint_iff]
  grind

/-- The hypotheses are met. -/
example : ∃ s k, KeySeq.fromIter keys3 = some s ∧ s.summarize = some k ∧ IsBound k keys3 :=
  C69_summarize keys3 (by decide) (Vocabulary.few four_vocabulary _)

example : (Key.single 3 5 (VecSet.ofList [(2 : Four), 0])).combine (Key.single 2 7 (VecSet.ofList [1])) =
    ⟨⟨2, 5, 7⟩, VecSet.ofList [0, 1, 2]⟩ := by decide +kernel

example : (Key.filterTags (VecSet.ofList [(2 : Four), 0])).contains (Key.single 3 5 (VecSet.ofList [2])) = true ∧
    (Key.filterTags (VecSet.ofList [(2 : Four), 0])).contains (Key.single 3 5 (VecSet.ofList [2, 1])) = false := by
  constructor <;> decide +kernel

end Banyan
