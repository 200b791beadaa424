import Verif.Spec.Query
import Verif.Props.Iter
/-
Queries: C13, C14, C49, C55, and iteration by offset (C09).
-/
set_option autoImplicit false
namespace Banyan

section Ranges
variable {α : Type} [LE α] [LT α] [DecidableLE α] [DecidableLT α]

/-- A value is in a range, for each of the nine combinations of bounds. -/
def RangeB.Mem (r : RangeB α) (x : α) : Prop :=
  (∀ a, r.start = .included a → a ≤ x) ∧ (∀ a, r.start = .excluded a → a < x) ∧
  (∀ b, r.stop = .included b → x ≤ b) ∧ (∀ b, r.stop = .excluded b → x < b)

theorem boundLt_sound [Std.IsLinearOrder α] [Std.LawfulOrderLT α] {r b : RangeB α} (h : boundLt r.stop b.start = true) (x : α) :
    ¬(r.Mem x ∧ b.Mem x) := by
  intro ⟨⟨_, _, h1, h2⟩, ⟨h3, h4, _, _⟩⟩
  cases hs : r.stop <;> cases hb : b.start <;> rw [hs, hb] at h <;> simp only [boundLt, decide_eq_true_eq, Bool.false_eq_true] at h
  · exact absurd (Std.le_trans (h3 _ hb) (h1 _ hs)) (Std.not_le.mpr h)
  · exact Std.lt_irrefl (Std.lt_of_lt_of_le (h4 _ hb) (Std.le_trans (h1 _ hs) h))
  · exact Std.lt_irrefl (Std.lt_of_lt_of_le (h2 _ hs) (Std.le_trans h (h3 _ hb)))
  · exact Std.lt_irrefl (Std.lt_trans (Std.lt_of_lt_of_le (h2 _ hs) h) (h4 _ hb))

/-- C49: two ranges with a common element intersect, for all kinds of bounds and every linearly ordered type. -/
theorem C49_intersects_of_common [Std.IsLinearOrder α] [Std.LawfulOrderLT α] (r b : RangeB α) (x : α) (hr : r.Mem x) (hb : b.Mem x) :
    r.intersects b = true := by
  unfold RangeB.intersects
  cases h1 : boundLt r.stop b.start with
  | true => exact absurd ⟨hr, hb⟩ (boundLt_sound h1 x)
  | false =>
    cases h2 : boundLt b.stop r.start with
    | true => exact absurd ⟨hb, hr⟩ (boundLt_sound h2 x)
    | false => rfl

/-- A value is not behind the end of a range. -/
def Below (stop : Bound α) (x : α) : Prop := (∀ b, stop = .included b → x ≤ b) ∧ (∀ b, stop = .excluded b → x < b)

theorem Below.mono [Std.IsLinearOrder α] [Std.LawfulOrderLT α] {stop : Bound α} {x y : α} (h : Below stop y) (hx : x ≤ y) : Below stop x :=
  ⟨fun b hb => Std.le_trans hx (h.1 b hb), fun b hb => Std.lt_of_le_of_lt hx (h.2 b hb)⟩

theorem below_of_boundLt [Std.IsLinearOrder α] [Std.LawfulOrderLT α] {stop : Bound α} {a : α} (h : boundLt stop (.included a) = false) :
    Below stop a := by
  refine ⟨fun b hb => ?_, fun b hb => ?_⟩ <;> subst hb <;> simp only [boundLt, decide_eq_false_iff_not] at h
  · exact Std.not_lt.mp h
  · exact Std.not_le.mp h

/-- C49: the test is not needlessly pessimistic. Two non-empty ranges that include their start (or have none) and intersect have a
common element. -/
theorem C49_common_of_intersects [Std.IsLinearOrder α] [Std.LawfulOrderLT α] (r b : RangeB α) (hr : ∃ x, r.Mem x) (hb : ∃ x, b.Mem x)
    (hrs : ∀ a, r.start ≠ .excluded a) (hbs : ∀ a, b.start ≠ .excluded a) (h : r.intersects b = true) : ∃ x, r.Mem x ∧ b.Mem x := by
  obtain ⟨y, hy⟩ := hr
  obtain ⟨z, hz⟩ := hb
  have key : ∀ x, Below r.stop x → Below b.stop x → (∀ a, r.start = .included a → a ≤ x) → (∀ a, b.start = .included a → a ≤ x) →
      ∃ x, r.Mem x ∧ b.Mem x := fun x h1 h2 h3 h4 =>
    ⟨x, ⟨h3, fun a ha => absurd ha (hrs a), h1.1, h1.2⟩, ⟨h4, fun a ha => absurd ha (hbs a), h2.1, h2.2⟩⟩
  have hyb : Below r.stop y := ⟨hy.2.2.1, hy.2.2.2⟩
  have hzb : Below b.stop z := ⟨hz.2.2.1, hz.2.2.2⟩
  unfold RangeB.intersects at h
  rw [Bool.and_eq_true, Bool.not_eq_true', Bool.not_eq_true'] at h
  cases hs : r.start with
  | excluded a => exact absurd hs (hrs a)
  | included a =>
    have ha := h.2
    rw [hs] at ha
    have hab := below_of_boundLt ha
    have har : Below r.stop a := hyb.mono (hy.1 a hs)
    cases ht : b.start with
    | excluded c => exact absurd ht (hbs c)
    | included c =>
      have hc := h.1
      rw [ht] at hc
      have hcr := below_of_boundLt hc
      have hcb : Below b.stop c := hzb.mono (hz.1 c ht)
      rcases Std.le_total (a := a) (b := c) with hle | hle
      · exact key c hcr hcb (fun x hx => by rw [hs] at hx; cases hx; exact hle) (fun x hx => by rw [ht] at hx; cases hx; exact Std.le_refl _)
      · exact key a har hab (fun x hx => by rw [hs] at hx; cases hx; exact Std.le_refl _) (fun x hx => by rw [ht] at hx; cases hx; exact hle)
    | unbounded =>
      exact key a har hab (fun x hx => by rw [hs] at hx; cases hx; exact Std.le_refl _) (fun x hx => by rw [ht] at hx; cases hx)
  | unbounded =>
    cases ht : b.start with
    | excluded c => exact absurd ht (hbs c)
    | included c =>
      have hc := h.1
      rw [ht] at hc
      have hcr := below_of_boundLt hc
      have hcb : Below b.stop c := hzb.mono (hz.1 c ht)
      exact key c hcr hcb (fun x hx => by rw [hs] at hx; cases hx) (fun x hx => by rw [ht] at hx; cases hx; exact Std.le_refl _)
    | unbounded =>
      rcases Std.le_total (a := y) (b := z) with hle | hle
      · exact key y hyb (hzb.mono hle) (fun x hx => by rw [hs] at hx; cases hx) (fun x hx => by rw [ht] at hx; cases hx)
      · exact key z (hyb.mono hle) hzb (fun x hx => by rw [hs] at hx; cases hx) (fun x hx => by rw [ht] at hx; cases hx)

/-- The test can also say no. -/
example : (RangeB.halfOpen (3 : Nat) 5).intersects ⟨.included 5, .unbounded⟩ = false ∧
    (RangeB.halfOpen (3 : Nat) 6).intersects ⟨.included 5, .unbounded⟩ = true := by decide

theorem contains_iff (r : RangeB α) (x : α) : r.contains x = true ↔ r.Mem x := by
  unfold RangeB.contains RangeB.Mem
  cases hs : r.start <;> cases he : r.stop <;> simp

end Ranges

variable {T : TreeTypes} {covers : T.Summary → T.Key → Prop}

/-- C13: the conjunction selects what both queries select. -/
theorem C13_and {a b : Query T} {ma mb : Nat → T.Key → Bool} (ha : QueryFor a covers ma) (hb : QueryFor b covers mb) :
    QueryFor (andQuery a b) covers fun o k => ma o k && mb o k where
  containing := by
    intro o i mask j k hl hk
    show (b.containing o i (a.containing o i mask))[j]? = _
    rw [hb.containing o i _ j k (by rw [a.len_containing]; exact hl) hk, ha.containing o i mask j k hl hk, Option.map_map]
    cases mask[j]? <;> simp [Bool.and_assoc]
  intersecting_le := by
    intro o i mask j hl h
    exact ha.intersecting_le o i mask j hl (hb.intersecting_le o i _ j (by rw [a.len_intersecting]; exact hl) h)
  intersecting := by
    intro o i mask j s hl hs hm h o' k h1 h2 h3
    have hl' : (a.intersecting o i mask).length = T.sums.len i.summaries := by rw [a.len_intersecting]; exact hl
    cases hx : (a.intersecting o i mask)[j]? with
    | none =>
      exfalso
      have := List.getElem?_eq_none_iff.mp hx
      have := (List.getElem?_eq_some_iff.mp hm).1
      omega
    | some x =>
      cases x with
      | true => rw [hb.intersecting o i _ j s hl' hs hx h o' k h1 h2 h3, Bool.and_false]
      | false => rw [ha.intersecting o i mask j s hl hs hm hx o' k h1 h2 h3, Bool.false_and]

theorem getElem?_orWith (x y : List Bool) (h : x.length = y.length) (j : Nat) :
    (orWith x y)[j]? = (x[j]?).bind fun a => (y[j]?).map fun b => a || b := by
  induction x generalizing y j with
  | nil =>
    cases y with
    | nil => rfl
    | cons b ys => cases h
  | cons a xs ih =>
    cases y with
    | nil => cases h
    | cons b ys =>
      cases j with
      | zero => rfl
      | succ j => simpa [orWith] using ih ys (by simpa using h) j

/-- C13: the disjunction selects what at least one of the queries selects. -/
theorem C13_or {a b : Query T} {ma mb : Nat → T.Key → Bool} (ha : QueryFor a covers ma) (hb : QueryFor b covers mb) :
    QueryFor (orQuery a b) covers fun o k => ma o k || mb o k where
  containing := by
    intro o i mask j k hl hk
    show (orWith (a.containing o i mask) (b.containing o i mask))[j]? = _
    rw [getElem?_orWith _ _ (by rw [a.len_containing, b.len_containing]), ha.containing o i mask j k hl hk,
      hb.containing o i mask j k hl hk]
    cases mask[j]? <;> simp [Bool.and_or_distrib_left]
  intersecting_le := by
    intro o i mask j hl h
    have h' : (orWith (a.intersecting o i mask) (b.intersecting o i mask))[j]? = some true := h
    rw [getElem?_orWith _ _ (by rw [a.len_intersecting, b.len_intersecting])] at h'
    cases hx : (a.intersecting o i mask)[j]? with
    | none => simp [hx] at h'
    | some x =>
      cases x with
      | true => exact ha.intersecting_le o i mask j hl hx
      | false =>
        cases hy : (b.intersecting o i mask)[j]? with
        | none => simp [hx, hy] at h'
        | some y =>
          cases y with
          | true => exact hb.intersecting_le o i mask j hl hy
          | false => simp [hx, hy] at h'
  intersecting := by
    intro o i mask j s hl hs hm h o' k h1 h2 h3
    have h' : (orWith (a.intersecting o i mask) (b.intersecting o i mask))[j]? = some false := h
    rw [getElem?_orWith _ _ (by rw [a.len_intersecting, b.len_intersecting])] at h'
    have hxy : (a.intersecting o i mask)[j]? = some false ∧ (b.intersecting o i mask)[j]? = some false := by
      cases hx : (a.intersecting o i mask)[j]? with
      | none => simp [hx] at h'
      | some x =>
        cases hy : (b.intersecting o i mask)[j]? with
        | none => simp [hx, hy] at h'
        | some y => cases x <;> cases y <;> simp_all
    rw [ha.intersecting o i mask j s hl hs hm hxy.1 o' k h1 h2 h3, hb.intersecting o i mask j s hl hs hm hxy.2 o' k h1 h2 h3]
    rfl

/-- C13: the all-query selects everything. -/
theorem C13_all : QueryFor (allQuery : Query T) covers fun _ _ => true where
  containing := by
    intro o i mask j k _ _
    show mask[j]? = _
    cases mask[j]? <;> simp
  intersecting_le := fun _ _ _ _ _ h => h
  intersecting := by
    intro o i mask j s _ _ hm h
    have h' : mask[j]? = some false := h
    rw [hm] at h'
    cases h'

theorem getElem?_clearBits (mask : List Bool) (j : Nat) : (clearBits mask)[j]? = (mask[j]?).map fun _ => false := by
  simp [clearBits]

/-- C13: the empty query selects nothing. -/
theorem C13_empty : QueryFor (emptyQuery : Query T) covers fun _ _ => false where
  containing := by
    intro o i mask j k _ _
    show (clearBits mask)[j]? = _
    rw [getElem?_clearBits]
    cases mask[j]? <;> simp
  intersecting_le := by
    intro o i mask j _ h
    have h' : (clearBits mask)[j]? = some true := h
    rw [getElem?_clearBits] at h'
    cases hm : mask[j]? <;> simp [hm] at h'
  intersecting := fun _ _ _ _ _ _ _ _ _ _ _ _ _ _ => rfl

theorem getElem?_offsetRangeLoop (r : RangeB Nat) (n o : Nat) (mask : List Bool) (j : Nat) (hj : j < n) :
    (offsetRangeLoop r n o mask)[j]? = (mask[j]?).map (· && r.contains (o + j)) := by
  induction n generalizing o mask j with
  | zero => cases hj
  | succ n ih =>
    cases mask with
    | nil => simp [offsetRangeLoop]
    | cons b mask =>
      cases j with
      | zero => cases b <;> simp [offsetRangeLoop]
      | succ j =>
        have := ih (o + 1) mask j (by omega)
        rw [Nat.add_right_comm, Nat.add_assoc] at this
        simpa [offsetRangeLoop] using this

theorem mem_halfOpen (a b x : Nat) : (RangeB.halfOpen a b).Mem x ↔ a ≤ x ∧ x < b := by
  simp [RangeB.Mem, RangeB.halfOpen]

/-- C14: the query by offset range selects the elements with offsets in the range. -/
theorem C14_offset_range (r : RangeB Nat) (m : Nat → T.Key → Bool) (hm : ∀ o k, m o k = true ↔ r.Mem o) :
    QueryFor (offsetRangeQuery r : Query T) covers m where
  containing := by
    intro o i mask j k hl hk
    have hc : ∀ x k, r.contains x = m x k := fun x k => by
      rw [Bool.eq_iff_iff, contains_iff, hm]
    show (if !r.intersects (RangeB.halfOpen o (o + T.keys.len i.keys)) then clearBits mask
      else offsetRangeLoop r (T.keys.len i.keys) o mask)[j]? = _
    split
    · rename_i hi
      rw [getElem?_clearBits]
      cases hb : mask[j]? with
      | none => rfl
      | some b =>
        have hj := (List.getElem?_eq_some_iff.mp hb).1
        have : m (o + j) k = false := by
          cases hx : m (o + j) k with
          | false => rfl
          | true =>
            rw [C49_intersects_of_common r _ (o + j) ((hm _ _).mp hx) ((mem_halfOpen _ _ _).mpr (by omega))] at hi
            cases hi
        simp [this]
    · cases hb : mask[j]? with
      | none =>
        have hj := List.getElem?_eq_none_iff.mp hb
        rw [Option.map_none, List.getElem?_eq_none_iff, length_offsetRangeLoop]
        exact hj
      | some b =>
        have hj := (List.getElem?_eq_some_iff.mp hb).1
        rw [getElem?_offsetRangeLoop _ _ _ _ _ (by omega), hb, hc _ k]
  intersecting_le := by
    intro o i mask j _ h
    have h' : (if !r.intersects (RangeB.halfOpen o (o + i.count)) then clearBits mask else mask)[j]? = some true := h
    split at h'
    · rw [getElem?_clearBits] at h'
      cases hb : mask[j]? <;> simp [hb] at h'
    · exact h'
  intersecting := by
    intro o i mask j s _ _ hb h o' k h1 h2 _
    have h' : (if !r.intersects (RangeB.halfOpen o (o + i.count)) then clearBits mask else mask)[j]? = some false := h
    split at h'
    · rename_i hi
      cases hx : m o' k with
      | false => rfl
      | true =>
        rw [C49_intersects_of_common r _ o' ((hm _ _).mp hx) ((mem_halfOpen _ _ _).mpr (by omega))] at hi
        cases hi
    · rw [hb] at h'
      cases h'

/-- A half open range, of which only the start matters for a branch: the elements 3 and 4 of a leaf at offset 2. -/
example : (offsetRangeQuery (⟨.excluded 2, .excluded 5⟩ : RangeB Nat) : Query Concrete.types).containing 2
    ⟨true, none, [0, 1, 2, 3, 4], 0⟩ [true, true, true, true, true] = [false, true, true, false, false] := by decide

/-- Keys from 3 to 8, with offset before 5 or not before 8. -/
example : QueryFor (andQuery (Concrete.keyRange 3 8)
      (orQuery (offsetRangeQuery (⟨.unbounded, .excluded 5⟩ : RangeB Nat)) (offsetRangeQuery (⟨.included 8, .unbounded⟩ : RangeB Nat))))
    Concrete.covers (fun o (k : Nat) => decide (3 ≤ k ∧ k ≤ 8) && (decide (o < 5) || decide (8 ≤ o))) :=
  C13_and (Concrete.keyRange_queryFor 3 8) (C13_or (C14_offset_range (T := Concrete.types) (⟨.unbounded, .excluded 5⟩ : RangeB Nat)
    (fun o _ => decide (o < 5)) (by simp [RangeB.Mem])) (C14_offset_range (T := Concrete.types) (⟨.included 8, .unbounded⟩ : RangeB Nat)
    (fun o _ => decide (8 ≤ o)) (by simp [RangeB.Mem])))

/-- C09 for `iter_from`: all elements that are present. -/
theorem C09_iter_from {V : Type} {E : Env T V} {cx : Ctx E} {s : St E} {c : List (Option (T.Key × V))} (ok : cx.Ok) (hr : Reach cx s)
    (hs : Small E s) (hc : Contains cx s c) (between : Nat → St E → St E) (hb : Harmless cx.sec between) (n fuel : Nat)
    (hf : 2 * rootLevel s.root + 4 ≤ fuel) (hn : rootCount s.root ≤ n) :
    ∃ s', Tree.elements allQuery .forward between n fuel (snapshot cx s) s = .ok ((matching (fun _ _ => true) 0 c).map .ok) s' := by
  obtain ⟨s', r, h1, _, h3⟩ := C09_filtered_exact ok hr hs hc allQuery (fun _ _ => True) _ ⟨fun _ _ _ => trivial, fun _ _ _ _ _ => trivial⟩
    C13_all between hb n fuel hf
  exact ⟨s', h3 hn ▸ h1⟩

/-- C55: cutting off a stream delivers the items before the first one satisfying the condition, and that one. -/
theorem C55_cut_off {α : Type} (condition : α → Bool) (before after : List α) (x : α)
    (hb : ∀ a ∈ before, condition a = false) (hx : condition x = true) :
    takeUntilCondition condition (before ++ x :: after) = before ++ [x] := by
  induction before with
  | nil => simp [takeUntilCondition, cutMarks, hx]
  | cons a before ih =>
    have ha := hb a List.mem_cons_self
    have := ih fun b h => hb b (List.mem_cons_of_mem a h)
    unfold takeUntilCondition cutMarks at this ⊢
    simp only [List.cons_append, List.flatMap_cons, ha, Bool.false_eq_true, if_false]
    simp only [List.cons_append, List.nil_append, List.takeWhile_cons, Option.isSome_some, if_true, List.filterMap_cons, id]
    rw [this]

/-- C55: a stream without an item satisfying the condition is delivered as it is. -/
theorem C55_no_cut {α : Type} (condition : α → Bool) (items : List α) (h : ∀ a ∈ items, condition a = false) :
    takeUntilCondition condition items = items := by
  induction items with
  | nil => rfl
  | cons a items ih =>
    have ha := h a List.mem_cons_self
    have := ih fun b hb => h b (List.mem_cons_of_mem a hb)
    unfold takeUntilCondition cutMarks at this ⊢
    simp only [List.flatMap_cons, ha, Bool.false_eq_true, if_false]
    simp only [List.cons_append, List.nil_append, List.takeWhile_cons, Option.isSome_some, if_true, List.filterMap_cons, id]
    rw [this]

example : takeUntilCondition (fun x => decide (x > 2)) [1, 2, 5, 1, 7] = [1, 2, 5] :=
  C55_cut_off _ [1, 2] [1, 7] 5 (by decide) (by decide)

end Banyan
