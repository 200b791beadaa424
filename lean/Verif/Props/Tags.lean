import Verif.Proofs.Tags
/-
Tag tables and tag expressions: C43, C44, C45, C46, C47.
-/
set_option autoImplicit false
namespace Banyan

variable {α : Type} [TotalOrd α]

/-! ### C43 -/

/-- C43: making a table from a list of tag sets succeeds, expanding it gives back the list, accessing one position agrees with the list, and
the table is valid. -/
theorem C43_table (e : List (VecSet α)) (h : FewTags e) :
    ∃ t, TagIndex.fromElements e = some t ∧ t.asElements = some e ∧ (∀ i : Nat, t.get i = some e[i]?) ∧ t.Valid ∧
      ∀ x, x ∈ t.tags.elems ↔ ∃ a ∈ e, x ∈ a.elems := by
  obtain ⟨t, h1, h2, h3⟩ := fromElements_spec h
  have hlen : t.tags.elems.length ≤ 2 ^ 32 := h2 ▸ h.table
  have hmem : ∀ a ∈ e, ∀ x ∈ a.elems, x ∈ t.tags.elems := fun a ha x hx => h2 ▸ (mem_tableOf e x).mpr ⟨a, ha, hx⟩
  rw [← h2] at h3
  have key : ∀ (l : List (VecSet α)) (r : List (VecSet Nat)), (∀ a ∈ l, a ∈ e) → r.map some = l.map (mapToIndexSet t.tags) →
      r.mapM t.expand = some l ∧ (∀ is ∈ r, ∀ i ∈ is.elems, i < t.tags.elems.length) ∧ r.map t.expand = l.map some := by
    intro l
    induction l with
    | nil =>
      intro r _ hr
      cases r with
      | nil => exact ⟨rfl, by simp, rfl⟩
      | cons is r => simp at hr
    | cons a l ih =>
      intro r hl hr
      cases r with
      | nil => simp at hr
      | cons is r =>
        simp only [List.map_cons, List.cons.injEq] at hr
        obtain ⟨g1, g2⟩ := expand_mapToIndexSet hlen (hmem a (hl a (by simp))) hr.1.symm
        obtain ⟨k1, k2, k3⟩ := ih r (fun x hx => hl x (List.mem_cons_of_mem _ hx)) hr.2
        refine ⟨by rw [List.mapM_cons, g1, k1]; rfl, ?_, by rw [List.map_cons, List.map_cons, g1, k3]⟩
        intro is' his
        rcases List.mem_cons.mp his with rfl | his
        · exact g2
        · exact k2 is' his
  obtain ⟨k1, k2, k3⟩ := key e t.elements (fun _ h => h) h3
  refine ⟨t, h1, k1, fun i => ?_, k2, fun x => by rw [h2]; exact mem_tableOf e x⟩
  have hi : (t.elements.map t.expand)[i]? = (e.map some)[i]? := by rw [k3]
  rw [List.getElem?_map, List.getElem?_map] at hi
  unfold TagIndex.get
  cases he : t.elements[i]? with
  | none =>
    rw [he] at hi
    cases hx : e[i]? with
    | none => rfl
    | some a => rw [hx] at hi; cases hi
  | some is =>
    rw [he] at hi
    cases hx : e[i]? with
    | none => rw [hx] at hi; cases hi
    | some a =>
      rw [hx] at hi
      simp only [Option.map_some, Option.some.injEq] at hi
      simp [hi]

/-- C43: writing a valid table and reading it back gives the same table. -/
theorem C43_codec (t : TagIndex α) (h : t.Valid) : TagIndex.ofParts t.parts = some t := by
  unfold TagIndex.ofParts TagIndex.parts
  simp only [VecSet.ofList_elems, List.map_map]
  have : t.elements.map (VecSet.ofList ∘ VecSet.elems) = t.elements := by
    have hc : t.elements.map (VecSet.ofList ∘ VecSet.elems) = t.elements.map id := List.map_congr_left fun s _ => VecSet.ofList_elems s
    rw [hc, List.map_id]
  rw [this, if_pos]
  simp only [List.all_eq_true, decide_eq_true_eq]
  exact h

/-- C43: whatever is read is valid, so all accesses succeed. -/
theorem C43_decoded (p : List α × List (List Nat)) (t : TagIndex α) (h : TagIndex.ofParts p = some t) :
    t.Valid ∧ (∃ e, t.asElements = some e) ∧ ∀ i : Nat, ∃ r, t.get i = some r := by
  have hv : t.Valid := by
    unfold TagIndex.ofParts at h
    simp only at h
    split at h
    · rename_i hc
      cases h
      simp only [List.all_eq_true, decide_eq_true_eq] at hc
      exact hc
    · cases h
  refine ⟨hv, ?_, fun i => ?_⟩
  · obtain ⟨r, h1, _⟩ := mapM_some (f := t.expand) (l := t.elements) fun is his =>
      (TagIndex.expand_valid (hv is his)).imp fun _ h => h.1
    exact ⟨r, h1⟩
  · unfold TagIndex.get
    cases he : t.elements[i]? with
    | none => exact ⟨_, rfl⟩
    | some is =>
      obtain ⟨s, hs, _⟩ := TagIndex.expand_valid (hv is (List.mem_of_getElem? he))
      exact ⟨some s, by simp [hs]⟩

/-! ### C44 -/

/-- C44: a position is found exactly if its tag set includes all tags of one of the conjunctions; the positions are found in ascending order. -/
theorem C44_matching (t : TagIndex α) (h : t.Valid) (hlen : t.tags.elems.length ≤ 2 ^ 32) (q : Dnf α) :
    (∀ i, i ∈ t.matching q ↔ ∃ s, t.get i = some (some s) ∧ ∃ c ∈ q.elems, ∀ x ∈ c.elems, x ∈ s.elems) ∧
    (t.matching q).Pairwise (· < ·) := by
  have hsub : ∀ (c : VecSet α) (e : VecSet Nat) (s : VecSet α), e ∈ t.elements → t.expand e = some s →
      ((∃ is, mapToIndexSet t.tags c = some is ∧ is.isSubset e = true) ↔ ∀ x ∈ c.elems, x ∈ s.elems) := by
    intro c e s he hs
    obtain ⟨s', h1, h2⟩ := TagIndex.expand_valid (h e he)
    rw [hs] at h1
    cases h1
    constructor
    · rintro ⟨is, h3, h4⟩ x hx
      by_cases hc : ∀ x ∈ c.elems, x ∈ t.tags.elems
      · obtain ⟨is', h5, h6⟩ := mapToIndexSet_some hlen hc
        rw [h3] at h5
        cases h5
        obtain ⟨i, hi⟩ := List.mem_iff_getElem?.mp (hc x hx)
        exact (h2 x).mpr ⟨i, (VecSet.isSubset_iff is e).mp h4 i ((h6 i).mpr ⟨x, hx, hi⟩), hi⟩
      · simp only [Classical.not_forall] at hc
        obtain ⟨y, hy, hy2⟩ := hc
        rw [mapToIndexSet_none hy hy2] at h3
        cases h3
    · intro hc
      obtain ⟨is, h5, h6⟩ := mapToIndexSet_some (table := t.tags) (tags := c) hlen fun x hx => by
        obtain ⟨i, _, hi⟩ := (h2 x).mp (hc x hx)
        exact List.mem_of_getElem? hi
      refine ⟨is, h5, (VecSet.isSubset_iff is e).mpr fun i hi => ?_⟩
      obtain ⟨x, hx, hxi⟩ := (h6 i).mp hi
      obtain ⟨j, hj, hxj⟩ := (h2 x).mp (hc x hx)
      obtain ⟨g1, g2⟩ := List.getElem?_eq_some_iff.mp hxi
      obtain ⟨g3, g4⟩ := List.getElem?_eq_some_iff.mp hxj
      have : i = j := (List.getElem_inj (xs := t.tags.elems) (h₀ := g1) (h₁ := g3) t.tags.nodup).mp (by rw [g2, g4])
      subst this
      exact hj
  have hm : t.matching q = t.elements.zipIdx.filterMap fun (e, i) =>
      if (q.elems.filterMap (mapToIndexSet t.tags)).any fun x => x.isSubset e then some i else none := by
    unfold TagIndex.matching
    simp only
    split
    · rename_i hn
      symm
      rw [List.filterMap_eq_nil_iff]
      rintro ⟨e, i⟩ _
      have : q.elems.filterMap (mapToIndexSet t.tags) = [] := by simpa using hn
      simp [this]
    · rfl
  rw [hm]
  constructor
  · intro i
    simp only [List.mem_filterMap, Prod.exists, List.mem_zipIdx_iff_getElem?, Option.ite_none_right_eq_some, List.any_eq_true, Option.some.injEq]
    constructor
    · rintro ⟨e, j, h1, ⟨is, ⟨c, hc, hci⟩, h2⟩, rfl⟩
      have he := List.mem_of_getElem? h1
      obtain ⟨s, hs, _⟩ := TagIndex.expand_valid (h e he)
      refine ⟨s, by unfold TagIndex.get; simp [h1, hs], c, hc, (hsub c e s he hs).mp ⟨is, hci, h2⟩⟩
    · rintro ⟨s, h1, c, hc, h2⟩
      unfold TagIndex.get at h1
      cases he : t.elements[i]? with
      | none => rw [he] at h1; cases h1
      | some e =>
        rw [he] at h1
        simp only [Option.map_eq_some_iff, Option.some.injEq, exists_eq_right] at h1
        obtain ⟨is, h3, h4⟩ := (hsub c e s (List.mem_of_getElem? he) h1).mpr h2
        exact ⟨e, i, by simpa using he, ⟨is, ⟨c, hc, h3⟩, h4⟩, rfl⟩
  · rw [List.pairwise_filterMap]
    have hz : (t.elements.zipIdx.map Prod.snd).Pairwise (· < ·) := by
      rw [List.zipIdx_map_snd]
      exact List.pairwise_lt_range'
    refine (List.pairwise_map.mp hz).imp ?_
    rintro ⟨e, i⟩ ⟨e', j⟩ hij x hx y hy
    simp only [Option.ite_none_right_eq_some, Option.some.injEq] at hx hy
    rw [← hx.2, ← hy.2]
    exact hij

/-! ### C45 -/

/-- C45: converting an expression without empty conjunctions and disjunctions to normal form succeeds, and so does converting back;
both are satisfied by the same sets of tags as the expression. -/
theorem C45_dnf (e : Expression α) (h : e.Proper) :
    ∃ d e', e.dnf = some d ∧ Dnf.expression d = some e' ∧ (∀ has, Dnf.Holds has d ↔ e.Holds has) ∧ ∀ has, e'.Holds has ↔ e.Holds has := by
  obtain ⟨d, h1, h2, h3⟩ := dnf_spec e h
  obtain ⟨e', h4, h5⟩ := expression_spec h2
  exact ⟨d, e', h1, h4, h3, fun has => (h5 has).trans (h3 has)⟩

/-- C45: matching the normal form of an expression against a table finds the positions whose tag sets satisfy the expression. -/
theorem C45_matching (e : Expression α) (h : e.Proper) (sets : List (VecSet α)) (hs : FewTags sets) :
    ∃ d t, e.dnf = some d ∧ TagIndex.fromElements sets = some t ∧
      ∀ i : Nat, i ∈ t.matching d ↔ ∃ s, sets[i]? = some s ∧ e.Holds fun x => x ∈ s.elems := by
  obtain ⟨d, h1, _, h3⟩ := dnf_spec e h
  obtain ⟨t, g1, _, g3, g4, g5⟩ := C43_table sets hs
  refine ⟨d, t, h1, g1, fun i => ?_⟩
  have hlen : t.tags.elems.length ≤ 2 ^ 32 := hs _ t.tags.nodup fun x hx => (g5 x).mp hx
  rw [(C44_matching t g4 hlen d).1 i, g3 i]
  simp only [Option.some.injEq]
  exact exists_congr fun s => and_congr_right fun _ => h3 _

/-! ### C46 -/

omit [TotalOrd α] in
/-- C46: simplifying an expression does not change which sets of tags satisfy it. -/
theorem C46_simplify (e : Expression α) (has : α → Prop) : e.simplify.Holds has ↔ e.Holds has := simplify_holds has e

omit [TotalOrd α] in
/-- C46: the operators mean what they say. -/
theorem C46_operators (has : α → Prop) (a b : Expression α) (es : List (Expression α)) :
    ((Expression.bitand a b).Holds has ↔ a.Holds has ∧ b.Holds has) ∧ ((Expression.bitor a b).Holds has ↔ a.Holds has ∨ b.Holds has) ∧
    ((Expression.mkAnd es).Holds has ↔ ∀ e ∈ es, e.Holds has) ∧ ((Expression.mkOr es).Holds has ↔ ∃ e ∈ es, e.Holds has) := by
  refine ⟨?_, ?_, mkAnd_holds has es, mkOr_holds has es⟩
  · unfold Expression.bitand
    rw [mkAnd_holds]
    simp
  · unfold Expression.bitor
    rw [mkOr_holds]
    simp

/-! ### C47 -/

/-- C47, as far as it is true: equivalent expressions have the same normal form if no conjunction of the normal forms includes another
one. (That this is always so, as the documentation says, is refuted below.) -/
theorem C47_unique_partial (e e' : Expression α) (h : e.Proper) (h' : e'.Proper) (heq : ∀ has : α → Prop, e.Holds has ↔ e'.Holds has)
    (d d' : Dnf α) (hd : e.dnf = some d) (hd' : e'.dnf = some d')
    (hi : ∀ a ∈ d.elems, ∀ b ∈ d.elems, a.isSubset b = true → a = b) (hi' : ∀ a ∈ d'.elems, ∀ b ∈ d'.elems, a.isSubset b = true → a = b) :
    d = d' := by
  obtain ⟨x, h1, _, h3⟩ := dnf_spec e h
  rw [hd] at h1
  cases h1
  obtain ⟨x, g1, _, g3⟩ := dnf_spec e' h'
  rw [hd'] at g1
  cases g1
  have key : ∀ (d d' : Dnf α), (∀ has, Dnf.Holds has d ↔ Dnf.Holds has d') → (∀ a ∈ d.elems, ∀ b ∈ d.elems, a.isSubset b = true → a = b) →
      ∀ a ∈ d.elems, a ∈ d'.elems := by
    intro d d' he hi a ha
    obtain ⟨b, hb1, hb2⟩ := (he fun x => x ∈ a.elems).mp ⟨a, ha, fun _ h => h⟩
    obtain ⟨c, hc1, hc2⟩ := (he fun x => x ∈ b.elems).mpr ⟨b, hb1, fun _ h => h⟩
    have hca : c = a := hi c hc1 a ha ((VecSet.isSubset_iff c a).mpr fun x hx => hb2 x (hc2 x hx))
    subst hca
    have : c = b := VecSet.ext fun x => ⟨hc2 x, hb2 x⟩
    rw [this]
    exact hb1
  have he : ∀ has, Dnf.Holds has d ↔ Dnf.Holds has d' := fun has => (h3 has).trans ((heq has).trans (g3 has).symm)
  exact VecSet.ext fun a => ⟨key d d' he hi a, key d' d (fun has => (he has).symm) hi' a⟩

/-! ### examples -/

/-- Tags are numbers here. -/
def sets5 : List (VecSet Nat) := [.ofList [7, 3], .ofList [], .ofList [9], .ofList [3, 5, 7], .ofList [5, 9]]

theorem sets5_few : FewTags sets5 := by
  intro l hl h
  have hsub : l ⊆ [3, 5, 7, 9] := by
    intro x hx
    obtain ⟨a, ha, hxa⟩ := h x hx
    have : ∀ a ∈ sets5, ∀ x ∈ a.elems, x ∈ [3, 5, 7, 9] := by decide
    exact this a ha x hxa
  have := length_le_of_subset hl hsub
  simp at this
  omega

/-- C43 -/
example : (TagIndex.fromElements sets5).map TagIndex.parts = some ([3, 5, 7, 9], [[0, 2], [], [3], [0, 1, 2], [1, 3]]) := by decide

/-- (3 and (7 or 8)) or 9 -/
def expression1 : Expression Nat := .or [.and [.literal 3, .or [.literal 7, .literal 8]], .literal 9]

/-- C44, C45 -/
example : ((TagIndex.fromElements sets5).bind fun t => expression1.dnf.map t.matching) = some [0, 2, 3, 4] := by decide +kernel

example : expression1.Proper := by simp [expression1, Expression.Proper, Expression.AllProper]

/-- C45: an empty disjunction has no normal form; the conversion panics. -/
theorem C45_empty : (Expression.or [] : Expression α).dnf = none ∧ (Expression.and [] : Expression α).dnf = none := ⟨rfl, rfl⟩

/-- C46 -/
example : (Expression.and [.and [.literal 1, .or [.literal 2]], .or [.or [.literal 3, .and [.literal 4]], .literal 5]]).simplify =
    (Expression.and [.literal 1, .literal 2, .or [.literal 3, .literal 4, .literal 5]] : Expression Nat) := rfl

/-- (1 and 2) or (1 and 3) or 1 -/
def expression2 : Expression Nat := .or [.or [.and [.literal 1, .literal 2], .and [.literal 1, .literal 3]], .literal 1]

/-- C47 is false: `expression2` is equivalent to `1`, but its normal form is `1 or (1 and 2)`: only one of the two redundant conjunctions has
been removed. -/
theorem C47_refuted : (∀ has : Nat → Prop, expression2.Holds has ↔ (Expression.literal 1).Holds has) ∧
    expression2.dnf.map (fun d => d.elems.map VecSet.elems) = some [[1], [1, 2]] ∧
    (Expression.literal 1).dnf.map (fun d => d.elems.map VecSet.elems) = some [[1]] := by
  refine ⟨fun has => ?_, by decide +kernel, by decide +kernel⟩
  simp only [expression2, Expression.Holds, Expression.HoldSome, Expression.HoldAll, or_false, and_true]
  constructor
  · rintro ((h | h) | h)
    · exact h.1
    · exact h.1
    · exact h
  · exact .inr

/-- C47: normal forms to which the partial theorem applies. -/
example : (Expression.and [.or [.literal 1, .literal 2], .or [.literal 2, .literal 1], .or [.literal 1, .literal 3]] : Expression Nat).dnf =
    (Expression.or [.literal 1, .and [.literal 3, .literal 2]]).dnf := by decide +kernel

end Banyan
