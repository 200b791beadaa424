import Verif.Spec.Tags
/-
Sorted sets, tag tables, normal forms.
-/
set_option autoImplicit false
namespace Banyan

variable {α : Type} [TotalOrd α]

/-! ### sorted sets -/

theorem sorted_ext : ∀ {a b : List α}, a.Pairwise (fun x y => TotalOrd.lt x y = true) → b.Pairwise (fun x y => TotalOrd.lt x y = true) →
    (∀ x, x ∈ a ↔ x ∈ b) → a = b
  | [], [], _, _, _ => rfl
  | [], b :: _, _, _, h => absurd ((h b).mpr (by simp)) (by simp)
  | a :: _, [], _, _, h => absurd ((h a).mp (by simp)) (by simp)
  | a :: as, b :: bs, ha, hb, h => by
    obtain ⟨ha1, ha2⟩ := List.pairwise_cons.mp ha
    obtain ⟨hb1, hb2⟩ := List.pairwise_cons.mp hb
    have hab : a = b := by
      have h1 := (h a).mp (by simp)
      have h2 := (h b).mpr (by simp)
      rcases List.mem_cons.mp h1 with h1 | h1
      · exact h1
      · rcases List.mem_cons.mp h2 with h2 | h2
        · exact h2.symm
        · have := TotalOrd.trans _ _ _ (ha1 b h2) (hb1 a h1)
          rw [TotalOrd.irrefl] at this
          cases this
    subst hab
    have irr : ∀ {l : List α}, (∀ x ∈ l, TotalOrd.lt a x = true) → a ∉ l := by
      intro l hl hm
      have := hl a hm
      rw [TotalOrd.irrefl] at this
      cases this
    rw [sorted_ext ha2 hb2 fun x => ?_]
    have hx := h x
    simp only [List.mem_cons] at hx
    constructor
    · intro hm
      rcases hx.mp (.inr hm) with rfl | h
      · exact absurd hm (irr ha1)
      · exact h
    · intro hm
      rcases hx.mpr (.inr hm) with rfl | h
      · exact absurd hm (irr hb1)
      · exact h

theorem VecSet.ext {a b : VecSet α} (h : ∀ x, x ∈ a.elems ↔ x ∈ b.elems) : a = b := by
  have := sorted_ext a.sorted b.sorted h
  cases a; cases b; cases this; rfl

theorem VecSet.mem_insert (s : VecSet α) (a x : α) : x ∈ (s.insert a).elems ↔ x = a ∨ x ∈ s.elems := mem_insertSorted a x s.elems

theorem VecSet.mem_extend (s : VecSet α) (l : List α) (x : α) : x ∈ (s.extend l).elems ↔ x ∈ s.elems ∨ x ∈ l := by
  unfold VecSet.extend
  induction l generalizing s with
  | nil => simp
  | cons a l ih =>
    rw [List.foldl_cons, ih, VecSet.mem_insert, List.mem_cons]
    constructor
    · rintro ((h | h) | h)
      · exact .inr (.inl h)
      · exact .inl h
      · exact .inr (.inr h)
    · rintro (h | h | h)
      · exact .inl (.inr h)
      · exact .inl (.inl h)
      · exact .inr h

theorem VecSet.mem_empty (x : α) : x ∉ (VecSet.empty : VecSet α).elems := by simp [VecSet.empty]

theorem VecSet.mem_ofList (l : List α) (x : α) : x ∈ (VecSet.ofList l).elems ↔ x ∈ l := by
  unfold VecSet.ofList
  rw [VecSet.mem_extend]
  simp [VecSet.mem_empty]

theorem VecSet.mem_remove (s : VecSet α) (a x : α) : x ∈ (s.remove a).elems ↔ x ∈ s.elems ∧ x ≠ a := by
  simp [VecSet.remove]

theorem VecSet.ofList_elems (s : VecSet α) : VecSet.ofList s.elems = s := VecSet.ext fun x => VecSet.mem_ofList _ x

theorem VecSet.isSubset_iff (a b : VecSet α) : a.isSubset b = true ↔ ∀ x ∈ a.elems, x ∈ b.elems := by
  simp [VecSet.isSubset]

theorem VecSet.isSuperset_iff (a b : VecSet α) : a.isSuperset b = true ↔ ∀ x ∈ b.elems, x ∈ a.elems := VecSet.isSubset_iff b a

theorem VecSet.isDisjoint_iff (a b : VecSet α) : a.isDisjoint b = true ↔ ∀ x ∈ a.elems, x ∉ b.elems := by
  simp [VecSet.isDisjoint]

theorem VecSet.nodup (s : VecSet α) : s.elems.Nodup := by
  refine s.sorted.imp ?_
  rintro a b h rfl
  rw [TotalOrd.irrefl] at h
  cases h

theorem VecSet.search_iff (s : VecSet α) (a : α) (i : Nat) : s.search a = some i ↔ s.elems[i]? = some a := by
  unfold VecSet.search
  rw [List.findIdx?_eq_some_iff_getElem]
  constructor
  · rintro ⟨h1, h2, _⟩
    rw [List.getElem?_eq_getElem h1]
    simpa using h2
  · intro h
    obtain ⟨h1, h2⟩ := List.getElem?_eq_some_iff.mp h
    refine ⟨h1, by simpa using h2, fun j hj => ?_⟩
    simp only [beq_iff_eq]
    rw [← h2]
    intro he
    have := (List.getElem_inj (xs := s.elems) (h₀ := Nat.lt_trans hj h1) (h₁ := h1) s.nodup).mp he
    omega

theorem VecSet.search_isSome (s : VecSet α) (a : α) : (∃ i, s.search a = some i) ↔ a ∈ s.elems := by
  rw [List.mem_iff_getElem?]
  exact exists_congr fun i => s.search_iff a i

theorem VecSet.search_lt {s : VecSet α} {a : α} {i : Nat} (h : s.search a = some i) : i < s.elems.length :=
  (List.getElem?_eq_some_iff.mp ((s.search_iff a i).mp h)).1

theorem length_le_of_subset {β : Type} [DecidableEq β] {l m : List β} (hl : l.Nodup) (h : l ⊆ m) : l.length ≤ m.length := by
  induction l generalizing m with
  | nil => exact Nat.zero_le _
  | cons a l ih =>
    obtain ⟨h1, h2⟩ := List.nodup_cons.mp hl
    have ha := h (List.mem_cons_self ..)
    have := ih (m := m.erase a) h2 fun x hx =>
      (List.mem_erase_of_ne (by rintro rfl; exact h1 hx)).mpr (h (List.mem_cons_of_mem _ hx))
    rw [List.length_erase_of_mem ha] at this
    have := List.length_pos_of_mem ha
    simp only [List.length_cons]
    omega

/-! ### tables -/

theorem mapM_some {β γ : Type} {f : β → Option γ} {l : List β} (h : ∀ x ∈ l, ∃ y, f x = some y) :
    ∃ r, l.mapM f = some r ∧ ∀ y, y ∈ r ↔ ∃ x ∈ l, f x = some y := by
  induction l with
  | nil => exact ⟨[], rfl, by simp⟩
  | cons a l ih =>
    obtain ⟨b, hb⟩ := h a (by simp)
    obtain ⟨r, h1, h2⟩ := ih fun x hx => h x (List.mem_cons_of_mem _ hx)
    refine ⟨b :: r, by simp [List.mapM_cons, hb, h1], fun y => ?_⟩
    simp only [List.mem_cons, h2, exists_eq_or_imp, hb, Option.some.injEq]
    constructor
    · rintro (h | h)
      · exact .inl h.symm
      · exact .inr h
    · rintro (h | h)
      · exact .inl h.symm
      · exact .inr h

theorem mapM_none {β γ : Type} {f : β → Option γ} {l : List β} {x : β} (hx : x ∈ l) (hf : f x = none) : l.mapM f = none := by
  induction l with
  | nil => cases hx
  | cons a l ih =>
    rw [List.mapM_cons]
    rcases List.mem_cons.mp hx with rfl | hx
    · rw [hf]; rfl
    · cases f a with
      | none => rfl
      | some b => rw [ih hx]; rfl

theorem mapM_map_some {β γ : Type} {f : β → Option γ} {g : β → γ} {l : List β} (h : ∀ x ∈ l, f x = some (g x)) : l.mapM f = some (l.map g) := by
  induction l with
  | nil => rfl
  | cons a l ih =>
    rw [List.mapM_cons, h a (by simp), ih fun x hx => h x (List.mem_cons_of_mem _ hx)]
    rfl

/-- The positions of the tags of a set in the table. -/
theorem mapToIndexSet_some {table tags : VecSet α} (hlen : table.elems.length ≤ 2 ^ 32) (h : ∀ x ∈ tags.elems, x ∈ table.elems) :
    ∃ is, mapToIndexSet table tags = some is ∧ ∀ i, i ∈ is.elems ↔ ∃ x ∈ tags.elems, table.elems[i]? = some x := by
  have hf : ∀ x i, (table.search x).map asU32 = some i ↔ table.elems[i]? = some x := by
    intro x i
    rw [Option.map_eq_some_iff]
    constructor
    · rintro ⟨j, h1, h2⟩
      have := VecSet.search_lt h1
      unfold asU32 at h2
      rw [Nat.mod_eq_of_lt (by omega)] at h2
      subst h2
      exact (table.search_iff x j).mp h1
    · intro h1
      have h2 := (table.search_iff x i).mpr h1
      have := VecSet.search_lt h2
      exact ⟨i, h2, Nat.mod_eq_of_lt (by omega)⟩
  obtain ⟨r, h1, h2⟩ := mapM_some (f := fun t => (table.search t).map asU32) (l := tags.elems) (by
    intro x hx
    obtain ⟨i, hi⟩ := List.mem_iff_getElem?.mp (h x hx)
    exact ⟨i, (hf x i).mpr hi⟩)
  refine ⟨VecSet.ofList r, by unfold mapToIndexSet; rw [h1]; rfl, fun i => ?_⟩
  rw [VecSet.mem_ofList, h2]
  exact exists_congr fun x => and_congr_right fun _ => hf x i

theorem mapToIndexSet_none {table tags : VecSet α} {x : α} (hx : x ∈ tags.elems) (h : x ∉ table.elems) : mapToIndexSet table tags = none := by
  unfold mapToIndexSet
  rw [mapM_none hx]
  · rfl
  · rw [Option.map_eq_none_iff, Option.eq_none_iff_forall_ne_some]
    exact fun i hi => h ((table.search_isSome x).mp ⟨i, hi⟩)

theorem TagIndex.expand_valid {t : TagIndex α} {is : VecSet Nat} (h : ∀ i ∈ is.elems, i < t.tags.elems.length) :
    ∃ s, t.expand is = some s ∧ ∀ x, x ∈ s.elems ↔ ∃ i ∈ is.elems, t.tags.elems[i]? = some x := by
  obtain ⟨r, h1, h2⟩ := mapM_some (f := fun i => t.tags.elems[i]?) (l := is.elems) fun i hi => ⟨_, List.getElem?_eq_getElem (h i hi)⟩
  exact ⟨VecSet.ofList r, by unfold TagIndex.expand; rw [h1]; rfl, fun x => by rw [VecSet.mem_ofList, h2]⟩

/-- The table of a list of sets. -/
def tableOf (e : List (VecSet α)) : VecSet α := e.foldl (fun tags a => tags.extend a.elems) VecSet.empty

theorem mem_foldl_extend (e : List (VecSet α)) (s : VecSet α) (x : α) :
    x ∈ (e.foldl (fun tags a => tags.extend a.elems) s).elems ↔ x ∈ s.elems ∨ ∃ a ∈ e, x ∈ a.elems := by
  induction e generalizing s with
  | nil => simp
  | cons a e ih =>
    rw [List.foldl_cons, ih, VecSet.mem_extend]
    simp only [List.mem_cons, exists_eq_or_imp, or_assoc]

theorem mem_tableOf (e : List (VecSet α)) (x : α) : x ∈ (tableOf e).elems ↔ ∃ a ∈ e, x ∈ a.elems := by
  unfold tableOf
  rw [mem_foldl_extend]
  simp [VecSet.mem_empty]

theorem FewTags.table {e : List (VecSet α)} (h : FewTags e) : (tableOf e).elems.length ≤ 2 ^ 32 :=
  h _ (tableOf e).nodup fun x hx => (mem_tableOf e x).mp hx

theorem fromElements_spec {e : List (VecSet α)} (h : FewTags e) :
    ∃ t, TagIndex.fromElements e = some t ∧ t.tags = tableOf e ∧ t.elements.map some = e.map (mapToIndexSet (tableOf e)) := by
  have hsome : ∀ a ∈ e, ∃ is, mapToIndexSet (tableOf e) a = some is := by
    intro a ha
    obtain ⟨is, h1, _⟩ := mapToIndexSet_some h.table fun x hx => (mem_tableOf e x).mpr ⟨a, ha, hx⟩
    exact ⟨is, h1⟩
  have key : ∀ l : List (VecSet α), (∀ a ∈ l, ∃ is, mapToIndexSet (tableOf e) a = some is) →
      ∃ r, l.mapM (mapToIndexSet (tableOf e)) = some r ∧ r.map some = l.map (mapToIndexSet (tableOf e)) := by
    intro l hl
    induction l with
    | nil => exact ⟨[], rfl, rfl⟩
    | cons a l ih =>
      obtain ⟨is, h1⟩ := hl a (by simp)
      obtain ⟨r, h2, h3⟩ := ih fun x hx => hl x (List.mem_cons_of_mem _ hx)
      exact ⟨is :: r, by rw [List.mapM_cons, h1, h2]; rfl, by rw [List.map_cons, List.map_cons, h1, h3]⟩
  obtain ⟨r, h1, h2⟩ := key e hsome
  refine ⟨⟨tableOf e, r⟩, ?_, rfl, h2⟩
  have : TagIndex.fromElements e = (e.mapM (mapToIndexSet (tableOf e))) >>= fun r => pure ⟨tableOf e, r⟩ := rfl
  rw [this, h1]
  rfl

theorem expand_mapToIndexSet {t : TagIndex α} {a : VecSet α} {is : VecSet Nat} (hlen : t.tags.elems.length ≤ 2 ^ 32)
    (h : ∀ x ∈ a.elems, x ∈ t.tags.elems) (hi : mapToIndexSet t.tags a = some is) :
    t.expand is = some a ∧ ∀ i ∈ is.elems, i < t.tags.elems.length := by
  obtain ⟨is', h1, h2⟩ := mapToIndexSet_some hlen h
  rw [hi] at h1
  cases h1
  have hlt : ∀ i ∈ is.elems, i < t.tags.elems.length := by
    intro i hm
    obtain ⟨x, _, hx⟩ := (h2 i).mp hm
    exact (List.getElem?_eq_some_iff.mp hx).1
  refine ⟨?_, hlt⟩
  obtain ⟨s, h3, h4⟩ := TagIndex.expand_valid hlt
  rw [h3]
  congr 1
  refine VecSet.ext fun x => ?_
  rw [h4]
  constructor
  · rintro ⟨i, hm, hx⟩
    obtain ⟨y, hy, hy2⟩ := (h2 i).mp hm
    rw [hx] at hy2
    cases hy2
    exact hy
  · intro hx
    obtain ⟨i, hi⟩ := List.mem_iff_getElem?.mp (h x hx)
    exact ⟨i, (h2 i).mpr ⟨x, hx, hi⟩, hi⟩

/-! ### normal forms -/

theorem redundantLoop_none {b : VecSet α} {l : List (VecSet α)} {r : Option (VecSet α)} (h : redundantLoop b l r = none) :
    ∃ a ∈ l, a.isSubset b = true := by
  induction l generalizing r with
  | nil => cases h
  | cons a l ih =>
    unfold redundantLoop at h
    split at h
    · exact ⟨a, by simp, by assumption⟩
    · split at h
      · obtain ⟨x, h1, h2⟩ := ih h
        exact ⟨x, List.mem_cons_of_mem _ h1, h2⟩
      · obtain ⟨x, h1, h2⟩ := ih h
        exact ⟨x, List.mem_cons_of_mem _ h1, h2⟩

theorem redundantLoop_some {b : VecSet α} {l : List (VecSet α)} {r : Option (VecSet α)} {x : VecSet α} (h : redundantLoop b l r = some (some x)) :
    r = some x ∨ x.isSuperset b = true := by
  induction l generalizing r with
  | nil => cases h; exact .inl rfl
  | cons a l ih =>
    unfold redundantLoop at h
    split at h
    · cases h
    · split at h
      · rcases ih h with h | h
        · cases h; exact .inr (by assumption)
        · exact .inr h
      · exact ih h

theorem mem_insertUnlessRedundant {aa : Dnf α} {b x : VecSet α} (h : x ∈ (insertUnlessRedundant aa b).elems) : x = b ∨ x ∈ aa.elems := by
  unfold insertUnlessRedundant at h
  split at h
  · exact .inr h
  · exact (VecSet.mem_insert aa b x).mp h
  · rcases (VecSet.mem_insert _ b x).mp h with h | h
    · exact .inl h
    · exact .inr ((VecSet.mem_remove aa _ x).mp h).1

theorem insertUnlessRedundant_holds (has : α → Prop) (aa : Dnf α) (b : VecSet α) :
    Dnf.Holds has (insertUnlessRedundant aa b) ↔ Dnf.Holds has aa ∨ ∀ x ∈ b.elems, has x := by
  unfold Dnf.Holds
  constructor
  · rintro ⟨c, h1, h2⟩
    rcases mem_insertUnlessRedundant h1 with rfl | h
    · exact .inr h2
    · exact .inl ⟨c, h, h2⟩
  · unfold insertUnlessRedundant
    split
    · rename_i hl
      rintro (h | h)
      · exact h
      · obtain ⟨a, h1, h2⟩ := redundantLoop_none hl
        exact ⟨a, h1, fun x hx => h x ((VecSet.isSubset_iff a b).mp h2 x hx)⟩
    · rintro (⟨c, h1, h2⟩ | h)
      · exact ⟨c, (VecSet.mem_insert aa b c).mpr (.inr h1), h2⟩
      · exact ⟨b, (VecSet.mem_insert aa b b).mpr (.inl rfl), h⟩
    · rename_i r hl
      have hr : r.isSuperset b = true := by
        rcases redundantLoop_some hl with h | h
        · cases h
        · exact h
      rintro (⟨c, h1, h2⟩ | h)
      · by_cases hc : c = r
        · subst hc
          exact ⟨b, (VecSet.mem_insert _ b b).mpr (.inl rfl), fun x hx => h2 x ((VecSet.isSuperset_iff c b).mp hr x hx)⟩
        · exact ⟨c, (VecSet.mem_insert _ b c).mpr (.inr ((VecSet.mem_remove aa r c).mpr ⟨h1, hc⟩)), h2⟩
      · exact ⟨b, (VecSet.mem_insert _ b b).mpr (.inl rfl), h⟩

/-- A non-empty set of non-empty conjunctions. -/
def Dnf.Filled (d : Dnf α) : Prop := d.elems ≠ [] ∧ ∀ c ∈ d.elems, c.elems ≠ []

theorem insertUnlessRedundant_filled {aa : Dnf α} {b : VecSet α} (h : ∀ c ∈ aa.elems, c.elems ≠ []) (hb : b.elems ≠ []) :
    Dnf.Filled (insertUnlessRedundant aa b) := by
  refine ⟨?_, fun c hc => ?_⟩
  · intro hn
    unfold insertUnlessRedundant at hn
    split at hn
    · rename_i hl
      obtain ⟨a, h1, _⟩ := redundantLoop_none hl
      rw [hn] at h1
      cases h1
    · have := (VecSet.mem_insert aa b b).mpr (.inl rfl)
      rw [hn] at this
      cases this
    · rename_i r _
      have := (VecSet.mem_insert (aa.remove r) b b).mpr (.inl rfl)
      rw [hn] at this
      cases this
  · rcases mem_insertUnlessRedundant hc with rfl | hc
    · exact hb
    · exact h c hc

theorem bitor_holds (has : α → Prop) (a b : Dnf α) : Dnf.Holds has (Dnf.bitor a b) ↔ Dnf.Holds has a ∨ Dnf.Holds has b := by
  unfold Dnf.bitor
  have key : ∀ (l : List (VecSet α)) (d : Dnf α), Dnf.Holds has (l.foldl insertUnlessRedundant d) ↔
      Dnf.Holds has d ∨ ∃ c ∈ l, ∀ x ∈ c.elems, has x := by
    intro l
    induction l with
    | nil => intro d; simp
    | cons c l ih =>
      intro d
      rw [List.foldl_cons, ih, insertUnlessRedundant_holds]
      simp only [List.mem_cons, exists_eq_or_imp, or_assoc]
  exact key b.elems a

theorem bitor_filled {a b : Dnf α} (ha : Dnf.Filled a) (hb : Dnf.Filled b) : Dnf.Filled (Dnf.bitor a b) := by
  unfold Dnf.bitor
  have key : ∀ (l : List (VecSet α)) (d : Dnf α), Dnf.Filled d → (∀ c ∈ l, c.elems ≠ []) → Dnf.Filled (l.foldl insertUnlessRedundant d) := by
    intro l
    induction l with
    | nil => intro d h _; exact h
    | cons c l ih =>
      intro d h hl
      exact ih _ (insertUnlessRedundant_filled h.2 (hl c (by simp))) fun x hx => hl x (List.mem_cons_of_mem _ hx)
  exact key b.elems a ha hb.2

theorem mem_both (x y : VecSet α) (z : α) : z ∈ ((VecSet.empty.extend x.elems).extend y.elems).elems ↔ z ∈ x.elems ∨ z ∈ y.elems := by
  rw [VecSet.mem_extend, VecSet.mem_extend]
  simp [VecSet.mem_empty]

theorem bitand_holds (has : α → Prop) (a b : Dnf α) : Dnf.Holds has (Dnf.bitand a b) ↔ Dnf.Holds has a ∧ Dnf.Holds has b := by
  have inner : ∀ (x : VecSet α) (l : List (VecSet α)) (d : Dnf α),
      Dnf.Holds has (l.foldl (fun rs y => insertUnlessRedundant rs ((VecSet.empty.extend x.elems).extend y.elems)) d) ↔
      Dnf.Holds has d ∨ ((∀ z ∈ x.elems, has z) ∧ ∃ c ∈ l, ∀ z ∈ c.elems, has z) := by
    intro x l
    induction l with
    | nil => intro d; simp
    | cons c l ih =>
      intro d
      rw [List.foldl_cons, ih, insertUnlessRedundant_holds]
      simp only [mem_both, List.mem_cons, exists_eq_or_imp]
      constructor
      · rintro ((h | h) | ⟨h1, h2⟩)
        · exact .inl h
        · exact .inr ⟨fun z hz => h z (.inl hz), .inl fun z hz => h z (.inr hz)⟩
        · exact .inr ⟨h1, .inr h2⟩
      · rintro (h | ⟨h1, h2 | h2⟩)
        · exact .inl (.inl h)
        · exact .inl (.inr fun z hz => hz.elim (h1 z) (h2 z))
        · exact .inr ⟨h1, h2⟩
  have outer : ∀ (l : List (VecSet α)) (d : Dnf α),
      Dnf.Holds has (l.foldl (fun rs x => b.elems.foldl (fun rs y => insertUnlessRedundant rs ((VecSet.empty.extend x.elems).extend y.elems)) rs) d) ↔
      Dnf.Holds has d ∨ ((∃ c ∈ l, ∀ z ∈ c.elems, has z) ∧ Dnf.Holds has b) := by
    intro l
    induction l with
    | nil => intro d; simp
    | cons c l ih =>
      intro d
      rw [List.foldl_cons, ih, inner]
      simp only [List.mem_cons, exists_eq_or_imp]
      rw [or_and_right, or_assoc]
      exact Iff.rfl
  unfold Dnf.bitand
  rw [outer]
  constructor
  · rintro (⟨c, h, _⟩ | h)
    · exact absurd h (VecSet.mem_empty c)
    · exact h
  · exact .inr

theorem bitand_filled {a b : Dnf α} (ha : Dnf.Filled a) (hb : Dnf.Filled b) : Dnf.Filled (Dnf.bitand a b) := by
  have step : ∀ (x y : VecSet α) (d : Dnf α), x.elems ≠ [] → (∀ c ∈ d.elems, c.elems ≠ []) →
      Dnf.Filled (insertUnlessRedundant d ((VecSet.empty.extend x.elems).extend y.elems)) := by
    intro x y d hx hd
    refine insertUnlessRedundant_filled hd ?_
    obtain ⟨z, hz⟩ := List.exists_mem_of_ne_nil _ hx
    exact List.ne_nil_of_mem ((mem_both x y z).mpr (.inl hz))
  have inner : ∀ (x : VecSet α), x.elems ≠ [] → ∀ (l : List (VecSet α)) (d : Dnf α), (∀ c ∈ d.elems, c.elems ≠ []) →
      (l ≠ [] ∨ d.elems ≠ []) →
      Dnf.Filled (l.foldl (fun rs y => insertUnlessRedundant rs ((VecSet.empty.extend x.elems).extend y.elems)) d) := by
    intro x hx l
    induction l with
    | nil => intro d h hd; exact ⟨hd.elim (fun h => absurd rfl h) id, h⟩
    | cons c l ih =>
      intro d h _
      have := step x c d hx h
      exact ih _ this.2 (.inr this.1)
  have outer : ∀ (l : List (VecSet α)) (d : Dnf α), (∀ c ∈ l, c.elems ≠ []) → (∀ c ∈ d.elems, c.elems ≠ []) → (l ≠ [] ∨ d.elems ≠ []) →
      Dnf.Filled (l.foldl (fun rs x => b.elems.foldl (fun rs y => insertUnlessRedundant rs ((VecSet.empty.extend x.elems).extend y.elems)) rs) d) := by
    intro l
    induction l with
    | nil => intro d _ h hd; exact ⟨hd.elim (fun h => absurd rfl h) id, h⟩
    | cons c l ih =>
      intro d hl h _
      have := inner c (hl c (by simp)) b.elems d h (.inl hb.1)
      exact ih _ (fun x hx => hl x (List.mem_cons_of_mem _ hx)) this.2 (.inr this.1)
  exact outer a.elems VecSet.empty ha.2 (fun c h => absurd h (VecSet.mem_empty c)) (.inl ha.1)

theorem literal_elems (a : α) : (Dnf.literal a : Dnf α).elems = [VecSet.ofList [a]] := rfl

theorem literal_holds (has : α → Prop) (a : α) : Dnf.Holds has (Dnf.literal a) ↔ has a := by
  unfold Dnf.Holds
  rw [literal_elems]
  simp [VecSet.mem_ofList]

theorem literal_filled (a : α) : Dnf.Filled (Dnf.literal a) := by
  refine ⟨by rw [literal_elems]; simp, fun c hc => ?_⟩
  rw [literal_elems] at hc
  cases List.mem_singleton.mp hc
  exact List.ne_nil_of_mem ((VecSet.mem_ofList [a] a).mpr (by simp))

/-- Combining normal forms one after the other. -/
theorem foldl_bitor_holds (has : α → Prop) (ds : List (Dnf α)) (d : Dnf α) :
    Dnf.Holds has (ds.foldl Dnf.bitor d) ↔ Dnf.Holds has d ∨ ∃ x ∈ ds, Dnf.Holds has x := by
  induction ds generalizing d with
  | nil => simp
  | cons x ds ih =>
    rw [List.foldl_cons, ih, bitor_holds]
    simp only [List.mem_cons, exists_eq_or_imp, or_assoc]

theorem foldl_bitand_holds (has : α → Prop) (ds : List (Dnf α)) (d : Dnf α) :
    Dnf.Holds has (ds.foldl Dnf.bitand d) ↔ Dnf.Holds has d ∧ ∀ x ∈ ds, Dnf.Holds has x := by
  induction ds generalizing d with
  | nil => simp
  | cons x ds ih =>
    rw [List.foldl_cons, ih, bitand_holds]
    simp only [List.mem_cons, forall_eq_or_imp, and_assoc]

theorem foldl_filled {f : Dnf α → Dnf α → Dnf α} (hf : ∀ a b, Dnf.Filled a → Dnf.Filled b → Dnf.Filled (f a b)) (ds : List (Dnf α)) (d : Dnf α)
    (hd : Dnf.Filled d) (h : ∀ x ∈ ds, Dnf.Filled x) : Dnf.Filled (ds.foldl f d) := by
  induction ds generalizing d with
  | nil => exact hd
  | cons x ds ih => exact ih _ (hf d x hd (h x (by simp))) fun y hy => h y (List.mem_cons_of_mem _ hy)

mutual
theorem dnf_spec (e : Expression α) (h : e.Proper) : ∃ d, e.dnf = some d ∧ Dnf.Filled d ∧ ∀ has, Dnf.Holds has d ↔ e.Holds has :=
  match e, h with
  | .literal a, _ => ⟨Dnf.literal a, rfl, literal_filled a, fun has => literal_holds has a⟩
  | .or es, h => by
    obtain ⟨ds, h1, h2, h3, h4, _⟩ := dnfs_spec es h.2
    cases ds with
    | nil =>
      have : es ≠ [] := h.1
      cases es with
      | nil => exact absurd rfl this
      | cons e es => simp at h2
    | cons d ds =>
      refine ⟨ds.foldl Dnf.bitor d, by simp only [Expression.dnf, h1]; rfl, foldl_filled (fun _ _ => bitor_filled) ds d (h3 d (by simp))
        (fun x hx => h3 x (List.mem_cons_of_mem _ hx)), fun has => ?_⟩
      rw [foldl_bitor_holds]
      have := h4 has
      simp only [List.mem_cons, exists_eq_or_imp] at this
      rw [this]
      simp only [Expression.Holds]
  | .and es, h => by
    obtain ⟨ds, h1, h2, h3, _, h5⟩ := dnfs_spec es h.2
    cases ds with
    | nil =>
      have : es ≠ [] := h.1
      cases es with
      | nil => exact absurd rfl this
      | cons e es => simp at h2
    | cons d ds =>
      refine ⟨ds.foldl Dnf.bitand d, by simp only [Expression.dnf, h1]; rfl, foldl_filled (fun _ _ => bitand_filled) ds d (h3 d (by simp))
        (fun x hx => h3 x (List.mem_cons_of_mem _ hx)), fun has => ?_⟩
      rw [foldl_bitand_holds]
      have := h5 has
      simp only [List.mem_cons, forall_eq_or_imp] at this
      rw [this]
      simp only [Expression.Holds]
theorem dnfs_spec (es : List (Expression α)) (h : Expression.AllProper es) : ∃ ds, Expression.dnfs es = some ds ∧ ds.length = es.length ∧
    (∀ d ∈ ds, Dnf.Filled d) ∧ (∀ has, (∃ d ∈ ds, Dnf.Holds has d) ↔ Expression.HoldSome has es) ∧
    ∀ has, (∀ d ∈ ds, Dnf.Holds has d) ↔ Expression.HoldAll has es :=
  match es, h with
  | [], _ => ⟨[], rfl, rfl, by simp, by simp [Expression.HoldSome], by simp [Expression.HoldAll]⟩
  | e :: es, h => by
    obtain ⟨d, h1, h2, h3⟩ := dnf_spec e h.1
    obtain ⟨ds, g1, g2, g3, g4, g5⟩ := dnfs_spec es h.2
    refine ⟨d :: ds, by simp [Expression.dnfs, h1, g1], by simp [g2], ?_, ?_, ?_⟩
    · intro x hx
      rcases List.mem_cons.mp hx with rfl | hx
      · exact h2
      · exact g3 x hx
    · intro has
      simp only [List.mem_cons, exists_eq_or_imp, g4, h3, Expression.HoldSome]
    · intro has
      simp only [List.mem_cons, forall_eq_or_imp, g5, h3, Expression.HoldAll]
end

omit [TotalOrd α] in
theorem holdSome_iff (has : α → Prop) (es : List (Expression α)) : Expression.HoldSome has es ↔ ∃ e ∈ es, e.Holds has := by
  induction es with
  | nil => simp [Expression.HoldSome]
  | cons e es ih => simp only [Expression.HoldSome, ih, List.mem_cons, exists_eq_or_imp]

omit [TotalOrd α] in
theorem holdAll_iff (has : α → Prop) (es : List (Expression α)) : Expression.HoldAll has es ↔ ∀ e ∈ es, e.Holds has := by
  induction es with
  | nil => simp [Expression.HoldAll]
  | cons e es ih => simp only [Expression.HoldAll, ih, List.mem_cons, forall_eq_or_imp]

omit [TotalOrd α] in
theorem orParts_holds (has : α → Prop) (e : Expression α) : (∃ x ∈ e.orParts, x.Holds has) ↔ e.Holds has := by
  cases e with
  | or es => simp only [Expression.orParts, Expression.Holds, holdSome_iff]
  | literal a => simp [Expression.orParts]
  | and es => simp [Expression.orParts]

omit [TotalOrd α] in
theorem andParts_holds (has : α → Prop) (e : Expression α) : (∀ x ∈ e.andParts, x.Holds has) ↔ e.Holds has := by
  cases e with
  | and es => simp only [Expression.andParts, Expression.Holds, holdAll_iff]
  | literal a => simp [Expression.andParts]
  | or es => simp [Expression.andParts]

omit [TotalOrd α] in
theorem mkOr_holds (has : α → Prop) (es : List (Expression α)) : (Expression.mkOr es).Holds has ↔ ∃ e ∈ es, e.Holds has := by
  unfold Expression.mkOr
  simp only [Expression.Holds, holdSome_iff, List.mem_flatMap]
  constructor
  · rintro ⟨x, ⟨e, h1, h2⟩, h3⟩
    exact ⟨e, h1, (orParts_holds has e).mp ⟨x, h2, h3⟩⟩
  · rintro ⟨e, h1, h2⟩
    obtain ⟨x, h3, h4⟩ := (orParts_holds has e).mpr h2
    exact ⟨x, ⟨e, h1, h3⟩, h4⟩

omit [TotalOrd α] in
theorem mkAnd_holds (has : α → Prop) (es : List (Expression α)) : (Expression.mkAnd es).Holds has ↔ ∀ e ∈ es, e.Holds has := by
  unfold Expression.mkAnd
  simp only [Expression.Holds, holdAll_iff, List.mem_flatMap]
  constructor
  · intro h e he
    exact (andParts_holds has e).mp fun x hx => h x ⟨e, he, hx⟩
  · rintro h x ⟨e, h1, h2⟩
    exact (andParts_holds has e).mpr (h e h1) x h2

omit [TotalOrd α] in
theorem single_and_holds (has : α → Prop) (v : List (Expression α)) : (Expression.single .and v).Holds has ↔ ∀ e ∈ v, e.Holds has := by
  unfold Expression.single
  split
  · simp
  · simp only [Expression.Holds, holdAll_iff]

omit [TotalOrd α] in
theorem single_or_holds (has : α → Prop) (v : List (Expression α)) : (Expression.single .or v).Holds has ↔ ∃ e ∈ v, e.Holds has := by
  unfold Expression.single
  split
  · simp
  · simp only [Expression.Holds, holdSome_iff]

omit [TotalOrd α] in
mutual
theorem simplify_holds (has : α → Prop) (e : Expression α) : e.simplify.Holds has ↔ e.Holds has :=
  match e with
  | .literal a => by simp only [Expression.simplify]
  | .and v => by simp only [Expression.simplify, single_and_holds, simplifyAnd_holds has v, Expression.Holds]
  | .or v => by simp only [Expression.simplify, single_or_holds, simplifyOr_holds has v, Expression.Holds]
theorem simplifyAnd_holds (has : α → Prop) (v : List (Expression α)) : (∀ e ∈ Expression.simplifyAnd v, e.Holds has) ↔ Expression.HoldAll has v :=
  match v with
  | [] => by simp [Expression.simplifyAnd, Expression.HoldAll]
  | e :: es => by
    simp only [Expression.simplifyAnd, Expression.HoldAll, List.mem_append, or_imp, forall_and]
    rw [andParts_holds, simplify_holds has e, simplifyAnd_holds has es]
theorem simplifyOr_holds (has : α → Prop) (v : List (Expression α)) : (∃ e ∈ Expression.simplifyOr v, e.Holds has) ↔ Expression.HoldSome has v :=
  match v with
  | [] => by simp [Expression.simplifyOr, Expression.HoldSome]
  | e :: es => by
    simp only [Expression.simplifyOr, Expression.HoldSome, List.mem_append, or_and_right, exists_or]
    rw [orParts_holds, simplify_holds has e, simplifyOr_holds has es]
end

theorem andExpr_spec {c : VecSet α} (hc : c.elems ≠ []) : ∃ e, Dnf.andExpr c = some e ∧ ∀ has, e.Holds has ↔ ∀ x ∈ c.elems, has x := by
  unfold Dnf.andExpr
  have key : ∀ (l : List α) (e : Expression α) (has : α → Prop), ((l.map Expression.literal).foldl Expression.bitand e).Holds has ↔
      e.Holds has ∧ ∀ x ∈ l, has x := by
    intro l
    induction l with
    | nil => intro e has; simp
    | cons a l ih =>
      intro e has
      rw [List.map_cons, List.foldl_cons, ih]
      unfold Expression.bitand
      rw [mkAnd_holds]
      simp [Expression.Holds, and_assoc]
  cases hl : c.elems with
  | nil => exact absurd hl hc
  | cons a l => exact ⟨_, rfl, fun has => by rw [key]; simp [Expression.Holds]⟩

theorem expression_spec {d : Dnf α} (hd : Dnf.Filled d) : ∃ e, Dnf.expression d = some e ∧ ∀ has, e.Holds has ↔ Dnf.Holds has d := by
  unfold Dnf.expression
  have key : ∀ (l : List (Expression α)) (e : Expression α) (has : α → Prop), (l.foldl Expression.bitor e).Holds has ↔
      e.Holds has ∨ ∃ x ∈ l, x.Holds has := by
    intro l
    induction l with
    | nil => intro e has; simp
    | cons a l ih =>
      intro e has
      rw [List.foldl_cons, ih]
      unfold Expression.bitor
      rw [mkOr_holds]
      simp [or_assoc]
  have each : ∀ l : List (VecSet α), (∀ c ∈ l, c.elems ≠ []) → ∃ es, l.mapM Dnf.andExpr = some es ∧ es.length = l.length ∧
      ∀ has : α → Prop, (∃ x ∈ es, x.Holds has) ↔ ∃ c ∈ l, ∀ x ∈ c.elems, has x := by
    intro l
    induction l with
    | nil => intro _; exact ⟨[], rfl, rfl, by simp⟩
    | cons c l ih =>
      intro h
      obtain ⟨e, h1, h2⟩ := andExpr_spec (h c (by simp))
      obtain ⟨es, g1, g2, g3⟩ := ih fun x hx => h x (List.mem_cons_of_mem _ hx)
      refine ⟨e :: es, by rw [List.mapM_cons, h1, g1]; rfl, by simp [g2], fun has => ?_⟩
      simp only [List.mem_cons, exists_eq_or_imp, h2, g3]
  obtain ⟨es, h1, h2, h3⟩ := each d.elems hd.2
  rw [h1]
  cases es with
  | nil =>
    have : d.elems = [] := by cases hl : d.elems with | nil => rfl | cons a l => rw [hl] at h2; simp at h2
    exact absurd this hd.1
  | cons e es =>
    refine ⟨es.foldl Expression.bitor e, rfl, fun has => ?_⟩
    rw [key, Dnf.Holds, ← h3]
    simp only [List.mem_cons, exists_eq_or_imp]

end Banyan
