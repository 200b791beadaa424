import Verif.Spec.Tree
/-
Basic lemmas about compact sequences, loaded trees and lists.
-/
namespace Banyan

/-! ### compact sequences -/

namespace CompactSeq
variable {α : Type} {S : CompactSeq α}

theorem length_filterMap_range (f : Nat → Option α) (n : Nat) (h : ∀ i, i < n → (f i).isSome = true) :
    ((List.range n).filterMap f).length = n := by
  induction n with
  | zero => rfl
  | succ n ih =>
    rw [List.range_succ, List.filterMap_append, List.length_append, ih (fun i hi => h i (by omega))]
    have := h n (by omega)
    obtain ⟨a, ha⟩ := Option.isSome_iff_exists.mp this
    simp [ha]

theorem getElem?_filterMap_range (f : Nat → Option α) (n : Nat) (h : ∀ i, i < n → (f i).isSome = true) (i : Nat) :
    ((List.range n).filterMap f)[i]? = if i < n then f i else none := by
  induction n with
  | zero => simp
  | succ n ih =>
    have ih := ih (fun i hi => h i (by omega))
    have hl := length_filterMap_range f n (fun i hi => h i (by omega))
    rw [List.range_succ, List.filterMap_append]
    obtain ⟨a, ha⟩ := Option.isSome_iff_exists.mp (h n (by omega))
    by_cases hi : i < n
    · rw [List.getElem?_append_left (by omega), ih]
      simp [hi, show i < n + 1 by omega]
    · rw [List.getElem?_append_right (by omega), hl]
      by_cases hi' : i = n
      · subst hi'; simp [ha]
      · have : ¬ i < n + 1 := by omega
        have h2 : i - n ≠ 0 := by omega
        simp only [this, if_false]
        rw [List.getElem?_eq_none]
        simp [ha]; omega

theorem length_toVec (h : S.Lawful) (c : S.Carrier) : (S.toVec c).length = S.len c :=
  length_filterMap_range _ _ (fun i hi => h.get_some c i hi)

theorem getElem?_toVec (h : S.Lawful) (c : S.Carrier) (i : Nat) :
    (S.toVec c)[i]? = if i < S.len c then S.get c i else none :=
  getElem?_filterMap_range _ _ (fun i hi => h.get_some c i hi) i

theorem toVec_ofList (h : S.Lawful) (l : List α) (hl : l ≠ []) : S.toVec (S.ofList l) = l := by
  apply List.ext_getElem?
  intro i
  rw [getElem?_toVec h, h.len_ofList l hl, h.get_ofList l i hl]
  by_cases hi : i < l.length
  · simp [hi]
  · simp [hi]

theorem get_eq_toVec (h : S.Lawful) (c : S.Carrier) (i : Nat) (hi : i < S.len c) :
    S.get c i = (S.toVec c)[i]? := by
  rw [getElem?_toVec h]; simp [hi]

end CompactSeq

/-! ### loaded trees -/

variable {T : TreeTypes} {V : Type}

namespace PTree

/-- Induction over loaded trees. -/
theorem induct {P : PTree T V → Prop} (leaf : ∀ i vs, P (.leaf i vs))
    (branch : ∀ i cs, (∀ c ∈ cs, P c) → P (.branch i cs))
    (purgedLeaf : ∀ i, P (.purgedLeaf i)) (purgedBranch : ∀ i, P (.purgedBranch i)) (t : PTree T V) : P t := by
  refine PTree.rec (motive_1 := P) (motive_2 := fun cs => ∀ c ∈ cs, P c) leaf branch purgedLeaf purgedBranch ?_ ?_ t
  · intro c hc; cases hc
  · intro c cs hc hcs x hx
    rcases List.mem_cons.mp hx with h | h
    · exact h ▸ hc
    · exact hcs x h

theorem contents_eq (cs : List (PTree T V)) : contents cs = cs.flatMap content := by
  induction cs with
  | nil => rfl
  | cons c cs ih => simp only [contents, List.flatMap_cons, ih]

@[simp] theorem contents_nil : contents ([] : List (PTree T V)) = [] := rfl

@[simp] theorem contents_cons (c : PTree T V) (cs) : contents (c :: cs) = c.content ++ contents cs := rfl

@[simp] theorem contents_append (a b : List (PTree T V)) : contents (a ++ b) = contents a ++ contents b := by
  simp [contents_eq]

theorem nodesL_eq (cs : List (PTree T V)) : nodesL cs = cs.flatMap nodes := by
  induction cs with
  | nil => rfl
  | cons c cs ih => simp only [nodesL, List.flatMap_cons, ih]

variable {P Q : PTree T V → Prop}

@[simp] theorem all_leaf (i vs) : All P (.leaf i vs) ↔ P (.leaf i vs) := by simp [All, nodes]
@[simp] theorem all_purgedLeaf (i) : All P (.purgedLeaf i) ↔ P (.purgedLeaf i) := by simp [All, nodes]
@[simp] theorem all_purgedBranch (i) : All P (.purgedBranch i) ↔ P (.purgedBranch i) := by simp [All, nodes]
@[simp] theorem all_branch (i cs) : All P (.branch i cs) ↔ P (.branch i cs) ∧ ∀ c ∈ cs, All P c := by
  simp only [All, nodes, List.mem_cons, nodesL_eq, List.mem_flatMap]
  constructor
  · intro h
    exact ⟨h _ (Or.inl rfl), fun c hc n hn => h n (Or.inr ⟨c, hc, hn⟩)⟩
  · rintro ⟨h1, h2⟩ n (rfl | ⟨c, hc, hn⟩)
    · exact h1
    · exact h2 c hc n hn

theorem All.imp {t : PTree T V} (h : ∀ n, P n → Q n) (ht : t.All P) : t.All Q := fun n hn => h n (ht n hn)

theorem All.root {t : PTree T V} (h : t.All P) : P t := by
  cases t <;> simp only [all_leaf, all_branch, all_purgedLeaf, all_purgedBranch] at h
  · exact h
  · exact h.1
  · exact h
  · exact h

theorem All.children {i : BranchIndex T} {cs : List (PTree T V)} (h : (PTree.branch i cs).All P) :
    ∀ c ∈ cs, c.All P := ((all_branch i cs).mp h).2

end PTree

/-! ### lists -/

theorem length_zip_map_some {α β : Type} (a : List α) (b : List β) (h : a.length = b.length) :
    ((a.zip b).map some).length = b.length := by simp [h]

theorem isSorted_iff (l : List Nat) : isSorted l = true ↔ l.Pairwise (· ≤ ·) := by
  induction l with
  | nil => simp [isSorted]
  | cons a l ih =>
    cases l with
    | nil => simp [isSorted]
    | cons b l =>
      rw [List.pairwise_cons, ← ih]
      simp only [isSorted, Bool.and_eq_true, decide_eq_true_eq]
      constructor
      · rintro ⟨h1, h2⟩
        refine ⟨?_, h2⟩
        intro x hx
        rcases List.mem_cons.mp hx with rfl | hx
        · exact h1
        · exact Nat.le_trans h1 ((List.pairwise_cons.mp (ih.mp h2)).1 x hx)
      · rintro ⟨h1, h2⟩
        exact ⟨h1 b (by simp), h2⟩

theorem isSorted_reverse_iff (l : List Nat) : isSorted l.reverse = true ↔ l.Pairwise (· ≥ ·) := by
  rw [isSorted_iff, List.pairwise_reverse]

/-- `maxLevel` is the maximum. -/
theorem maxLevel_some {children : List (Index T)} {m : Nat} (h : maxLevel children = some m) :
    (∀ c ∈ children, c.level ≤ m) ∧ ∃ c ∈ children, c.level = m := by
  unfold maxLevel at h
  have := List.max?_eq_some_iff.mp h
  constructor
  · intro c hc
    exact this.2 _ (List.mem_map_of_mem hc)
  · obtain ⟨c, hc, h⟩ := List.mem_map.mp this.1
    exact ⟨c, hc, h⟩

theorem maxLevel_ne_none {children : List (Index T)} (h : children ≠ []) : ∃ m, maxLevel children = some m := by
  unfold maxLevel
  cases hm : (children.map Index.level).max? with
  | none => simp at hm; exact absurd hm h
  | some m => exact ⟨m, rfl⟩

theorem maxLevel_eq {children : List (Index T)} {m : Nat} (h1 : ∀ c ∈ children, c.level ≤ m)
    (h2 : ∃ c ∈ children, c.level = m) : maxLevel children = some m := by
  obtain ⟨c, hc, hl⟩ := h2
  have hne : children ≠ [] := List.ne_nil_of_mem hc
  obtain ⟨m', hm'⟩ := maxLevel_ne_none hne
  obtain ⟨h3, c', hc', h4⟩ := maxLevel_some hm'
  have := h3 c hc
  have := h1 c' hc'
  rw [hm']; congr 1; omega

theorem flatten_length_le_of_mem {α : Type} {l : List (List α)} {x : List α} (h : x ∈ l) :
    x.length ≤ l.flatten.length := by
  induction l with
  | nil => cases h
  | cons a l ih =>
    simp only [List.flatten_cons, List.length_append]
    rcases List.mem_cons.mp h with rfl | h
    · omega
    · have := ih h; omega

/-- Branch sealing, as a proposition. -/
theorem branchSealed_iff (cfg : Config) (items : List (Index T)) (level : Nat) :
    cfg.branchSealed items level = true ↔
      (∀ x ∈ items, x.isSealed = true ∧ x.level = level - 1) ∧ cfg.maxBranches level ≤ items.length := by
  unfold Config.branchSealed Config.maxBranches
  by_cases h1 : items.any (fun x => !x.isSealed) = true
  · rw [if_pos h1]
    simp only [Bool.false_eq_true, false_iff, not_and]
    intro h
    obtain ⟨x, hx, hs⟩ := List.any_eq_true.mp h1
    have := (h x hx).1
    simp [this] at hs
  · rw [if_neg h1]
    by_cases h2 : items.any (fun x => x.level != level - 1) = true
    · rw [if_pos h2]
      simp only [Bool.false_eq_true, false_iff, not_and]
      intro h
      obtain ⟨x, hx, hs⟩ := List.any_eq_true.mp h2
      have := (h x hx).2
      simp [this] at hs
    · rw [if_neg h2]
      have h3 : ∀ x ∈ items, x.isSealed = true ∧ x.level = level - 1 := by
        intro x hx
        have a1 : ¬ ((!x.isSealed) = true) := fun h => h1 (List.any_eq_true.mpr ⟨x, hx, h⟩)
        have a2 : ¬ ((x.level != level - 1) = true) := fun h => h2 (List.any_eq_true.mpr ⟨x, hx, h⟩)
        simp only [Bool.not_eq_true', Bool.not_eq_false] at a1
        simp only [bne_iff_ne, ne_eq, Decidable.not_not] at a2
        exact ⟨a1, a2⟩
      have h4 : (∀ x ∈ items, x.isSealed = true ∧ x.level = level - 1) ↔ True := iff_true_intro h3
      rw [h4, true_and]
      split <;> simp

end Banyan
