import Verif.Proofs.Stores
/-
A least recently used cache with a limit on the total size, as an example of a `WeightCache`. Nothing in this file
corresponds to code in the repository.
-/
set_option autoImplicit false
namespace Banyan.Concrete

/-- Keep the first entries that fit. -/
def evict (room : Nat) : List (Nat × Bytes) → List (Nat × Bytes)
  | [] => []
  | (l, b) :: r => if b.length ≤ room then (l, b) :: evict (room - b.length) r else []

def without (c : List (Nat × Bytes)) (l : Nat) : List (Nat × Bytes) := c.filter fun x => decide (x.1 ≠ l)

def lruGet (c : Nat × List (Nat × Bytes)) (l : Nat) : Option Bytes × (Nat × List (Nat × Bytes)) :=
  match mapGet c.2 l with
  | none => (none, c)
  | some b => (some b, (c.1, (l, b) :: without c.2 l))

def lruPut (c : Nat × List (Nat × Bytes)) (l : Nat) (b : Bytes) : Nat × List (Nat × Bytes) :=
  (c.1, evict c.1 ((l, b) :: without c.2 l))

/-- The cache: capacity and entries, most recently used first. -/
def lru : BlockCache Nat := ⟨Nat × List (Nat × Bytes), fun n => (n, []), lruGet, lruPut⟩

theorem mapGet_evict (c : List (Nat × Bytes)) (room l : Nat) (b : Bytes) (h : mapGet (evict room c) l = some b) :
    mapGet c l = some b := by
  induction c generalizing room with
  | nil => cases h
  | cons x r ih =>
    obtain ⟨k, d⟩ := x
    unfold evict at h
    split at h
    · unfold mapGet at h ⊢
      split at h
      · rename_i hk; rw [if_pos hk]; exact h
      · rename_i hk; rw [if_neg hk]; exact ih _ h
    · cases h

theorem mapGet_without (c : List (Nat × Bytes)) (l l' : Nat) (h : l ≠ l') : mapGet (without c l) l' = mapGet c l' := by
  induction c with
  | nil => rfl
  | cons x r ih =>
    obtain ⟨k, d⟩ := x
    unfold without at ih ⊢
    by_cases hk : k = l
    · rw [List.filter_cons_of_neg (by simpa using hk), ih]
      conv => rhs; unfold mapGet
      rw [if_neg (fun h' => h (hk.symm.trans h'))]
    · rw [List.filter_cons_of_pos (by simpa using hk)]
      unfold mapGet
      split
      · rfl
      · exact ih

theorem lruGet_fst (c : Nat × List (Nat × Bytes)) (l : Nat) : (lruGet c l).1 = mapGet c.2 l := by
  unfold lruGet
  cases mapGet c.2 l <;> rfl

theorem lruGet_sub (c : Nat × List (Nat × Bytes)) (l l' : Nat) (b : Bytes) (h : (lruGet (lruGet c l).2 l').1 = some b) :
    (lruGet c l').1 = some b := by
  rw [lruGet_fst] at h ⊢
  unfold lruGet at h
  cases hg : mapGet c.2 l with
  | none => rw [hg] at h; exact h
  | some d =>
    rw [hg] at h
    have h : (if l = l' then some d else mapGet (without c.2 l) l') = some b := h
    by_cases hl : l = l'
    · rw [if_pos hl] at h
      rw [← hl, hg]; exact h
    · rw [if_neg hl, mapGet_without _ _ _ hl] at h
      exact h

theorem lruPut_sub (c : Nat × List (Nat × Bytes)) (l : Nat) (b : Bytes) (l' : Nat) (b' : Bytes)
    (h : (lruGet (lruPut c l b) l').1 = some b') : (l' = l ∧ b' = b) ∨ (lruGet c l').1 = some b' := by
  rw [lruGet_fst] at h ⊢
  have h := mapGet_evict _ _ _ _ h
  have h : (if l = l' then some b else mapGet (without c.2 l) l') = some b' := h
  by_cases hl : l = l'
  · rw [if_pos hl] at h
    exact Or.inl ⟨hl.symm, (Option.some.inj h).symm⟩
  · rw [if_neg hl, mapGet_without _ _ _ hl] at h
    exact Or.inr h

theorem lru_lawful : lru.Lawful := ⟨fun _ _ => rfl, lruGet_sub, lruPut_sub⟩

/-- The number with the bytes as digits: different blocks have different links. -/
def bytesNat : Bytes → Nat
  | [] => 0
  | b :: r => 1 + b.toNat + 256 * bytesNat r

theorem bytesNat_inj (a b : Bytes) (h : bytesNat a = bytesNat b) : a = b := by
  induction a generalizing b with
  | nil =>
    cases b with
    | nil => rfl
    | cons y s => simp only [bytesNat] at h; omega
  | cons x r ih =>
    cases b with
    | nil => simp only [bytesNat] at h; omega
    | cons y s =>
      simp only [bytesNat] at h
      have hx := x.toNat_lt
      have hy := y.toNat_lt
      have h1 : x.toNat = y.toNat := by omega
      have h2 : bytesNat r = bytesNat s := by omega
      rw [UInt8.toNat_inj.mp h1, ih s h2]

end Banyan.Concrete
