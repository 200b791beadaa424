/-
Numbers as bytes: base 128 with continuation bits (the `unsigned-varint` of content identifiers) and big-endian.
-/
set_option autoImplicit false
namespace Banyan

/-- Base 128 with continuation bits. -/
def varintLoop : Nat → Nat → List UInt8
  | 0, n => [UInt8.ofNat n]
  | f + 1, n => if n < 128 then [UInt8.ofNat n] else UInt8.ofNat (n % 128 + 128) :: varintLoop f (n / 128)

def varint (n : Nat) : List UInt8 := varintLoop n n

def unvar : List UInt8 → Option (Nat × List UInt8)
  | [] => none
  | b :: bs =>
    if b.toNat < 128 then some (b.toNat, bs)
    else
      match unvar bs with
      | some (m, r) => some (b.toNat - 128 + 128 * m, r)
      | none => none

theorem toNat_ofNat {n : Nat} (h : n < 256) : (UInt8.ofNat n).toNat = n := by
  simp only [UInt8.toNat_ofNat']
  omega

theorem unvar_varintLoop : ∀ f n r, n ≤ f → unvar (varintLoop f n ++ r) = some (n, r)
  | 0, n, r, h => by
    obtain rfl : n = 0 := by omega
    rfl
  | f + 1, n, r, h => by
    unfold varintLoop
    by_cases hn : n < 128
    · rw [if_pos hn]
      simp only [List.cons_append, List.nil_append, unvar]
      rw [toNat_ofNat (by omega), if_pos hn]
    · rw [if_neg hn]
      simp only [List.cons_append, unvar]
      rw [toNat_ofNat (by omega), if_neg (by omega), unvar_varintLoop f (n / 128) r (by omega)]
      have h1 : n % 128 + 128 - 128 + 128 * (n / 128) = n := by omega
      simp only [h1]

theorem unvar_varint (n : Nat) (r : List UInt8) : unvar (varint n ++ r) = some (n, r) :=
  unvar_varintLoop n n r (Nat.le_refl n)

theorem varint_ne (n : Nat) : varint n ≠ [] := by
  intro h
  have := unvar_varint n []
  rw [h] at this
  simp [unvar] at this

/-- The `k` lowest bytes of a number, big-endian. -/
def beBytes : Nat → Nat → List UInt8
  | 0, _ => []
  | k + 1, n => beBytes k (n / 256) ++ [UInt8.ofNat (n % 256)]

/-- The number with these digits. -/
def ofBe (b : List UInt8) : Nat := b.foldl (fun a x => a * 256 + x.toNat) 0

theorem beBytes_length (k n : Nat) : (beBytes k n).length = k := by
  induction k generalizing n with
  | zero => rfl
  | succ k ih => simp [beBytes, ih]

theorem ofBe_beBytes (k n : Nat) (h : n < 256 ^ k) : ofBe (beBytes k n) = n := by
  induction k generalizing n with
  | zero => simp at h; subst h; rfl
  | succ k ih =>
    have hq : n / 256 < 256 ^ k := by
      rw [Nat.div_lt_iff_lt_mul (by decide)]
      rw [Nat.pow_succ] at h
      exact h
    have := ih (n / 256) hq
    unfold ofBe at this ⊢
    rw [beBytes, List.foldl_append, this]
    simp only [List.foldl_cons, List.foldl_nil]
    rw [toNat_ofNat (by omega)]
    omega

end Banyan
