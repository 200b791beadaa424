import Verif.Model.Text
/-
Base32.
-/
set_option autoImplicit false
namespace Banyan

theorem bitsNat_eight : ∀ n : Fin 256, bitsNat [n.1.testBit 7, n.1.testBit 6, n.1.testBit 5, n.1.testBit 4, n.1.testBit 3,
    n.1.testBit 2, n.1.testBit 1, n.1.testBit 0] = n.1 := by decide +kernel

theorem bitsNat_byteBits (b : UInt8) : UInt8.ofNat (bitsNat (byteBits b)) = b := by
  have := bitsNat_eight ⟨b.toNat, b.toNat_lt⟩
  unfold byteBits
  simp only at this
  rw [this, UInt8.ofNat_toNat]

theorem byteBits_bitsNat : ∀ a b c d e f g h : Bool, byteBits (UInt8.ofNat (bitsNat [a, b, c, d, e, f, g, h])) = [a, b, c, d, e, f, g, h] := by
  decide +kernel

theorem base32Bits_char : ∀ a b c d e : Bool, base32Bits (base32Char [a, b, c, d, e]) = some [a, b, c, d, e] := by decide +kernel

theorem bitsNat_five : ∀ n : Fin 32, base32Char [n.1.testBit 4, n.1.testBit 3, n.1.testBit 2, n.1.testBit 1, n.1.testBit 0] =
    base32Symbols[n.1]'(n.2) := by decide +kernel

theorem base32Bits_some {c : Char} {bs : List Bool} (h : base32Bits c = some bs) :
    ∃ x y z u v, bs = [x, y, z, u, v] ∧ base32Char bs = c := by
  unfold base32Bits at h
  cases hi : base32Symbols.idxOf? c with
  | none => rw [hi] at h; cases h
  | some n =>
    rw [hi] at h
    cases h
    obtain ⟨hn, hc⟩ : ∃ hn : n < 32, base32Symbols[n]'hn = c := by
      rw [List.idxOf?, List.findIdx?_eq_some_iff_getElem] at hi
      obtain ⟨h1, h2, _⟩ := hi
      exact ⟨h1, by simpa using h2⟩
    exact ⟨_, _, _, _, _, rfl, (bitsNat_five ⟨n, hn⟩).trans hc⟩

/-- The zeros added to the last group. -/
def padLen (n : Nat) : Nat := (5 - n % 5) % 5

theorem base32AllBits_groups (bits : List Bool) :
    base32AllBits (base32Groups bits) = some (bits ++ List.replicate (padLen bits.length) false) := by
  induction bits using base32Groups.induct with
  | case1 a b c d e r ih =>
    unfold base32Groups
    simp only [base32AllBits, base32Bits_char, ih, List.cons_append, List.nil_append, List.length_cons]
    have : padLen (r.length + 1 + 1 + 1 + 1 + 1) = padLen r.length := by unfold padLen; omega
    rw [this]
  | case2 => rfl
  | case3 r h1 h2 =>
    match r, h1, h2 with
    | [], _, h2 => exact absurd rfl h2
    | [a], _, _ => simp [base32Groups, base32AllBits, padLen, List.replicate, base32Bits_char]
    | [a, b], _, _ => simp [base32Groups, base32AllBits, padLen, List.replicate, base32Bits_char]
    | [a, b, c], _, _ => simp [base32Groups, base32AllBits, padLen, List.replicate, base32Bits_char]
    | [a, b, c, d], _, _ => simp [base32Groups, base32AllBits, padLen, List.replicate, base32Bits_char]
    | a :: b :: c :: d :: e :: r, h1, _ => exact absurd rfl (h1 a b c d e r)

theorem base32Groups_length (bits : List Bool) : (base32Groups bits).length = (bits.length + 4) / 5 := by
  induction bits using base32Groups.induct with
  | case1 a b c d e r ih =>
    unfold base32Groups
    simp only [List.length_cons, ih]
    omega
  | case2 => rfl
  | case3 r h1 h2 =>
    match r, h1, h2 with
    | [], _, h2 => exact absurd rfl h2
    | [a], _, _ => simp [base32Groups]
    | [a, b], _, _ => simp [base32Groups]
    | [a, b, c], _, _ => simp [base32Groups]
    | [a, b, c, d], _, _ => simp [base32Groups]
    | a :: b :: c :: d :: e :: r, h1, _ => exact absurd rfl (h1 a b c d e r)

theorem base32Groups_pad (bits : List Bool) (k : Nat) (hk : k < 5) (hm : (bits.length + k) % 5 = 0) :
    base32Groups (bits ++ List.replicate k false) = base32Groups bits := by
  induction bits using base32Groups.induct with
  | case1 a b c d e r ih =>
    simp only [List.cons_append, List.length_cons] at hm ⊢
    unfold base32Groups
    rw [ih (by omega)]
  | case2 =>
    have : k = 0 := by simp only [List.length_nil] at hm; omega
    subst this
    rfl
  | case3 r h1 h2 =>
    match r, h1, h2 with
    | [], _, h2 => exact absurd rfl h2
    | [a], _, _ =>
      have : k = 4 := by simp only [List.length_cons, List.length_nil] at hm; omega
      subst this; rfl
    | [a, b], _, _ =>
      have : k = 3 := by simp only [List.length_cons, List.length_nil] at hm; omega
      subst this; rfl
    | [a, b, c], _, _ =>
      have : k = 2 := by simp only [List.length_cons, List.length_nil] at hm; omega
      subst this; rfl
    | [a, b, c, d], _, _ =>
      have : k = 1 := by simp only [List.length_cons, List.length_nil] at hm; omega
      subst this; rfl
    | a :: b :: c :: d :: e :: r, h1, _ => exact absurd rfl (h1 a b c d e r)

theorem bitsBytes_bits (bytes : Bytes) (k : Nat) (hk : k < 5) :
    bitsBytes (bytes.flatMap byteBits ++ List.replicate k false) = some bytes := by
  induction bytes with
  | nil =>
    match k, hk with
    | 0, _ => rfl
    | 1, _ => rfl
    | 2, _ => rfl
    | 3, _ => rfl
    | 4, _ => rfl
  | cons b bytes ih =>
    have h1 := bitsNat_byteBits b
    simp only [List.flatMap_cons, byteBits, List.cons_append, List.nil_append] at h1 ⊢
    rw [bitsBytes]
    have h2 : bitsBytes (List.flatMap byteBits bytes ++ List.replicate k false) = some bytes := ih
    rw [h2, h1]

theorem bitsBytes_some (bits : List Bool) (bytes : Bytes) (h : bitsBytes bits = some bytes) :
    ∃ k < 5, bits = bytes.flatMap byteBits ++ List.replicate k false := by
  induction bits using bitsBytes.induct generalizing bytes with
  | case1 a b c d e f g h' r x hx ih =>
    rw [bitsBytes, hx] at h
    cases h
    obtain ⟨k, hk, hr⟩ := ih x hx
    refine ⟨k, hk, ?_⟩
    rw [List.flatMap_cons, byteBits_bitsNat, hr]
    rfl
  | case2 a b c d e f g h' r hx ih =>
    rw [bitsBytes, hx] at h
    cases h
  | case3 r hr hc =>
    rw [bitsBytes] at h
    · rw [if_pos hc] at h
      cases h
      refine ⟨r.length, hc.1, ?_⟩
      rw [List.flatMap_nil, List.nil_append, List.eq_replicate_iff]
      refine ⟨rfl, fun b hb => ?_⟩
      have := List.all_eq_true.mp hc.2 b hb
      simpa using this
    · exact hr
  | case4 r hr hc =>
    rw [bitsBytes] at h
    · rw [if_neg hc] at h
      cases h
    · exact hr

theorem base32AllBits_some (cs : List Char) (bits : List Bool) (h : base32AllBits cs = some bits) :
    bits.length = 5 * cs.length ∧ base32Groups bits = cs := by
  induction cs generalizing bits with
  | nil => cases h; exact ⟨rfl, rfl⟩
  | cons c cs ih =>
    unfold base32AllBits at h
    cases h1 : base32Bits c with
    | none => rw [h1] at h; cases h
    | some a =>
      rw [h1] at h
      cases h2 : base32AllBits cs with
      | none => rw [h2] at h; cases h
      | some b =>
        rw [h2] at h
        cases h
        obtain ⟨h3, h4⟩ := ih b h2
        obtain ⟨x, y, z, u, v, rfl, h5⟩ := base32Bits_some h1
        refine ⟨by simp only [List.length_append, List.length_cons, List.length_nil, h3]; omega, ?_⟩
        simp only [List.cons_append, List.nil_append]
        unfold base32Groups
        rw [h5, h4]

theorem bits_length (bytes : Bytes) : (bytes.flatMap byteBits).length = 8 * bytes.length := by
  induction bytes with
  | nil => rfl
  | cons b bytes ih => rw [List.flatMap_cons, List.length_append, ih, List.length_cons]; show 8 + _ = _; omega

theorem base32_round_trip (bytes : Bytes) : base32Decode (base32Encode bytes) = some bytes := by
  unfold base32Decode base32Encode
  rw [base32AllBits_groups]
  exact bitsBytes_bits _ _ (Nat.mod_lt _ (by decide))

theorem base32_canonical {cs : List Char} {bytes : Bytes} (h : base32Decode cs = some bytes) : base32Encode bytes = cs := by
  unfold base32Decode at h
  cases hb : base32AllBits cs with
  | none => rw [hb] at h; cases h
  | some bits =>
    rw [hb] at h
    obtain ⟨h1, h2⟩ := base32AllBits_some _ _ hb
    obtain ⟨k, hk, h3⟩ := bitsBytes_some _ _ h
    subst h3
    rw [List.length_append, List.length_replicate] at h1
    rw [base32Groups_pad _ k hk (by omega)] at h2
    exact h2

theorem base32Encode_length (bytes : Bytes) : (base32Encode bytes).length = (8 * bytes.length + 4) / 5 := by
  unfold base32Encode
  rw [base32Groups_length, bits_length]

theorem base32Char_mem : ∀ a b c d e : Bool, base32Char [a, b, c, d, e] ∈ base32Symbols := by decide +kernel

theorem base32Groups_mem (bits : List Bool) : ∀ c ∈ base32Groups bits, c ∈ base32Symbols := by
  induction bits using base32Groups.induct with
  | case1 a b c d e r ih =>
    unfold base32Groups
    intro x hx
    cases hx with
    | head => exact base32Char_mem ..
    | tail _ hx => exact ih x hx
  | case2 => intro x hx; cases hx
  | case3 r h1 h2 =>
    match r, h1, h2 with
    | [], _, h2 => exact absurd rfl h2
    | [a], _, _ => intro x hx; simp only [base32Groups, List.mem_singleton] at hx; rw [hx]; exact base32Char_mem ..
    | [a, b], _, _ => intro x hx; simp only [base32Groups, List.mem_singleton] at hx; rw [hx]; exact base32Char_mem ..
    | [a, b, c], _, _ => intro x hx; simp only [base32Groups, List.mem_singleton] at hx; rw [hx]; exact base32Char_mem ..
    | [a, b, c, d], _, _ => intro x hx; simp only [base32Groups, List.mem_singleton] at hx; rw [hx]; exact base32Char_mem ..
    | a :: b :: c :: d :: e :: r, h1, _ => exact absurd rfl (h1 a b c d e r)

/-! ### searching -/

theorem afterFirst_none {p : Char} {pat t : List Char} (h : p ∉ t) : afterFirst (p :: pat) t = none := by
  induction t with
  | nil => rfl
  | cons c t ih =>
    simp only [List.mem_cons, not_or] at h
    unfold afterFirst
    rw [ih h.2, if_neg]
    simp [List.isPrefixOf, h.1]

theorem afterFirst_first {pat pre t : List Char} (hp : pat ≠ []) (h : ¬ pat <:+: pre ++ pat.dropLast) :
    afterFirst pat (pre ++ (pat ++ t)) = some t := by
  induction pre with
  | nil =>
    cases pat with
    | nil => exact absurd rfl hp
    | cons p pat =>
      simp only [List.nil_append, List.cons_append]
      unfold afterFirst
      rw [if_pos (by simp [List.isPrefixOf_iff_prefix])]
      simp
  | cons c pre ih =>
    have h1 : ¬ pat <:+: pre ++ pat.dropLast := fun hc => h (hc.trans (List.suffix_cons _ _).isInfix)
    simp only [List.cons_append]
    unfold afterFirst
    rw [ih h1, if_neg]
    intro hc
    rw [List.isPrefixOf_iff_prefix] at hc
    have h2 : (c :: pre ++ pat.dropLast) <+: c :: (pre ++ (pat ++ t)) := by
      rw [List.cons_append, List.cons_prefix_cons]
      refine ⟨rfl, ?_⟩
      rw [List.prefix_append_right_inj]
      exact (List.dropLast_prefix _).trans (List.prefix_append _ _)
    have h3 := List.prefix_of_prefix_length_le hc h2 (by
      simp only [List.cons_append, List.length_cons, List.length_append, List.length_dropLast]
      omega)
    exact h h3.isInfix

end Banyan
