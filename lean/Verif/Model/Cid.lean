import Verif.Model.Varint
/-
Content identifiers (crate `cid`, not in the repository).
-/
set_option autoImplicit false
namespace Banyan

/-- The bytes of the content identifier at the start of some bytes: version 0 is a plain sha256 multihash, version 1 has
version, codec, hash function and size as variable length numbers, followed by the digest of at most 64 bytes. -/
def cidPrefix (b : List UInt8) : Option (List UInt8) :=
  match b with
  | 0x12 :: 0x20 :: r => if r.length < 32 then none else some (b.take 34)
  | _ =>
    match unvar b with
    | some (1, r) =>
      match unvar r with
      | none => none
      | some (_, r) =>
        match unvar r with
        | none => none
        | some (_, r) =>
          match unvar r with
          | none => none
          | some (n, r) => if 64 < n then none else if r.length < n then none else some (b.take (b.length - (r.length - n)))
    | _ => none

/-- Content identifiers (`libipld::Cid`), as their bytes. -/
abbrev Cid := { b : List UInt8 // cidPrefix b = some b }

/-- `Cid::read_bytes`; trailing bytes are ignored. (The check always succeeds, see `readCid_total`.) -/
def readCid (b : List UInt8) : Option Cid :=
  match cidPrefix b with
  | none => none
  | some c => if h : cidPrefix c = some c then some ⟨c, h⟩ else none

theorem readCid_cid (c : Cid) : readCid c.1 = some c := by
  unfold readCid
  rw [c.2]
  simp only
  rw [dif_pos c.2]

theorem unvar_prefix (b : List UInt8) (n : Nat) (r : List UInt8) (h : unvar b = some (n, r)) :
    ∃ p, b = p ++ r ∧ ∀ r', unvar (p ++ r') = some (n, r') := by
  induction b generalizing n with
  | nil => cases h
  | cons x b ih =>
    unfold unvar at h
    by_cases hx : x.toNat < 128
    · rw [if_pos hx] at h
      cases h
      refine ⟨[x], rfl, fun r' => ?_⟩
      simp only [List.cons_append, List.nil_append, unvar]
      rw [if_pos hx]
    · rw [if_neg hx] at h
      cases hu : unvar b with
      | none => rw [hu] at h; cases h
      | some q =>
        obtain ⟨m, r2⟩ := q
        rw [hu] at h
        cases h
        obtain ⟨p, hp, hr⟩ := ih m hu
        refine ⟨x :: p, by rw [hp]; rfl, fun r' => ?_⟩
        simp only [List.cons_append, unvar]
        rw [if_neg hx, hr r']

/-- What starts with a content identifier of version 0. -/
def isV0 : List UInt8 → Bool
  | 0x12 :: 0x20 :: _ => true
  | _ => false

theorem isV0_some (b : List UInt8) (h : isV0 b = true) : ∃ r, b = 0x12 :: 0x20 :: r := by
  unfold isV0 at h
  split at h
  · exact ⟨_, rfl⟩
  · cases h

/-- The second case of `cidPrefix`. -/
def cidPrefix1 (b : List UInt8) : Option (List UInt8) :=
  match unvar b with
  | some (1, r) =>
    match unvar r with
    | none => none
    | some (_, r) =>
      match unvar r with
      | none => none
      | some (_, r) =>
        match unvar r with
        | none => none
        | some (n, r) => if 64 < n then none else if r.length < n then none else some (b.take (b.length - (r.length - n)))
  | _ => none

theorem cidPrefix_v1 (b : List UInt8) (h : isV0 b = false) : cidPrefix b = cidPrefix1 b := by
  unfold cidPrefix
  split
  · cases h
  · rfl

theorem cidPrefix1_some (b c : List UInt8) (h : cidPrefix1 b = some c) :
    ∃ p1 p2 p3 p4 d r : List UInt8, b = p1 ++ (p2 ++ (p3 ++ (p4 ++ (d ++ r)))) ∧ c = p1 ++ (p2 ++ (p3 ++ (p4 ++ d))) ∧
      (∀ r', unvar (p1 ++ r') = some (1, r')) ∧ (∃ n, ∀ r', unvar (p2 ++ r') = some (n, r')) ∧
      (∃ n, ∀ r', unvar (p3 ++ r') = some (n, r')) ∧ (∀ r', unvar (p4 ++ r') = some (d.length, r')) ∧ d.length ≤ 64 := by
  unfold cidPrefix1 at h
  cases h1 : unvar b with
  | none => rw [h1] at h; cases h
  | some q1 =>
    obtain ⟨v, r1⟩ := q1
    rw [h1] at h
    by_cases hv : v = 1
    · subst hv
      simp only at h
      cases h2 : unvar r1 with
      | none => rw [h2] at h; cases h
      | some q2 =>
        obtain ⟨n2, r2⟩ := q2
        rw [h2] at h
        simp only at h
        cases h3 : unvar r2 with
        | none => rw [h3] at h; cases h
        | some q3 =>
          obtain ⟨n3, r3⟩ := q3
          rw [h3] at h
          simp only at h
          cases h4 : unvar r3 with
          | none => rw [h4] at h; cases h
          | some q4 =>
            obtain ⟨n4, r4⟩ := q4
            rw [h4] at h
            simp only at h
            split at h
            · cases h
            · rename_i h64
              split at h
              · cases h
              · rename_i hl
                injection h with h
                obtain ⟨p1, e1, f1⟩ := unvar_prefix _ _ _ h1
                obtain ⟨p2, e2, f2⟩ := unvar_prefix _ _ _ h2
                obtain ⟨p3, e3, f3⟩ := unvar_prefix _ _ _ h3
                obtain ⟨p4, e4, f4⟩ := unvar_prefix _ _ _ h4
                have hd : (r4.take n4).length = n4 := by rw [List.length_take]; omega
                have hb : b = p1 ++ (p2 ++ (p3 ++ (p4 ++ (r4.take n4 ++ r4.drop n4)))) := by
                  rw [List.take_append_drop, ← e4, ← e3, ← e2, ← e1]
                refine ⟨p1, p2, p3, p4, r4.take n4, r4.drop n4, hb, ?_, f1, ⟨_, f2⟩, ⟨_, f3⟩, ?_, by omega⟩
                · have hlen : b.length - (r4.length - n4) = (p1 ++ (p2 ++ (p3 ++ (p4 ++ r4.take n4)))).length := by
                    have h5 := congrArg List.length hb
                    simp only [List.length_append, List.length_take, List.length_drop] at h5 ⊢
                    omega
                  rw [← h, hlen]
                  have hb' : b = (p1 ++ (p2 ++ (p3 ++ (p4 ++ r4.take n4)))) ++ r4.drop n4 := by
                    simp only [List.append_assoc]; exact hb
                  rw [hb']
                  exact List.take_left
                · rw [hd]; exact f4
    · exfalso
      match v, hv, h with
      | 0, _, h => cases h
      | 1, hv, _ => exact hv rfl
      | v + 2, _, h => cases h

theorem cidPrefix1_of (p1 p2 p3 p4 d : List UInt8) (h1 : ∀ r', unvar (p1 ++ r') = some (1, r'))
    (h2 : ∃ n, ∀ r', unvar (p2 ++ r') = some (n, r')) (h3 : ∃ n, ∀ r', unvar (p3 ++ r') = some (n, r'))
    (h4 : ∀ r', unvar (p4 ++ r') = some (d.length, r')) (h5 : d.length ≤ 64) :
    cidPrefix1 (p1 ++ (p2 ++ (p3 ++ (p4 ++ d)))) = some (p1 ++ (p2 ++ (p3 ++ (p4 ++ d)))) := by
  obtain ⟨n2, h2⟩ := h2
  obtain ⟨n3, h3⟩ := h3
  unfold cidPrefix1
  rw [h1]
  simp only
  rw [h2]
  simp only
  rw [h3]
  simp only
  rw [h4]
  simp only
  rw [if_neg (by omega), if_neg (by omega), Nat.sub_self, Nat.sub_zero, List.take_length]

/-- `readCid` fails only if the bytes do not start with a content identifier. -/
theorem readCid_total (b c : List UInt8) (h : cidPrefix b = some c) : ∃ x : Cid, readCid b = some x ∧ x.1 = c := by
  have key : cidPrefix c = some c := by
    cases hv : isV0 b with
    | true =>
      obtain ⟨r, rfl⟩ := isV0_some b hv
      unfold cidPrefix at h
      simp only at h
      split at h
      · cases h
      · rename_i hl
        injection h with h
        subst h
        unfold cidPrefix
        simp only [List.take_succ_cons]
        rw [if_neg (by rw [List.length_take]; omega), List.take_take]
        rfl
    | false =>
      rw [cidPrefix_v1 b hv] at h
      obtain ⟨p1, p2, p3, p4, d, r, hb, hc, h1, h2, h3, h4, h5⟩ := cidPrefix1_some b c h
      have hc0 : isV0 c = false := by
        cases hc0 : isV0 c with
        | false => rfl
        | true =>
          exfalso
          obtain ⟨r', hr⟩ := isV0_some c hc0
          have h6 := h1 (p2 ++ (p3 ++ (p4 ++ d)))
          rw [← hc, hr] at h6
          cases h6
      rw [cidPrefix_v1 c hc0, hc]
      exact cidPrefix1_of p1 p2 p3 p4 d h1 h2 h3 h4 h5
  refine ⟨⟨c, key⟩, ?_, rfl⟩
  unfold readCid
  rw [h]
  simp only
  rw [dif_pos key]

/-- A content identifier for a number (for examples): the number as codec, and an empty identity hash. -/
def natCidBytes (n : Nat) : List UInt8 := 1 :: (varint n ++ [0, 0])

theorem natCid_valid (n : Nat) : cidPrefix (natCidBytes n) = some (natCidBytes n) := by
  rw [cidPrefix_v1 _ (by rfl)]
  exact cidPrefix1_of [1] (varint n) [0] [0] [] (fun _ => rfl) ⟨n, unvar_varint n⟩ ⟨0, fun _ => rfl⟩ (fun _ => rfl) (by decide)

def natCid (n : Nat) : Cid := ⟨natCidBytes n, natCid_valid n⟩

end Banyan
