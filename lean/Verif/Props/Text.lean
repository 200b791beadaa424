import Verif.Proofs.Text
/-
Links as text (C75) and keys from passwords (C76).
-/
set_option autoImplicit false
namespace Banyan

open Cbor (Digest cidDigest digestCid digestBytes)

variable {base58 : List Char → Option Bytes} {otherBases : Char → List Char → Option Bytes}

/-! ### C75 -/

theorem cidDigest_digestCid (d : Digest) : cidDigest (digestCid d) = some d := by
  unfold cidDigest digestCid digestBytes
  simp only
  rw [dif_pos d.2]

theorem display_length (d : Digest) : (displayDigest d).length = 59 := by
  unfold displayDigest
  rw [List.length_cons, base32Encode_length]
  show (8 * (digestBytes d).length + 4) / 5 + 1 = 59
  unfold digestBytes
  simp only [List.length_cons, d.2]

theorem symbol_size : ∀ c ∈ base32Symbols, c.utf8Size = 1 ∧ c ≠ '/' := by decide +kernel

theorem display_symbols (d : Digest) : ∀ c ∈ displayDigest d, c ∈ base32Symbols := by
  intro c hc
  cases hc with
  | head => decide
  | tail _ hc => exact base32Groups_mem _ c hc

theorem textBytes_symbols {t : List Char} (h : ∀ c ∈ t, c ∈ base32Symbols) : textBytes t = t.length := by
  unfold textBytes
  induction t with
  | nil => rfl
  | cons c t ih =>
    rw [List.map_cons, List.sum_cons, ih fun x hx => h x (List.mem_cons_of_mem _ hx), (symbol_size c (h c (List.mem_cons_self ..))).1,
      List.length_cons]
    omega

theorem display_noSlash (d : Digest) : '/' ∉ displayDigest d := fun hc => (symbol_size _ (display_symbols d _ hc)).2 rfl

/-- A text in base32, without or after a path. -/
theorem parse_base32 {t r : List Char} (h : (afterFirst ipfsDelimiter t).getD t = 'b' :: r) (hr : r ≠ []) :
    parseCid base58 otherBases t = (base32Decode r).bind readCid := by
  have hsz : ∀ c : Char, 1 ≤ c.utf8Size := fun c => by have := c.utf8Size_pos; omega
  have h2 : ¬ textBytes ('b' :: r) < 2 := by
    unfold textBytes
    cases r with
    | nil => exact absurd rfl hr
    | cons c r =>
      simp only [List.map_cons, List.sum_cons]
      have := hsz 'b'
      have := hsz c
      omega
  unfold parseCid
  rw [h]
  simp only
  rw [if_neg h2, if_neg (by rintro ⟨_, h⟩; simp [List.isPrefixOf] at h)]
  cases base32Decode r <;> rfl

/-- C75: the text form of a link can be parsed, and gives the link, also if it comes after a path that ends with `/ipfs/`. -/
theorem C75_round_trip (d : Digest) : parseDigest base58 otherBases (displayDigest d) = some d ∧
    ∀ path : List Char, ¬ ipfsDelimiter <:+: path ++ ipfsDelimiter.dropLast →
      parseDigest base58 otherBases (path ++ (ipfsDelimiter ++ displayDigest d)) = some d := by
  have key : ∀ t, (afterFirst ipfsDelimiter t).getD t = displayDigest d → parseDigest base58 otherBases t = some d := by
    intro t h
    have hne : base32Encode (digestCid d).1 ≠ [] := by
      intro hc
      have := display_length d
      unfold displayDigest at this
      rw [hc] at this
      cases this
    unfold parseDigest
    rw [parse_base32 h hne, base32_round_trip, Option.bind_some, readCid_cid, Option.bind_some, cidDigest_digestCid]
  refine ⟨key _ ?_, fun path hp => key _ ?_⟩
  · unfold ipfsDelimiter
    rw [afterFirst_none (display_noSlash d)]
    rfl
  · rw [afterFirst_first (by decide) hp]
    rfl

/-- C75: different links have different texts. -/
theorem C75_injective {d d' : Digest} (h : displayDigest d = displayDigest d') : d = d' := by
  have h1 := (C75_round_trip (base58 := fun _ => none) (otherBases := fun _ _ => none) d).1
  rw [h, (C75_round_trip d').1] at h1
  exact (Option.some.inj h1).symm

theorem sixSymbols (d : Digest) : ∃ r, displayDigest d = 'b' :: 'a' :: 'f' :: 'y' :: 'r' :: 'e' :: 'i' :: r := by
  have : ∀ r : List Bool, base32Groups (byteBits 0x01 ++ (byteBits 0x71 ++ (byteBits 0x12 ++ (byteBits 0x20 ++ r)))) =
      'a' :: 'f' :: 'y' :: 'r' :: 'e' :: 'i' :: base32Groups (false :: false :: r) := by
    intro r
    have h1 : byteBits 0x01 = [false, false, false, false, false, false, false, true] := by decide
    have h2 : byteBits 0x71 = [false, true, true, true, false, false, false, true] := by decide
    have h3 : byteBits 0x12 = [false, false, false, true, false, false, true, false] := by decide
    have h4 : byteBits 0x20 = [false, false, true, false, false, false, false, false] := by decide
    rw [h1, h2, h3, h4]
    simp only [List.cons_append, List.nil_append]
    iterate 6 rw [base32Groups]
    rfl
  refine ⟨base32Groups (false :: false :: d.1.flatMap byteBits), ?_⟩
  unfold displayDigest base32Encode digestCid digestBytes
  simp only [List.flatMap_cons]
  rw [this]

/-- C75: the text form has 59 symbols, all of them lower case letters or digits, and begins with `bafyrei`. -/
theorem C75_shape (d : Digest) : (displayDigest d).length = 59 ∧ (∀ c ∈ displayDigest d, c ∈ base32Symbols) ∧
    "bafyrei".toList <+: displayDigest d := by
  refine ⟨display_length d, display_symbols d, ?_⟩
  obtain ⟨r, h⟩ := sixSymbols d
  exact ⟨r, h.symm⟩

theorem cidPrefix_prefix {b c : Bytes} (h : cidPrefix b = some c) : c <+: b := by
  cases hv : isV0 b with
  | true =>
    obtain ⟨r, rfl⟩ := isV0_some b hv
    unfold cidPrefix at h
    simp only at h
    split at h
    · cases h
    · cases h; exact List.take_prefix _ _
  | false =>
    rw [cidPrefix_v1 b hv] at h
    obtain ⟨p1, p2, p3, p4, d, r, rfl, rfl, _⟩ := cidPrefix1_some b c h
    exact ⟨r, by simp⟩

theorem readCid_prefix {b : Bytes} {c : Cid} (h : readCid b = some c) : c.1 <+: b := by
  unfold readCid at h
  cases hp : cidPrefix b with
  | none => rw [hp] at h; cases h
  | some x =>
    rw [hp] at h
    simp only at h
    split at h
    · cases h; exact cidPrefix_prefix hp
    · cases h

/-- C75: a text of 59 symbols that begins with `b`, without `/ipfs/`, that can be parsed is the text form of the link:
a mistyped text is never taken for the same link. (Longer texts can be: what follows the identifier is ignored, see
`C75_trailing`.) -/
theorem C75_canonical {r : List Char} {d : Digest} (hl : r.length = 58) (hp : afterFirst ipfsDelimiter ('b' :: r) = none)
    (h : parseDigest base58 otherBases ('b' :: r) = some d) : 'b' :: r = displayDigest d := by
  unfold parseDigest at h
  rw [parse_base32 (r := r) (by rw [hp]; rfl) (by rintro rfl; cases hl)] at h
  cases hb : base32Decode r with
  | none => rw [hb] at h; cases h
  | some bytes =>
    rw [hb, Option.bind_some] at h
    have hc := base32_canonical hb
    have hlen := base32Encode_length bytes
    rw [hc, hl] at hlen
    cases hcid : readCid bytes with
    | none => rw [hcid] at h; cases h
    | some c =>
      rw [hcid, Option.bind_some] at h
      have hpre : c.1 <+: bytes := readCid_prefix hcid
      have hcd : c.1 = digestBytes d := by
        unfold cidDigest at h
        split at h
        · next r' hr =>
          split at h
          · next hlen' => cases h; exact hr
          · cases h
        · cases h
      have h36 : (digestBytes d).length = 36 := by unfold digestBytes; simp only [List.length_cons, d.2]
      rw [hcd] at hpre
      have : digestBytes d = bytes := hpre.eq_of_length_le (by rw [h36]; omega)
      unfold displayDigest
      show _ = 'b' :: base32Encode (digestBytes d)
      rw [this, hc]

/-- C75: what follows the identifier is ignored, so longer texts are accepted too. -/
theorem C75_trailing (d : Digest) (more : Bytes) :
    parseDigest base58 otherBases ('b' :: base32Encode (digestBytes d ++ more)) = some d := by
  have h1 : cidPrefix (digestBytes d ++ more) = some (digestBytes d) := by
    have hv : isV0 (digestBytes d ++ more) = false := rfl
    rw [cidPrefix_v1 _ hv]
    have h2 : cidPrefix1 (digestBytes d ++ more) = if 64 < 32 then none else if (d.1 ++ more).length < 32 then none
        else some ((digestBytes d ++ more).take ((digestBytes d ++ more).length - ((d.1 ++ more).length - 32))) := rfl
    rw [h2, if_neg (by decide), if_neg (by rw [List.length_append, d.2]; omega)]
    have h36 : (digestBytes d).length = 36 := by unfold digestBytes; simp only [List.length_cons, d.2]
    have h3 : (digestBytes d ++ more).length - ((d.1 ++ more).length - 32) = (digestBytes d).length := by
      rw [List.length_append, List.length_append, h36, d.2]
      omega
    rw [h3, List.take_left]
  obtain ⟨c, h2, h3⟩ := readCid_total _ _ h1
  have hc : c = digestCid d := Subtype.ext h3
  have hsl : '/' ∉ 'b' :: base32Encode (digestBytes d ++ more) := by
    intro hm
    cases hm with
    | tail _ hm => exact (symbol_size _ (base32Groups_mem _ _ hm)).2 rfl
  have hne : base32Encode (digestBytes d ++ more) ≠ [] := by
    intro hc
    have := base32Encode_length (digestBytes d ++ more)
    rw [hc] at this
    unfold digestBytes at this
    simp only [List.length_nil, List.length_append, List.length_cons] at this
    omega
  unfold parseDigest
  rw [parse_base32 (r := base32Encode (digestBytes d ++ more)) (by unfold ipfsDelimiter; rw [afterFirst_none hsl]; rfl) hne,
    base32_round_trip, Option.bind_some, h2, Option.bind_some, hc, cidDigest_digestCid]

/-- A link that is used in the tests of the repository, `zstd_dag_cbor_seq.rs:636`. -/
example : ∃ d, parseDigest (fun _ => none) (fun _ _ => none) "bafyreihtx752fmf3zafbys5dtr4jxohb53yi3qtzfzf6wd5274jwtn5agu".toList = some d ∧
    displayDigest d = "bafyreihtx752fmf3zafbys5dtr4jxohb53yi3qtzfzf6wd5274jwtn5agu".toList ∧ d.1.take 3 = [0xf3, 0xbf, 0xfb] := by
  have h : (parseDigest (fun _ => none) (fun _ _ => none) "bafyreihtx752fmf3zafbys5dtr4jxohb53yi3qtzfzf6wd5274jwtn5agu".toList).isSome = true := by
    decide +kernel
  obtain ⟨d, hd⟩ := Option.isSome_iff_exists.mp h
  have h2 : (parseDigest (fun _ => none) (fun _ _ => none) "bafyreihtx752fmf3zafbys5dtr4jxohb53yi3qtzfzf6wd5274jwtn5agu".toList).map (·.1.take 3) =
      some [0xf3, 0xbf, 0xfb] := by decide +kernel
  rw [hd] at h2
  exact ⟨d, hd, (C75_canonical (by decide +kernel) (by decide +kernel) hd).symm, Option.some.inj h2⟩

/-- Upper case letters, and a last symbol with bits that do not count, are errors. -/
example : parseDigest (fun _ => none) (fun _ _ => none) "bAFYREIHTX752FMF3ZAFBYS5DTR4JXOHB53YI3QTZFZF6WD5274JWTN5AGU".toList = none ∧
    parseDigest (fun _ => none) (fun _ _ => none) "bafyreihtx752fmf3zafbys5dtr4jxohb53yi3qtzfzf6wd5274jwtn5agv".toList = none := by
  constructor <;> decide +kernel

/-- A path. -/
example (d : Digest) : parseDigest base58 otherBases ("http://gateway/ipfs/".toList ++ displayDigest d) = some d :=
  (C75_round_trip d).2 "http://gateway".toList (by decide +kernel)

/-! ### C76 -/

theorem copyOver_getElem? (key text : Bytes) (i : Nat) :
    (copyOver key text)[i]? = if i < key.length then some (text.getD i (key.getD i 0)) else none := by
  induction key generalizing text i with
  | nil => cases text <;> simp [copyOver]
  | cons k key ih =>
    cases text with
    | nil =>
      unfold copyOver
      split
      · next h => simp [List.getElem?_eq_getElem h]
      · next h => rw [List.getElem?_eq_none (by omega)]
    | cons v text =>
      unfold copyOver
      cases i with
      | zero => simp
      | succ i => simp [ih]

theorem createChachaKey_getElem? (text : Bytes) (i : Nat) :
    (createChachaKey text)[i]? = if i < 32 then some (text.getD i 0) else none := by
  unfold createChachaKey
  rw [copyOver_getElem?]
  simp only [List.length_replicate]
  split
  · next h =>
    simp only [List.getD_eq_getElem?_getD, List.getElem?_take_of_lt h, List.getElem?_replicate, if_pos h, Option.getD_some]
  · rfl

/-- C76: a key has 32 bytes, and two passwords give the same key exactly if their first 32 bytes are the same, where missing
bytes count as zeros. -/
theorem C76_keys (a b : Bytes) : (createChachaKey a).length = 32 ∧
    (createChachaKey a = createChachaKey b ↔ ∀ i < 32, a.getD i 0 = b.getD i 0) := by
  have hlen : ∀ t, (createChachaKey t).length = 32 := by
    intro t
    have h1 : (createChachaKey t)[32]? = none := by rw [createChachaKey_getElem?]; rfl
    have h2 : (createChachaKey t)[31]? ≠ none := by rw [createChachaKey_getElem?]; simp
    rw [List.getElem?_eq_none_iff] at h1
    rw [ne_eq, List.getElem?_eq_none_iff] at h2
    omega
  refine ⟨hlen a, ?_⟩
  constructor
  · intro h i hi
    have h1 := createChachaKey_getElem? a i
    rw [h, createChachaKey_getElem?, if_pos hi, if_pos hi] at h1
    exact (Option.some.inj h1).symm
  · intro h
    apply List.ext_getElem?
    intro i
    rw [createChachaKey_getElem?, createChachaKey_getElem?]
    split
    · next hi => rw [h i hi]
    · rfl

/-- C76, partial: different passwords of at most 32 bytes that do not end with a zero byte give different keys. Missing:
longer passwords and passwords that end with zero bytes, for which it is false. -/
theorem C76_injective_partial {a b : Bytes} (ha : a.length ≤ 32) (hb : b.length ≤ 32) (ha0 : a.getLast? ≠ some 0)
    (hb0 : b.getLast? ≠ some 0) (h : createChachaKey a = createChachaKey b) : a = b := by
  have key := (C76_keys a b).2.mp h
  have hle : ∀ {x y : Bytes}, x.length ≤ 32 → x.getLast? ≠ some 0 → (∀ i < 32, x.getD i 0 = y.getD i 0) → x.length ≤ y.length := by
    intro x y hx hx0 hxy
    apply Nat.le_of_not_lt
    intro hlt
    have h1 := hxy (x.length - 1) (by omega)
    rw [List.getD_eq_getElem?_getD, List.getD_eq_getElem?_getD, List.getElem?_eq_none (l := y) (by omega), ← List.getLast?_eq_getElem?] at h1
    cases hl : x.getLast? with
    | none => rw [List.getLast?_eq_none_iff] at hl; subst hl; simp at hlt
    | some z =>
      rw [hl] at h1 hx0
      exact hx0 (by rw [show z = 0 from h1])
  have hlen : a.length = b.length :=
    Nat.le_antisymm (hle ha ha0 key) (hle hb hb0 fun i hi => (key i hi).symm)
  apply List.ext_getElem hlen
  intro i h1 h2
  have := key i (by omega)
  rwa [List.getD_eq_getElem?_getD, List.getD_eq_getElem?_getD, List.getElem?_eq_getElem h1, List.getElem?_eq_getElem h2] at this

/-- C76 is false: only the first 32 bytes of a password count, and zero bytes at the end do not count. -/
theorem C76_refuted : (∀ a b c : Bytes, a.length = 32 → createChachaKey (a ++ b) = createChachaKey (a ++ c)) ∧
    (∀ a : Bytes, createChachaKey (a ++ [0]) = createChachaKey a) := by
  constructor
  · intro a b c ha
    rw [(C76_keys _ _).2]
    intro i hi
    simp [List.getD_eq_getElem?_getD, List.getElem?_append_left (show i < a.length by omega)]
  · intro a
    rw [(C76_keys _ _).2]
    intro i _
    rw [List.getD_eq_getElem?_getD, List.getD_eq_getElem?_getD]
    by_cases h : i < a.length
    · rw [List.getElem?_append_left h]
    · rw [List.getElem?_append_right (by omega), List.getElem?_eq_none (l := a) (by omega)]
      match i - a.length with
      | 0 => rfl
      | n + 1 => rfl

/-- Two passwords that meet the hypotheses, and their keys. -/
example : createChachaKey "value".toUTF8.toList ≠ createChachaKey "index".toUTF8.toList := by decide +kernel

example (h : createChachaKey [118, 97, 108] = createChachaKey [105, 110, 100]) : False := by
  have := C76_injective_partial (by decide) (by decide) (by decide) (by decide) h
  cases this

end Banyan
