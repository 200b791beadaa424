import Verif.Model.Cbor
/-
The text form of links (`banyan-utils/src/tags.rs`) and passwords (`banyan-utils/src/lib.rs`).
-/
set_option autoImplicit false
namespace Banyan

open Cbor (Digest cidDigest digestCid digestBytes)

/-! ### base32 (crate `data-encoding`, not in the repository) -/

/-- The bits of a byte, most significant first. -/
def byteBits (b : UInt8) : List Bool :=
  [b.toNat.testBit 7, b.toNat.testBit 6, b.toNat.testBit 5, b.toNat.testBit 4, b.toNat.testBit 3, b.toNat.testBit 2,
    b.toNat.testBit 1, b.toNat.testBit 0]

/-- A number from its bits, most significant first. -/
def bitsNat (bs : List Bool) : Nat := bs.foldl (fun n b => 2 * n + b.toNat) 0

/-- The symbols of base32 in lower case (RFC 4648). -/
def base32Symbols : List Char :=
  ['a', 'b', 'c', 'd', 'e', 'f', 'g', 'h', 'i', 'j', 'k', 'l', 'm', 'n', 'o', 'p', 'q', 'r', 's', 't', 'u', 'v', 'w', 'x', 'y', 'z',
    '2', '3', '4', '5', '6', '7']

/-- The symbol for five bits. -/
def base32Char (bs : List Bool) : Char := base32Symbols.getD (bitsNat bs) '='

/-- The five bits of a symbol. -/
def base32Bits (c : Char) : Option (List Bool) :=
  match base32Symbols.idxOf? c with
  | none => none
  | some n => some [n.testBit 4, n.testBit 3, n.testBit 2, n.testBit 1, n.testBit 0]

/-- The symbols for some bits, with zeros added to the last group. -/
def base32Groups : List Bool → List Char
  | a :: b :: c :: d :: e :: r => base32Char [a, b, c, d, e] :: base32Groups r
  | [] => []
  | r => [base32Char (r ++ List.replicate (5 - r.length) false)]

/-- `Base32Lower.encode`: no padding symbols. -/
def base32Encode (bytes : Bytes) : List Char := base32Groups (bytes.flatMap byteBits)

/-- The bits of some symbols. -/
def base32AllBits : List Char → Option (List Bool)
  | [] => some []
  | c :: cs =>
    match base32Bits c, base32AllBits cs with
    | some a, some b => some (a ++ b)
    | _, _ => none

/-- Whole bytes from bits; fewer than five bits may be left over, and they have to be zero. -/
def bitsBytes : List Bool → Option Bytes
  | a :: b :: c :: d :: e :: f :: g :: h :: r =>
    match bitsBytes r with
    | some bytes => some (UInt8.ofNat (bitsNat [a, b, c, d, e, f, g, h]) :: bytes)
    | none => none
  | r => if r.length < 5 ∧ r.all (fun b => !b) = true then some [] else none

/-- `Base32Lower.decode`: symbols in lower case only, no padding, a last symbol that is not needed or has bits that do
not count is an error. -/
def base32Decode (cs : List Char) : Option Bytes :=
  match base32AllBits cs with
  | some bits => bitsBytes bits
  | none => none

/-! ### links as text -/

/-- The text after the first occurrence of a text. -/
def afterFirst (pat : List Char) : List Char → Option (List Char)
  | [] => if pat = [] then some [] else none
  | c :: cs => if pat.isPrefixOf (c :: cs) then some ((c :: cs).drop pat.length) else afterFirst pat cs

def ipfsDelimiter : List Char := ['/', 'i', 'p', 'f', 's', '/']

/-- The number of bytes of a text (UTF-8). -/
def textBytes (t : List Char) : Nat := (t.map Char.utf8Size).sum

/-- `Cid::from_str` (crate `cid` 0.8.6, not in the repository): everything up to the first `/ipfs/` is dropped. A text of 46
bytes that begins with `Qm` is version 0, in base58; every other text begins with a symbol for its base. `base58` and
`otherBases` (all bases except `b`, which is base32 in lower case) are parameters. -/
def parseCid (base58 : List Char → Option Bytes) (otherBases : Char → List Char → Option Bytes) (t : List Char) : Option Cid :=
  let hash := (afterFirst ipfsDelimiter t).getD t
  if textBytes hash < 2 then none
  else
    let decoded :=
      if textBytes hash = 46 ∧ ['Q', 'm'].isPrefixOf hash = true then base58 hash
      else
        match hash with
        | 'b' :: r => base32Decode r
        | c :: r => otherBases c r
        | [] => none
    match decoded with
    | some bytes => readCid bytes
    | none => none

/-- `Sha256Digest::from_str`, `tags.rs:68-74`. -/
def parseDigest (base58 : List Char → Option Bytes) (otherBases : Char → List Char → Option Bytes) (t : List Char) : Option Digest :=
  (parseCid base58 otherBases t).bind cidDigest

/-- `Display` and `Debug` of `Sha256Digest`, `tags.rs:76-86`; `Cid` is displayed in base32 (version 1). -/
def displayDigest (d : Digest) : List Char := 'b' :: base32Encode (digestCid d).1

/-! ### passwords -/

/-- The loop of `create_chacha_key`: copies byte after byte over the zeros. -/
def copyOver : Bytes → Bytes → Bytes
  | _ :: key, v :: text => v :: copyOver key text
  | key, _ => key

/-- `create_chacha_key`, `banyan-utils/src/lib.rs:8-14`; the argument is the bytes of the text. -/
def createChachaKey (text : Bytes) : Bytes := copyOver (List.replicate 32 0) (text.take 32)

end Banyan
