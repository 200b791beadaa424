import Verif.Model.Varint
import Verif.Model.Tags
/-
The wire format: DAG-CBOR. The encoders and decoders are derived (`#[derive(DagCbor)]`) or taken from the crates
`libipld-cbor`, `cbor-data` and `cid`, which are not in the repository; what they write is fixed by the wire format
tests `banyan/tests/build_check.rs:544-682` and `zstd_dag_cbor_seq.rs:733-781`, which are repeated as examples in
`Props/Wire.lean`.

Simplifications: decoding goes through a tree of items instead of reading from a stream; text is not checked to be
UTF-8; items of indefinite length are not decoded; numbers in a longer form than necessary are accepted; the ranges of
the integer types are not checked when decoding.
-/
set_option autoImplicit false
namespace Banyan

/-- A CBOR item. A map is a list of alternating keys and values. -/
inductive Cbor where
  | uint (n : Nat)
  | nint (n : Nat)
  | bytes (b : Bytes)
  | text (b : Bytes)
  | array (xs : List Cbor)
  | map (xs : List Cbor)
  | tag (n : Nat) (x : Cbor)
  /-- `false` is 20, `true` is 21, `null` is 22 -/
  | simple (n : Nat)
  /-- a floating point number with 2, 4 or 8 bytes -/
  | float (b : Bytes)

namespace Cbor

/-- The initial bytes of an item: major type and a number in the shortest form. Numbers from `2^64` on do not occur in
the code; to have a total function, the reserved value 28 is used for them. -/
def head (major n : Nat) : Bytes :=
  if n < 24 then [UInt8.ofNat (major * 32 + n)]
  else if n < 2 ^ 8 then UInt8.ofNat (major * 32 + 24) :: beBytes 1 n
  else if n < 2 ^ 16 then UInt8.ofNat (major * 32 + 25) :: beBytes 2 n
  else if n < 2 ^ 32 then UInt8.ofNat (major * 32 + 26) :: beBytes 4 n
  else if n < 2 ^ 64 then UInt8.ofNat (major * 32 + 27) :: beBytes 8 n
  else UInt8.ofNat (major * 32 + 28) :: varint n

mutual
/-- The bytes of an item. -/
def encode : Cbor → Bytes
  | uint n => head 0 n
  | nint n => head 1 n
  | bytes b => head 2 b.length ++ b
  | text b => head 3 b.length ++ b
  | array xs => head 4 xs.length ++ encodes xs
  | map xs => head 5 (xs.length / 2) ++ encodes xs
  | tag n x => head 6 n ++ encode x
  | simple n => head 7 n
  | float b => UInt8.ofNat (if b.length = 2 then 249 else if b.length = 4 then 250 else 251) :: b

/-- The bytes of some items. -/
def encodes : List Cbor → Bytes
  | [] => []
  | x :: xs => encode x ++ encodes xs
end

/-- The first `k` bytes and the others. -/
def takeN (k : Nat) (b : Bytes) : Option (Bytes × Bytes) := if b.length < k then none else some (b.take k, b.drop k)

/-- A number of `k` bytes. -/
def takeBe (k : Nat) (b : Bytes) : Option (Nat × Bytes) := (takeN k b).map fun (x, r) => (ofBe x, r)

/-- Read the initial bytes of an item. -/
def unhead : Bytes → Option (Nat × Nat × Bytes)
  | [] => none
  | x :: r =>
    let major := x.toNat / 32
    let info := x.toNat % 32
    if info < 24 then some (major, info, r)
    else if info = 24 then (takeBe 1 r).map fun (n, r) => (major, n, r)
    else if info = 25 then (takeBe 2 r).map fun (n, r) => (major, n, r)
    else if info = 26 then (takeBe 4 r).map fun (n, r) => (major, n, r)
    else if info = 27 then (takeBe 8 r).map fun (n, r) => (major, n, r)
    else if info = 28 then (unvar r).map fun (n, r) => (major, n, r)
    else none

/-- The number of bytes of a floating point number with this initial byte. -/
def floatWidth (x : UInt8) : Option Nat :=
  if x.toNat = 249 then some 2 else if x.toNat = 250 then some 4 else if x.toNat = 251 then some 8 else none

mutual
/-- Read one item; the first argument bounds the depth of the recursion. -/
def parse : Nat → Bytes → Option (Cbor × Bytes)
  | 0, _ => none
  | _ + 1, [] => none
  | f + 1, x :: r =>
    match floatWidth x with
    | some k => (takeN k r).map fun (b, r) => (float b, r)
    | none =>
      match unhead (x :: r) with
      | none => none
      | some (0, n, r) => some (uint n, r)
      | some (1, n, r) => some (nint n, r)
      | some (2, n, r) => (takeN n r).map fun (b, r) => (bytes b, r)
      | some (3, n, r) => (takeN n r).map fun (b, r) => (text b, r)
      | some (4, n, r) => (parses f n r).map fun (xs, r) => (array xs, r)
      | some (5, n, r) => (parses f (2 * n) r).map fun (xs, r) => (map xs, r)
      | some (6, n, r) => (parse f r).map fun (x, r) => (tag n x, r)
      | some (_, n, r) => if n < 24 then some (simple n, r) else none

/-- Read a number of items. -/
def parses : Nat → Nat → Bytes → Option (List Cbor × Bytes)
  | 0, _, _ => none
  | _ + 1, 0, b => some ([], b)
  | f + 1, n + 1, b =>
    match parse f b with
    | none => none
    | some (x, r) => (parses f n r).map fun (xs, r) => (x :: xs, r)
end

/-- Read one item. Every item has at least one byte, so the bound is never reached. -/
def decode (b : Bytes) : Option (Cbor × Bytes) := parse (3 * b.length) b

/-- `Cbor::checked_prefix`: the bytes of the first item and the remaining bytes. -/
def item (b : Bytes) : Except String (Bytes × Bytes) :=
  match decode b with
  | none => .error "invalid cbor"
  | some (_, r) => .ok (b.take (b.length - r.length), r)

mutual
/-- `cbor.visit(&mut visitor)` with the visitor of `scrape_links`, `zstd_dag_cbor_seq.rs:496-512`: the links in an item;
`tags` are the tags around it. `none` is an error. -/
def scrape (tags : List Nat) : Cbor → Option (List Cid)
  | tag n x => scrape (tags ++ [n]) x
  | array xs => scrapes xs
  | map xs => scrapes xs
  | bytes b =>
    if tags = [42] then
      match b with
      | 0 :: r => (readCid r).map fun c => [c]
      | _ => none
    else some []
  | _ => some []

/-- All links in some items. -/
def scrapes : List Cbor → Option (List Cid)
  | [] => some []
  | x :: xs => do
    let a ← scrape [] x
    let b ← scrapes xs
    pure (a ++ b)
end

/-- The links found by visiting the first item. -/
def itemLinks (b : Bytes) : Except String (List Cid) :=
  match decode b with
  | none => .error "invalid cbor"
  | some (c, _) =>
    match scrape [] c with
    | none => .error "invalid link"
    | some ls => .ok ls

/-- How values of a type are written and read (`Encode<DagCborCodec>` and `Decode<DagCborCodec>`). -/
structure Codec (β : Type) where
  to : β → Cbor
  of : Cbor → Option β

/-- `u64`, `u32`, `usize` -/
def natCodec : Codec Nat where
  to := uint
  of := fun
    | uint n => some n
    | _ => none

/-- `bool` -/
def boolCodec : Codec Bool where
  to := fun b => simple (if b then 21 else 20)
  of := fun
    | simple 21 => some true
    | simple 20 => some false
    | _ => none

/-- `String` -/
def textCodec : Codec Bytes where
  to := text
  of := fun
    | text b => some b
    | _ => none

/-- `Cid`: tag 42, a zero byte, and the bytes of the content identifier -/
def cidCodec : Codec Cid where
  to := fun c => tag 42 (bytes (0 :: c.1))
  of := fun
    | tag 42 (bytes (0 :: r)) => readCid r
    | _ => none

/-- `Option` -/
def optionCodec {β : Type} (c : Codec β) : Codec (Option β) where
  to := fun
    | none => simple 22
    | some x => c.to x
  of := fun
    | simple 22 => some none
    | x => (c.of x).map some

/-- `Vec` -/
def listCodec {β : Type} (c : Codec β) : Codec (List β) where
  to := fun l => array (l.map c.to)
  of := fun
    | array xs => xs.mapM c.of
    | _ => none

/-- a tuple struct with one field -/
def newtypeCodec {β : Type} (c : Codec β) : Codec β where
  to := fun x => array [c.to x]
  of := fun
    | array [x] => c.of x
    | _ => none

/-- a tuple with two fields -/
def pairCodec {β γ : Type} (c : Codec β) (d : Codec γ) : Codec (β × γ) where
  to := fun x => array [c.to x.1, d.to x.2]
  of := fun
    | array [x, y] => do
      let a ← c.of x
      let b ← d.of y
      pure (a, b)
    | _ => none

/-- A map from named fields. -/
def record : List (Bytes × Cbor) → List Cbor
  | [] => []
  | (k, v) :: r => text k :: v :: record r

/-- All keys are texts. -/
def textKeys : List Cbor → Bool
  | [] => true
  | text _ :: _ :: r => textKeys r
  | _ => false

/-- The value of a field; the last one if there are several. -/
def field (k : Bytes) : List Cbor → Option Cbor
  | text k' :: v :: r =>
    match field k r with
    | some x => some x
    | none => if k' = k then some v else none
  | _ => none

/-- The fields of a map. Fields can be in any order, unknown ones are ignored. -/
def fields : Cbor → Option (List Cbor)
  | map xs => if textKeys xs then some xs else none
  | _ => none

/-- Read a field. -/
def get {β : Type} (c : Codec β) (k : Bytes) (xs : List Cbor) : Option β := (field k xs).bind c.of

/-- `struct IpldNode(u64, Vec<Cid>, Ipld)` with `IpldNode::new`, `zstd_dag_cbor_seq.rs:449-456`, as it is written. -/
def encNode (x : Nat × List Cid × Bytes) : Bytes :=
  encode (array [natCodec.to x.1, (listCodec cidCodec).to x.2.1, bytes x.2.2])

/-- `DagCborCodec.decode::<IpldNode>(data)?.into_data()`, `zstd_dag_cbor_seq.rs:437`, `458-464`. -/
def decNode (b : Bytes) : Except String (Nat × List Cid × Bytes) :=
  match decode b with
  | some (array [o, ls, d], _) =>
    match natCodec.of o, (listCodec cidCodec).of ls, d with
    | some o, some ls, bytes d => .ok (o, ls, d)
    | _, _, bytes _ => .error "invalid"
    | _, _, _ => .error "expected ipld bytes"
  | _ => .error "invalid"

/-- `keys` -/
def nKeys : Bytes := [0x6b, 0x65, 0x79, 0x73]
/-- `link` -/
def nLink : Bytes := [0x6c, 0x69, 0x6e, 0x6b]
/-- `tags` -/
def nTags : Bytes := [0x74, 0x61, 0x67, 0x73]
/-- `count` -/
def nCount : Bytes := [0x63, 0x6f, 0x75, 0x6e, 0x74]
/-- `level` -/
def nLevel : Bytes := [0x6c, 0x65, 0x76, 0x65, 0x6c]
/-- `sealed` -/
def nSealed : Bytes := [0x73, 0x65, 0x61, 0x6c, 0x65, 0x64]
/-- `max_time` -/
def nMaxTime : Bytes := [0x6d, 0x61, 0x78, 0x5f, 0x74, 0x69, 0x6d, 0x65]
/-- `min_time` -/
def nMinTime : Bytes := [0x6d, 0x69, 0x6e, 0x5f, 0x74, 0x69, 0x6d, 0x65]
/-- `key_bytes` -/
def nKeyBytes : Bytes := [0x6b, 0x65, 0x79, 0x5f, 0x62, 0x79, 0x74, 0x65, 0x73]
/-- `summaries` -/
def nSummaries : Bytes := [0x73, 0x75, 0x6d, 0x6d, 0x61, 0x72, 0x69, 0x65, 0x73]
/-- `value_bytes` -/
def nValueBytes : Bytes := [0x76, 0x61, 0x6c, 0x75, 0x65, 0x5f, 0x62, 0x79, 0x74, 0x65, 0x73]
/-- `min_lamport` -/
def nMinLamport : Bytes := [0x6d, 0x69, 0x6e, 0x5f, 0x6c, 0x61, 0x6d, 0x70, 0x6f, 0x72, 0x74]

variable {T : TreeTypes}

/-- The codecs of the parameters of the tree types. -/
structure Codecs (T : TreeTypes) where
  link : Codec T.Link
  keys : Codec T.keys.Carrier
  sums : Codec T.sums.Carrier

variable (C : Codecs T)

/-- The fields of a `LeafIndex`, `banyan/src/index.rs:113-124`: shorter names first, then in lexicographic order. -/
def leafFields (i : LeafIndex T) : List (Bytes × Cbor) :=
  [(nKeys, C.keys.to i.keys), (nLink, (optionCodec C.link).to i.link), (nSealed, boolCodec.to i.isSealed),
    (nValueBytes, natCodec.to i.valueBytes)]

/-- The fields of a `BranchIndex`, `banyan/src/index.rs:146-162`. -/
def branchFields (i : BranchIndex T) : List (Bytes × Cbor) :=
  [(nLink, (optionCodec C.link).to i.link), (nCount, natCodec.to i.count), (nLevel, natCodec.to i.level),
    (nSealed, boolCodec.to i.isSealed), (nKeyBytes, natCodec.to i.keyBytes), (nSummaries, C.sums.to i.summaries),
    (nValueBytes, natCodec.to i.valueBytes)]

/-- The derived `Decode` of `LeafIndex`. -/
def leafOf (c : Cbor) : Option (LeafIndex T) := do
  let xs ← fields c
  let isSealed ← get boolCodec nSealed xs
  let link ← get (optionCodec C.link) nLink xs
  let keys ← get C.keys nKeys xs
  let valueBytes ← get natCodec nValueBytes xs
  pure ⟨isSealed, link, keys, valueBytes⟩

/-- The derived `Decode` of `BranchIndex`. -/
def branchOf (c : Cbor) : Option (BranchIndex T) := do
  let xs ← fields c
  let count ← get natCodec nCount xs
  let level ← get natCodec nLevel xs
  let isSealed ← get boolCodec nSealed xs
  let link ← get (optionCodec C.link) nLink xs
  let summaries ← get C.sums nSummaries xs
  let valueBytes ← get natCodec nValueBytes xs
  let keyBytes ← get natCodec nKeyBytes xs
  pure ⟨count, level, isSealed, link, summaries, valueBytes, keyBytes⟩

/-- `enum Index`, `banyan/src/index.rs:185-192` (kinded representation: the variant is not written; when reading, the
variants are tried in this order). -/
def indexCodec : Codec (Index T) where
  to := fun
    | .leaf i => map (record (leafFields C i))
    | .branch i => map (record (branchFields C i))
  of := fun c =>
    match leafOf C c with
    | some i => some (.leaf i)
    | none => (branchOf C c).map Index.branch

/-- `DagCborCodec.encode` of an `Index`. -/
def encIdx (i : Index T) : Bytes := encode ((indexCodec C).to i)

/-- `Index::decode` from a reader. -/
def decIdx (b : Bytes) : Except String (Index T × Bytes) :=
  match decode b with
  | none => .error "invalid cbor"
  | some (c, r) =>
    match (indexCodec C).of c with
    | some i => .ok (i, r)
    | none => .error "invalid index"

/-- `Sha256Digest`, `banyan-utils/src/tags.rs:23-35` -/
abbrev Digest := { b : Bytes // b.length = 32 }

/-- The bytes of the content identifier of a digest: version 1, codec `0x71` (dag-cbor), hash function `0x12` (sha256). -/
def digestBytes (d : Digest) : Bytes := 0x01 :: 0x71 :: 0x12 :: 0x20 :: d.1

theorem digest_valid (d : Digest) : cidPrefix (digestBytes d) = some (digestBytes d) := by
  rw [cidPrefix_v1 _ (by rfl)]
  exact cidPrefix1_of [0x01] [0x71] [0x12] [0x20] d.1 (fun _ => rfl) ⟨0x71, fun _ => rfl⟩ ⟨0x12, fun _ => rfl⟩
    (fun _ => by rw [d.2]; rfl) (by rw [d.2]; decide)

/-- `From<Sha256Digest> for Cid`, `tags.rs:49-55`. -/
def digestCid (d : Digest) : Cid := ⟨digestBytes d, digest_valid d⟩

/-- `TryFrom<Cid> for Sha256Digest`, `tags.rs:57-66`. (The version is not checked in the code, but a content identifier of
version 0 has the codec `0x70`.) -/
def cidDigest (c : Cid) : Option Digest :=
  match c.1 with
  | 0x01 :: 0x71 :: 0x12 :: 0x20 :: r => if h : r.length = 32 then some ⟨r, h⟩ else none
  | _ => none

/-- `Encode` and `Decode` of `Sha256Digest`, `tags.rs:26-35`. -/
def digestCodec : Codec Digest where
  to := fun d => cidCodec.to (digestCid d)
  of := fun c => (cidCodec.of c).bind cidDigest

/-- `UnitSeq`, `banyan/src/index.rs:477-488`. -/
def unitSeqCodec : Codec Nat := natCodec

/-- `VecSeq<T>`, `banyan/src/index.rs:513-514`. -/
def vecSeqCodec {β : Type} (c : Codec β) : Codec (List β) := newtypeCodec (listCodec c)

section Tags
open Tag
variable {α : Type} [TotalOrd α]

/-- `Encode` and `Decode` of `TagIndex`, `banyan-utils/src/tag_index.rs:30-70`. -/
def tagIndexCodec (c : Codec α) : Codec (TagIndex α) where
  to := fun t => (pairCodec (listCodec c) (listCodec (listCodec natCodec))).to t.parts
  of := fun x => ((pairCodec (listCodec c) (listCodec (listCodec natCodec))).of x).bind TagIndex.ofParts

/-- `KeySeq`, `banyan-utils/src/tags.rs:281-287`. -/
def keySeqCodec (c : Codec α) : Codec (KeySeq α) where
  to := fun s => map (record
    [(nTags, (tagIndexCodec c).to s.tags), (nMaxTime, (listCodec natCodec).to s.maxTime),
      (nMinTime, (listCodec natCodec).to s.minTime), (nMinLamport, (listCodec natCodec).to s.minLamport)])
  of := fun x => do
    let xs ← fields x
    let minLamport ← get (listCodec natCodec) nMinLamport xs
    let minTime ← get (listCodec natCodec) nMinTime xs
    let maxTime ← get (listCodec natCodec) nMaxTime xs
    let tags ← get (tagIndexCodec c) nTags xs
    pure ⟨minLamport, minTime, maxTime, tags⟩

/-- The same for the sequences of the tree types, see `Tag.keySeq`. -/
def validSeqCodec (c : Codec α) : Codec { s : KeySeq α // s.Valid } where
  to := fun s => (keySeqCodec c).to s.1
  of := fun x => ((keySeqCodec c).of x).bind fun s => if h : s.Valid then some ⟨s, h⟩ else none

/-- The codecs of the tree types `TT`, `banyan-utils/src/tags.rs:88-94`. -/
def tagCodecs (c : Codec α) : Codecs (tagTypes α Digest) where
  link := digestCodec
  keys := validSeqCodec c
  sums := validSeqCodec c

end Tags

end Cbor

end Banyan
