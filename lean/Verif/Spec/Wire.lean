import Verif.Model.Cbor
/-
Specification of the wire format.
-/
set_option autoImplicit false
namespace Banyan.Cbor

mutual
/-- Items that can be written: maps have a value for each key, and the forms of simple values and floating point numbers
exist. -/
def Wf : Cbor → Prop
  | array xs => Wfs xs
  | map xs => xs.length % 2 = 0 ∧ Wfs xs
  | tag _ x => Wf x
  | simple n => n < 24
  | float b => b.length = 2 ∨ b.length = 4 ∨ b.length = 8
  | _ => True

def Wfs : List Cbor → Prop
  | [] => True
  | x :: xs => Wf x ∧ Wfs xs
end

/-- The codec of a type writes proper items, in which links can be found, and reads them back. -/
structure Codec.Lawful {β : Type} (c : Codec β) : Prop where
  rt : ∀ b, c.of (c.to b) = some b
  wf : ∀ b, (c.to b).Wf
  visit : ∀ b, ∃ ls, scrape [] (c.to b) = some ls

/-- The codec of a type of links writes links. -/
structure Codec.LinkLawful {β : Type} (c : Codec β) (cid : β → Cid) : Prop where
  rt : ∀ b, c.of (c.to b) = some b
  is : ∀ b, c.to b = tag 42 (bytes (0 :: (cid b).1))

/-- Assumptions about the codecs of the tree types. -/
structure Codecs.Lawful {T : TreeTypes} (C : Codecs T) (cid : T.Link → Cid) : Prop where
  link : C.link.LinkLawful cid
  keys : C.keys.Lawful
  sums : C.sums.Lawful

/-- An item without the tags around it. -/
def strip : Cbor → Cbor
  | tag _ x => strip x
  | x => x

/-- The elements of an array, the keys and values of a map; the tags around it do not matter. -/
def parts (c : Cbor) : List Cbor :=
  match strip c with
  | array xs => xs
  | map xs => xs
  | _ => []

/-- A link occurs in an item, at any depth: bytes with the only tag 42, a zero byte and a content identifier. -/
inductive LinkIn (l : Cid) : Cbor → Prop where
  | here (r : Bytes) : readCid r = some l → LinkIn l (tag 42 (bytes (0 :: r)))
  | inside (c x : Cbor) : x ∈ parts c → LinkIn l x → LinkIn l c

/-- An item contains, at any depth, something which is marked as a link but is none. -/
inductive BadLinkIn : Cbor → Prop where
  | here (b : Bytes) : (∀ r, b = 0 :: r → readCid r = none) → BadLinkIn (tag 42 (bytes b))
  | inside (c x : Cbor) : x ∈ parts c → BadLinkIn x → BadLinkIn c

/-- The fields of an index as they are written. -/
def indexFields {T : TreeTypes} (C : Codecs T) : Index T → List (Bytes × Cbor)
  | .leaf i => leafFields C i
  | .branch i => branchFields C i

/-- The names of fields do not make an index of the other kind possible. -/
def Foreign {T : TreeTypes} (i : Index T) (ks : List Bytes) : Prop :=
  match i with
  | .leaf _ => True
  | .branch _ => nKeys ∉ ks

/-- An item stands for a link which may be missing. -/
def IsLink {β : Type} (c : Codec β) (x : Cbor) (l : Option β) : Prop :=
  (x = simple 22 ∧ l = none) ∨ ∃ b, c.of x = some b ∧ l = some b

/-- A record has all the fields of an index, each of the right form. -/
def Says {T : TreeTypes} (C : Codecs T) (es : List (Bytes × Cbor)) : Index T → Prop
  | .leaf i =>
    (∃ x, (nKeys, x) ∈ es ∧ C.keys.of x = some i.keys) ∧ (∃ x, (nLink, x) ∈ es ∧ IsLink C.link x i.link) ∧
    (nSealed, simple (if i.isSealed then 21 else 20)) ∈ es ∧ (nValueBytes, uint i.valueBytes) ∈ es
  | .branch i =>
    (∃ x, (nSummaries, x) ∈ es ∧ C.sums.of x = some i.summaries) ∧ (∃ x, (nLink, x) ∈ es ∧ IsLink C.link x i.link) ∧
    (nSealed, simple (if i.isSealed then 21 else 20)) ∈ es ∧ (nValueBytes, uint i.valueBytes) ∈ es ∧
    (nCount, uint i.count) ∈ es ∧ (nLevel, uint i.level) ∈ es ∧ (nKeyBytes, uint i.keyBytes) ∈ es

end Banyan.Cbor
