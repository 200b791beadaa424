import Verif.Model.Cid
/-
Data types of `banyan/src/index.rs` and `banyan/src/forest/mod.rs`.
-/
namespace Banyan

/-- A Rust byte vector / slice (`Vec<u8>`, `&[u8]`). -/
abbrev Bytes := List UInt8

/-- Ways in which a function of the model can end without a value.

* `fail`: an `anyhow::Error` is returned,
* `panic`: an assertion, `unwrap` or `expect` fails,
* `offsets`: the panic "ran out of offsets" of `banyan/src/stream_builder.rs:27-34`,
* `fuel`: the recursion bound of the model was exhausted (in Rust: unbounded recursion / endless loop). -/
inductive Err where
  | fail (msg : String)
  | panic (msg : String)
  | offsets
  | fuel
deriving DecidableEq, Repr

/-- `trait CompactSeq` together with its `FromIterator`: `banyan/src/index.rs:71-110`,
`banyan/src/forest/mod.rs:29-45`. `Carrier` is the implementing type. -/
structure CompactSeq (α : Type) where
  Carrier : Type
  /-- `index.rs:75` -/
  len : Carrier → Nat
  /-- `index.rs:77` -/
  get : Carrier → Nat → Option α
  /-- `FromIterator`, `forest/mod.rs:33,42` -/
  ofList : List α → Carrier

namespace CompactSeq
variable {α : Type} (S : CompactSeq α)

/-- `to_vec`, `index.rs:87-89`. The `unwrap` of `get(i)` for `i < len` is covered by the trait contract
(`Lawful.get_some`), so `filterMap` is used. -/
def toVec (c : S.Carrier) : List α := (List.range (S.len c)).filterMap (S.get c)

/-- `select`, `index.rs:91-95`. The slice index `bits[i]` is in bounds for all callers (masks have `len` elements). -/
def select (c : S.Carrier) (bits : List Bool) : List α :=
  (List.range (S.len c)).filterMap fun i => if bits[i]? = some true then S.get c i else none

/-- `first`, `index.rs:79-81`; `none` is the panic of `unwrap`. -/
def first (c : S.Carrier) : Option α := S.get c 0

/-- `last`, `index.rs:83-85`; `none` is the panic of `unwrap` (or of `0 - 1`). -/
def last (c : S.Carrier) : Option α := if S.len c = 0 then none else S.get c (S.len c - 1)

/-- Contract of the trait: `index.rs:67-77` ("a compact representation of a sequence of 1 or more items",
"Guaranteed to succeed with Some for index < count"). -/
structure Lawful : Prop where
  get_some : ∀ c i, i < S.len c → (S.get c i).isSome = true
  len_ofList : ∀ l, l ≠ [] → S.len (S.ofList l) = l.length
  get_ofList : ∀ l i, l ≠ [] → S.get (S.ofList l) i = l[i]?

end CompactSeq

/-- `trait TreeTypes`, `banyan/src/forest/mod.rs:23-50`, with `trait Summarizable`, `index.rs:63-65`.
`NONCE` is a constant that only parametrizes the key stream, see `Env.ks`. -/
structure TreeTypes where
  Key : Type
  Summary : Type
  Link : Type
  keys : CompactSeq Key
  sums : CompactSeq Summary
  sumKeys : keys.Carrier → Summary
  sumSums : sums.Carrier → Summary
  linkDec : DecidableEq Link
  sumDec : DecidableEq Summary

attribute [instance] TreeTypes.linkDec TreeTypes.sumDec

abbrev TreeTypes.KeySeq (T : TreeTypes) : Type := T.keys.Carrier
abbrev TreeTypes.SummarySeq (T : TreeTypes) : Type := T.sums.Carrier

/-- Both sequence types respect the contract of `CompactSeq`. -/
structure TreeTypes.Lawful (T : TreeTypes) : Prop where
  keys : T.keys.Lawful
  sums : T.sums.Lawful

variable {T : TreeTypes}

/-- `struct LeafIndex`, `index.rs:114-123`. -/
structure LeafIndex (T : TreeTypes) where
  isSealed : Bool
  link : Option T.Link
  keys : T.KeySeq
  valueBytes : Nat

/-- `struct BranchIndex`, `index.rs:147-162`. -/
structure BranchIndex (T : TreeTypes) where
  count : Nat
  level : Nat
  isSealed : Bool
  link : Option T.Link
  summaries : T.SummarySeq
  valueBytes : Nat
  keyBytes : Nat

/-- `enum Index`, `index.rs:187-192`. -/
inductive Index (T : TreeTypes) where
  | leaf (i : LeafIndex T)
  | branch (i : BranchIndex T)

namespace Index

/-- `index.rs:216-221` -/
def summarize : Index T → T.Summary
  | leaf x => T.sumKeys x.keys
  | branch x => T.sumSums x.summaries

/-- `index.rs:223-228` -/
def link : Index T → Option T.Link
  | leaf x => x.link
  | branch x => x.link

/-- `index.rs:229-234` -/
def count : Index T → Nat
  | leaf x => T.keys.len x.keys
  | branch x => x.count

/-- `index.rs:235-240` -/
def isSealed : Index T → Bool
  | leaf x => x.isSealed
  | branch x => x.isSealed

/-- `index.rs:241-246` -/
def level : Index T → Nat
  | leaf _ => 0
  | branch x => x.level

/-- `index.rs:247-252` -/
def valueBytes : Index T → Nat
  | leaf x => x.valueBytes
  | branch x => x.valueBytes

/-- `index.rs:253-258` -/
def keyBytes : Index T → Nat
  | leaf _ => 0
  | branch x => x.keyBytes

end Index

/-- `struct Branch`, `index.rs:265-270`: children and byte range (start, end). -/
structure Branch (T : TreeTypes) where
  children : List (Index T)
  byteRange : Nat × Nat

/-- `struct Config`, `banyan/src/forest/mod.rs:177-194`. -/
structure Config where
  maxSummaryBranches : Nat
  maxKeyBranches : Nat
  maxLeafCount : Nat
  targetLeafSize : Nat
  maxUncompressedLeafSize : Nat
  zstdLevel : Int
deriving DecidableEq, Repr

namespace Config

/-- `forest/mod.rs:200-209` -/
def debug : Config :=
  { targetLeafSize := 10000, maxLeafCount := 10, maxKeyBranches := 4, maxSummaryBranches := 4,
    zstdLevel := 0, maxUncompressedLeafSize := 16 * 1024 * 1024 }

/-- `forest/mod.rs:212-221` -/
def debugFast : Config :=
  { targetLeafSize := 2 ^ 14, maxLeafCount := 2 ^ 14, maxSummaryBranches := 32, maxKeyBranches := 32,
    zstdLevel := 0, maxUncompressedLeafSize := 16 * 1024 * 1024 }

/-- The maximum number of children of a branch at the given level: `forest/write.rs:129-133` and
`forest/mod.rs:234-242`. -/
def maxBranches (c : Config) (level : Nat) : Nat :=
  if level = 1 then c.maxKeyBranches else c.maxSummaryBranches

/-- `branch_sealed`, `forest/mod.rs:224-243`. The `assert!(level > 0)` of line 225 is checked by the callers of
the model where it is not evident. -/
def branchSealed (c : Config) (items : List (Index T)) (level : Nat) : Bool :=
  if items.any (fun x => !x.isSealed) then false
  else if items.any (fun x => x.level != level - 1) then false
  else if level = 1 then decide (items.length ≥ c.maxKeyBranches)
  else decide (items.length ≥ c.maxSummaryBranches)

/-- `validate`, `forest/mod.rs:245-252`. -/
def validate (c : Config) : Bool :=
  decide (c.maxSummaryBranches > 1) && decide (c.maxKeyBranches > 0)
    && (decide (c.targetLeafSize > 0) && decide (c.targetLeafSize ≤ 1024 * 1024))
    && decide (c.maxUncompressedLeafSize ≤ 16 * 1024 * 1024)
    && (decide (c.zstdLevel ≥ 1) && decide (c.zstdLevel ≤ 22))

end Config

/-- `enum CreateMode`, `forest/mod.rs:268-273`. -/
inductive CreateMode where
  | packed
  | unpacked
deriving DecidableEq, Repr

/-- `enum BranchResult`, `forest/mod.rs:256-263`. -/
inductive BranchResult where
  | sealed (n : Nat)
  | unsealed (n : Nat)
  | skip (n : Nat)
deriving DecidableEq, Repr

end Banyan
