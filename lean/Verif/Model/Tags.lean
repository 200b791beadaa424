import Verif.Model.TagIndex
import Verif.Model.Query
/-
`banyan-utils/src/tags.rs`: keys with a time range and tags, compact sequences of such keys, queries by time and tags.

Simplifications: times are natural numbers (`u64` in the code, they are only compared); the type of tags is a parameter
(`SmolStr` in the code). Not modelled: `estimated_size`, the digest type `Sha256Digest` (a link, see `Env`).
-/
set_option autoImplicit false
namespace Banyan.Tag

/-- `struct TimeData`, `tags.rs:102-107`. -/
structure TimeData where
  minLamport : Nat
  minTime : Nat
  maxTime : Nat
deriving DecidableEq

/-- `TimeData::intersects`, `tags.rs:110-118`. -/
def TimeData.intersects (a b : TimeData) : Bool :=
  if a.maxTime < b.minTime then false
  else if a.minTime > b.maxTime then false
  else true

/-- `TimeData::contains`, `tags.rs:120-128`. -/
def TimeData.contains (a b : TimeData) : Bool :=
  if b.minTime < a.minTime then false
  else if b.maxTime > a.maxTime then false
  else true

/-- `TimeData::combine`, `tags.rs:130-134`. -/
def TimeData.combine (a b : TimeData) : TimeData :=
  ⟨min a.minLamport b.minLamport, min a.minTime b.minTime, max a.maxTime b.maxTime⟩

variable {α : Type} [TotalOrd α]

/-- `struct Key`, `tags.rs:96-100`. -/
structure Key (α : Type) [TotalOrd α] where
  time : TimeData
  tags : VecSet α
deriving DecidableEq

namespace Key

/-- `Key::single`, `tags.rs:139-148`. -/
def single (lamport time : Nat) (tags : VecSet α) : Key α := ⟨⟨lamport, time, time⟩, tags⟩

/-- `Key::filter_tags`, `tags.rs:150-159`. -/
def filterTags (tags : VecSet α) : Key α := ⟨⟨0, 0, 2 ^ 64 - 1⟩, tags⟩

/-- `Key::range`, `tags.rs:161-170`. -/
def range (minTime maxTime : Nat) (tags : VecSet α) : Key α := ⟨⟨0, minTime, maxTime⟩, tags⟩

/-- `Key::intersects`, `tags.rs:172-174`. -/
def intersects (a b : Key α) : Bool := a.time.intersects b.time && !a.tags.isDisjoint b.tags

/-- `Key::contains`, `tags.rs:176-178`. -/
def contains (a b : Key α) : Bool := a.time.contains b.time && a.tags.isSuperset b.tags

/-- `Key::combine`, `tags.rs:183-186`. -/
def combine (a b : Key α) : Key α := ⟨a.time.combine b.time, a.tags.extend b.tags.elems⟩

end Key

/-- `struct KeySeq`, `tags.rs:281-287`. -/
structure KeySeq (α : Type) [TotalOrd α] where
  minLamport : List Nat
  minTime : List Nat
  maxTime : List Nat
  tags : TagIndex α
deriving DecidableEq

namespace KeySeq

/-- `time`, `tags.rs:290-300`; the outer `none` is the panic of an index out of bounds. -/
def time (s : KeySeq α) (i : Nat) : Option (Option TimeData) :=
  match s.minLamport[i]? with
  | none => some none
  | some l =>
    match s.minTime[i]?, s.maxTime[i]? with
    | some a, some b => some (some ⟨l, a, b⟩)
    | _, _ => none

/-- The `if let` of `get`, `tags.rs:307-323`. -/
def mkKey : Option Nat → Option Nat → Option Nat → Option (VecSet α) → Option (Key α)
  | some l, some a, some b, some t => some ⟨⟨l, a, b⟩, t⟩
  | _, _, _, _ => none

/-- `get`, `tags.rs:306-324`; the outer `none` is the panic of `TagIndex::get`. -/
def get (s : KeySeq α) (i : Nat) : Option (Option (Key α)) :=
  (s.tags.get i).map fun t => mkKey s.minLamport[i]? s.minTime[i]? s.maxTime[i]? t

/-- `len`, `tags.rs:326-328`. -/
def len (s : KeySeq α) : Nat := s.tags.elements.length

/-- `get(i).unwrap()`; `none` is a panic. -/
def at? (s : KeySeq α) (i : Nat) : Option (Key α) := (s.get i).join

/-- `first`, `banyan/src/index.rs:79-81`; `none` is a panic. -/
def first (s : KeySeq α) : Option (Key α) := s.at? 0

/-- `last`, `banyan/src/index.rs:83-85`; `none` is a panic. -/
def last (s : KeySeq α) : Option (Key α) := if s.len = 0 then none else s.at? (s.len - 1)

/-- `to_vec`, `banyan/src/index.rs:87-89`; `none` is a panic. -/
def toVec (s : KeySeq α) : Option (List (Key α)) := (List.range s.len).mapM s.at?

/-- The closure of `select`, `banyan/src/index.rs:93`; the outer `none` is a panic. -/
def selectAt (s : KeySeq α) (bits : List Bool) (i : Nat) : Option (Option (Key α)) :=
  match bits[i]? with
  | none => none
  | some true => s.get i
  | some false => some none

/-- `select`, `banyan/src/index.rs:91-95`; `none` is a panic. -/
def select (s : KeySeq α) (bits : List Bool) : Option (List (Key α)) :=
  ((List.range s.len).mapM (s.selectAt bits)).map (List.filterMap id)

/-- `summarize`, `tags.rs:336-349`; `none` is the panic of `unwrap`. -/
def summarize (s : KeySeq α) : Option (Key α) := do
  let maxTime ← s.maxTime.max?
  let minTime ← s.minTime.min?
  let minLamport ← s.minLamport.min?
  pure ⟨⟨minLamport, minTime, maxTime⟩, s.tags.tags⟩

/-- `FromIterator`, `tags.rs:357-377`; `none` is the panic of `TagIndex::from_elements`. -/
def fromIter (l : List (Key α)) : Option (KeySeq α) :=
  (TagIndex.fromElements (l.map Key.tags)).map fun t =>
    ⟨l.map fun k => k.time.minLamport, l.map fun k => k.time.minTime, l.map fun k => k.time.maxTime, t⟩

/-- What the derived `Encode` writes, `tags.rs:281` (the encoding of lists, strings and numbers is external). -/
def parts (s : KeySeq α) : List Nat × List Nat × List Nat × List α × List (List Nat) :=
  (s.minLamport, s.minTime, s.maxTime, s.tags.parts)

/-- The derived `Decode`, `tags.rs:281`: the tag table is checked, the lengths are not. -/
def ofParts (p : List Nat × List Nat × List Nat × List α × List (List Nat)) : Option (KeySeq α) :=
  (TagIndex.ofParts p.2.2.2).map fun t => ⟨p.1, p.2.1, p.2.2.1, t⟩

/-- A sequence as `from_iter` makes it: all columns have the same length, and the tag table is complete. -/
def Valid (s : KeySeq α) : Prop :=
  s.minLamport.length = s.tags.elements.length ∧ s.minTime.length = s.tags.elements.length ∧
    s.maxTime.length = s.tags.elements.length ∧ ∀ is ∈ s.tags.elements, ∀ i ∈ is.elems, i < s.tags.tags.elems.length

instance (s : KeySeq α) : Decidable s.Valid := by unfold Valid; infer_instance

/-- The empty sequence. -/
def empty : KeySeq α := ⟨[], [], [], VecSet.empty, []⟩

theorem empty_valid : (empty : KeySeq α).Valid := ⟨rfl, rfl, rfl, fun _ h => nomatch h⟩

end KeySeq

/-- `struct TranslatedKey`, `tags.rs:220-223`. -/
structure TranslatedKey where
  indexSet : VecSet Nat
  time : TimeData

/-- The closure of `map_into`, `tags.rs:205-210`. -/
def translate (s : KeySeq α) (k : Key α) : Option TranslatedKey :=
  (mapToIndexSet s.tags.tags k.tags).map fun is => ⟨is, k.time⟩

/-- `DnfQuery::map_into`, `tags.rs:200-216`. -/
def mapInto (q : List (Key α)) (s : KeySeq α) : List TranslatedKey := (q.mapM (translate s)).getD []

/-- `DnfQuery::intersects`, `tags.rs:194-196`. -/
def intersects (q : List (Key α)) (v : Key α) : Bool := q.any fun x => x.intersects v

/-- `DnfQuery::contains`, `tags.rs:197-199`. -/
def contains (q : List (Key α)) (v : Key α) : Bool := q.any fun x => x.contains v

/-- One disjunct of `TranslatedDnfQuery::intersects`, `tags.rs:233-234`; `none` is a panic. -/
def intersectsKey (s : KeySeq α) (i : Nat) (q : TranslatedKey) : Option Bool :=
  match (s.time i).join with
  | none => none
  | some t => if q.time.intersects t then (s.tags.elements[i]?).map fun e => !q.indexSet.isDisjoint e else some false

/-- One disjunct of `TranslatedDnfQuery::contains`, `tags.rs:240-241`; `none` is a panic. -/
def containsKey (s : KeySeq α) (i : Nat) (q : TranslatedKey) : Option Bool :=
  match (s.time i).join with
  | none => none
  | some t => if q.time.contains t then (s.tags.elements[i]?).map fun e => q.indexSet.isSuperset e else some false

/-- `any` with a closure that may panic. -/
def anyOf {β : Type} (f : β → Option Bool) : List β → Option Bool
  | [] => some false
  | x :: xs =>
    match f x with
    | none => none
    | some true => some true
    | some false => anyOf f xs

/-- The loops `tags.rs:246-250`, `254-258`: the first `n` positions, starting at `i`; `none` is a panic. -/
def maskLoop (f : Nat → Option Bool) : Nat → Nat → List Bool → Option (List Bool)
  | 0, _, m => some m
  | _ + 1, _, [] => some []
  | n + 1, i, b :: bs =>
    match if b then f i else some false with
    | none => none
    | some b' => (maskLoop f n (i + 1) bs).map (b' :: ·)

/-- `TranslatedDnfQuery::intersecting`, `tags.rs:245-251`, `231-236`; `none` is a panic. -/
def intersecting (q : List (Key α)) (s : KeySeq α) (mask : List Bool) : Option (List Bool) :=
  maskLoop (fun i => anyOf (intersectsKey s i) (mapInto q s)) s.len 0 mask

/-- `TranslatedDnfQuery::containing`, `tags.rs:253-259`, `238-243`; `none` is a panic. -/
def containing (q : List (Key α)) (s : KeySeq α) (mask : List Bool) : Option (List Bool) :=
  maskLoop (fun i => anyOf (containsKey s i) (mapInto q s)) s.len 0 mask

/-! ### the tree types -/

/-- `FromIterator` for `KeySeq` as a total function: the default is never used for sequences with at most 2^32 different
tags (`fromIter_spec`). -/
def ofList (l : List (Key α)) : { s : KeySeq α // s.Valid } :=
  match KeySeq.fromIter l with
  | some s => if h : s.Valid then ⟨s, h⟩ else ⟨.empty, KeySeq.empty_valid⟩
  | none => ⟨.empty, KeySeq.empty_valid⟩

/-- `CompactSeq` for `KeySeq`, `tags.rs:303-333`. Simplification: only sequences with columns of equal length; the decoder
does not check this, so malformed data can make the code panic. -/
def keySeq (α : Type) [TotalOrd α] : CompactSeq (Key α) where
  Carrier := { s : KeySeq α // s.Valid }
  len := fun s => s.1.len
  get := fun s i => s.1.at? i
  ofList := ofList

/-- `Summarizable` for `KeySeq` as a total function: the default is used for the empty sequence only (`summarize_valid`). -/
def summaryOf (s : { s : KeySeq α // s.Valid }) : Key α := s.1.summarize.getD ⟨⟨0, 0, 0⟩, VecSet.empty⟩

/-- `impl TreeTypes for TT`, `tags.rs:88-94`, for any type of links. -/
def tagTypes (α L : Type) [TotalOrd α] [DecidableEq L] : TreeTypes where
  Key := Key α
  Summary := Key α
  Link := L
  keys := keySeq α
  sums := keySeq α
  sumKeys := summaryOf
  sumSums := summaryOf
  linkDec := inferInstance
  sumDec := inferInstanceAs (DecidableEq (Key α))

theorem length_maskLoop {f : Nat → Option Bool} : ∀ {n i : Nat} {m r : List Bool}, maskLoop f n i m = some r → r.length = m.length
  | 0, _, _, _, h => by cases h; rfl
  | _ + 1, _, [], _, h => by cases h; rfl
  | n + 1, i, b :: bs, r, h => by
    unfold maskLoop at h
    split at h
    · cases h
    · obtain ⟨r', h1, h2⟩ := Option.map_eq_some_iff.mp h
      subst h2
      simp [length_maskLoop h1]

theorem length_getD {m : List Bool} {o : Option (List Bool)} (h : ∀ r, o = some r → r.length = m.length) : (o.getD m).length = m.length := by
  cases o with
  | none => rfl
  | some r => exact h r rfl

/-- `impl Query<TT> for DnfQuery`, `tags.rs:262-279`. The defaults are never used (`containing_total`,
`intersecting_total`). -/
def dnfQuery {α L : Type} [TotalOrd α] [DecidableEq L] (q : List (Key α)) : Query (tagTypes α L) where
  containing := fun _ i mask => (containing q i.keys.1 mask).getD mask
  intersecting := fun _ i mask => (intersecting q i.summaries.1 mask).getD mask
  len_containing := fun _ _ _ => length_getD fun _ h => length_maskLoop h
  len_intersecting := fun _ _ _ => length_getD fun _ h => length_maskLoop h

end Banyan.Tag
