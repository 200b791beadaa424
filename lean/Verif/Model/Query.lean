import Verif.Model.Types
import Verif.Model.Util
/-
`banyan/src/query.rs`.
-/
namespace Banyan

/-- `trait Query`, `query.rs:17-22`. The functions modify a `&mut [bool]`, so the length of the mask cannot change;
this is part of the structure. -/
structure Query (T : TreeTypes) where
  containing : Nat → LeafIndex T → List Bool → List Bool
  intersecting : Nat → BranchIndex T → List Bool → List Bool
  len_containing : ∀ o i r, (containing o i r).length = r.length
  len_intersecting : ∀ o i r, (intersecting o i r).length = r.length

variable {T : TreeTypes}

theorem length_clearBits (l : List Bool) : (clearBits l).length = l.length := by simp [clearBits]

theorem length_orWith : ∀ a b : List Bool, (orWith a b).length = a.length
  | [], b => by cases b <;> rfl
  | _ :: _, [] => rfl
  | _ :: as, _ :: bs => by simp [orWith, length_orWith as bs]

/-- The loop of `query.rs:64-69`: at most `n` (= number of keys) positions are touched. -/
def offsetRangeLoop (r : RangeB Nat) : Nat → Nat → List Bool → List Bool
  | 0, _, res => res
  | _ + 1, _, [] => []
  | n + 1, offset, b :: rest =>
    (if b then r.contains offset else b) :: offsetRangeLoop r n (offset + 1) rest

theorem length_offsetRangeLoop (r : RangeB Nat) : ∀ n o res, (offsetRangeLoop r n o res).length = res.length
  | 0, _, _ => rfl
  | _ + 1, _, [] => rfl
  | n + 1, o, b :: rest => by simp [offsetRangeLoop, length_offsetRangeLoop r n]

/-- `OffsetRangeQuery`, `query.rs:47-81`. -/
def offsetRangeQuery (r : RangeB Nat) : Query T where
  containing := fun offset index res =>
    if !r.intersects (RangeB.halfOpen offset (offset + T.keys.len index.keys)) then clearBits res
    else offsetRangeLoop r (T.keys.len index.keys) offset res
  intersecting := fun offset index res =>
    if !r.intersects (RangeB.halfOpen offset (offset + index.count)) then clearBits res else res
  len_containing := by
    intro o i res
    split
    · exact length_clearBits _
    · exact length_offsetRangeLoop _ _ _ _
  len_intersecting := by
    intro o i res
    split
    · exact length_clearBits _
    · rfl

/-- `EmptyQuery`, `query.rs:85-95`. -/
def emptyQuery : Query T where
  containing := fun _ _ res => clearBits res
  intersecting := fun _ _ res => clearBits res
  len_containing := fun _ _ _ => length_clearBits _
  len_intersecting := fun _ _ _ => length_clearBits _

/-- `AllQuery`, `query.rs:99-109`. -/
def allQuery : Query T where
  containing := fun _ _ res => res
  intersecting := fun _ _ res => res
  len_containing := fun _ _ _ => rfl
  len_intersecting := fun _ _ _ => rfl

/-- `AndQuery`, `query.rs:115-127`. -/
def andQuery (a b : Query T) : Query T where
  containing := fun o i res => b.containing o i (a.containing o i res)
  intersecting := fun o i res => b.intersecting o i (a.intersecting o i res)
  len_containing := fun o i r => by simp only [Query.len_containing]
  len_intersecting := fun o i r => by simp only [Query.len_intersecting]

/-- `OrQuery`, `query.rs:133-149`. -/
def orQuery (a b : Query T) : Query T where
  containing := fun o i res => orWith (a.containing o i res) (b.containing o i res)
  intersecting := fun o i res => orWith (a.intersecting o i res) (b.intersecting o i res)
  len_containing := fun o i r => by simp only [length_orWith, Query.len_containing]
  len_intersecting := fun o i r => by simp only [length_orWith, Query.len_intersecting]

end Banyan
