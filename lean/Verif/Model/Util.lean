/-
`banyan/src/util.rs`: ranges, bool slices, stream cut-off.
-/
namespace Banyan

/-- `std::ops::Bound` -/
inductive Bound (α : Type) where
  | included (a : α)
  | excluded (a : α)
  | unbounded
deriving DecidableEq, Repr

section Ranges
variable {α : Type} [LE α] [LT α] [DecidableLE α] [DecidableLT α]

/-- `fn lt`, `util.rs:13-22`: the first argument is the end of a range, the second one the start of another one. -/
def boundLt : Bound α → Bound α → Bool
  | .unbounded, _ => false
  | _, .unbounded => false
  | .included e, .included s => decide (e < s)
  | .excluded e, .included s => decide (e ≤ s)
  | .included e, .excluded s => decide (e ≤ s)
  | .excluded e, .excluded s => decide (e ≤ s)

/-- A value implementing `RangeBounds<T>`: start and end bound. -/
structure RangeB (α : Type) where
  start : Bound α
  stop : Bound α
deriving DecidableEq, Repr

namespace RangeB

/-- `a..b` -/
def halfOpen (a b : α) : RangeB α := ⟨.included a, .excluded b⟩
/-- `a..=b` -/
def closed (a b : α) : RangeB α := ⟨.included a, .included b⟩

/-- `RangeBounds::contains` of the standard library. -/
def contains (r : RangeB α) (x : α) : Bool :=
  (match r.start with
    | .included s => decide (s ≤ x)
    | .excluded s => decide (s < x)
    | .unbounded => true)
  && (match r.stop with
    | .included e => decide (x ≤ e)
    | .excluded e => decide (x < e)
    | .unbounded => true)

/-- `RangeBoundsExt::intersects`, `util.rs:25-27`. -/
def intersects (r b : RangeB α) : Bool :=
  !(boundLt r.stop b.start) && !(boundLt b.stop r.start)

end RangeB

end Ranges

/-- `is_sorted`, `util.rs:32-34` (`windows(2).all(x[0] <= x[1])`). -/
def isSorted : List Nat → Bool
  | [] => true
  | [_] => true
  | a :: b :: rest => decide (a ≤ b) && isSorted (b :: rest)

/-- `BoolSliceExt::any`, `util.rs:42-44`. -/
def anyTrue (l : List Bool) : Bool := l.any id

/-- `MutBoolSliceExt::clear`, `util.rs:58-61`. -/
def clearBits (l : List Bool) : List Bool := l.map fun _ => false

/-- `MutBoolSliceExt::or_with`, `util.rs:63-67`: positions beyond the shorter slice are left alone. -/
def orWith : List Bool → List Bool → List Bool
  | a :: as, b :: bs => (a || b) :: orWith as bs
  | as, [] => as
  | [], _ => []

section TakeUntil
variable {α : Type}

/-- The items produced by the `flat_map` of `take_until_condition`, `util.rs:149-156`. -/
def cutMarks (condition : α → Bool) (items : List α) : List (Option α) :=
  items.flatMap fun item => if condition item then [some item, none] else [some item]

/-- `take_until_condition`, `util.rs:144-159`: `flat_map`, then `take_while(is_some)`, then `filter_map`. -/
def takeUntilCondition (condition : α → Bool) (items : List α) : List α :=
  ((cutMarks condition items).takeWhile Option.isSome).filterMap id

end TakeUntil

end Banyan
