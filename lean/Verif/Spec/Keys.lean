import Verif.Model.Tags
/-
Order of keys with time range and tags.
-/
set_option autoImplicit false
namespace Banyan.Tag

variable {α : Type} [TotalOrd α]

/-- The first key is within the second: time range, least lamport time, and tags. -/
structure Within (a b : Key α) : Prop where
  minTime : b.time.minTime ≤ a.time.minTime
  maxTime : a.time.maxTime ≤ b.time.maxTime
  lamport : b.time.minLamport ≤ a.time.minLamport
  tags : ∀ x ∈ a.tags.elems, x ∈ b.tags.elems

/-- The smallest key such that all given keys are within it. -/
structure IsBound (k : Key α) (l : List (Key α)) : Prop where
  upper : ∀ x ∈ l, Within x k
  least : ∀ k', (∀ x ∈ l, Within x k') → Within k k'

end Banyan.Tag
