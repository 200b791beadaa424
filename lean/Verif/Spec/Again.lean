import Verif.Model.Builder
/-
Doing the same thing again.
-/
set_option autoImplicit false
namespace Banyan

variable {T : TreeTypes}

/-- Everything that looks interesting for `q` also looks interesting for `q'`, no matter whether it has been written again or purged
(the link of the index may change). -/
structure Query.Implies (q q' : Query T) : Prop where
  containing : ∀ o (i : LeafIndex T) l, true ∈ q.containing o i (List.replicate (T.keys.len i.keys) true) →
    true ∈ q'.containing o { i with link := l } (List.replicate (T.keys.len i.keys) true)
  intersecting : ∀ o (i : BranchIndex T) l, true ∈ q.intersecting o i (List.replicate (T.sums.len i.summaries) true) →
    true ∈ q'.intersecting o { i with link := l } (List.replicate (T.sums.len i.summaries) true)

/-- The query does not look at links. -/
structure Query.Blind (q : Query T) : Prop where
  containing : ∀ o (i : LeafIndex T) l mask, q.containing o { i with link := l } mask = q.containing o i mask
  intersecting : ∀ o (i : BranchIndex T) l mask, q.intersecting o { i with link := l } mask = q.intersecting o i mask

end Banyan
