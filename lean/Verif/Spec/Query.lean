import Verif.Model.Query
/-
The contract of queries.
-/
namespace Banyan

variable {T : TreeTypes}

/-- A relation saying what a summary tells about keys: the summary of a sequence of keys covers all of them, and the
summary of a sequence of summaries covers whatever one of them covers. -/
structure Covering (T : TreeTypes) (covers : T.Summary → T.Key → Prop) : Prop where
  keys : ∀ ks k, k ∈ T.keys.toVec ks → covers (T.sumKeys ks) k
  sums : ∀ ss s k, s ∈ T.sums.toVec ss → covers s k → covers (T.sumSums ss) k

/-- The query `q` selects the elements satisfying `m` (a predicate on offset and key): on leaves exactly, on branches
conservatively, and bits that are already cleared stay cleared. -/
structure QueryFor (q : Query T) (covers : T.Summary → T.Key → Prop) (m : Nat → T.Key → Bool) : Prop where
  containing : ∀ o i (mask : List Bool) (j : Nat) k, mask.length = T.keys.len i.keys → T.keys.get i.keys j = some k →
    (q.containing o i mask)[j]? = (mask[j]?).map (· && m (o + j) k)
  intersecting_le : ∀ o i (mask : List Bool) (j : Nat), mask.length = T.sums.len i.summaries →
    (q.intersecting o i mask)[j]? = some true → mask[j]? = some true
  intersecting : ∀ o i (mask : List Bool) (j : Nat) s, mask.length = T.sums.len i.summaries → T.sums.get i.summaries j = some s →
    mask[j]? = some true → (q.intersecting o i mask)[j]? = some false →
    ∀ o' k, o ≤ o' → o' < o + i.count → covers s k → m o' k = false

end Banyan
