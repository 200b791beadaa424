import Verif.Spec.Tree
import Verif.Spec.Query
/-
Specification of the removal of elements.
-/
namespace Banyan

variable {T : TreeTypes} {V : Type}

/-- The second list is the first one with some elements replaced by `none`, all of which do not satisfy the predicate.
The elements are at consecutive offsets starting with the given one. -/
def Erased (m : Nat → T.Key → Bool) : Nat → List (Option (T.Key × V)) → List (Option (T.Key × V)) → Prop
  | _, [], [] => True
  | o, x :: xs, y :: ys => (y = x ∨ (y = none ∧ ∀ k v, x = some (k, v) → m o k = false)) ∧ Erased m (o + 1) xs ys
  | _, _, _ => False

mutual
/-- The leaves of a tree with their offsets, given the offset of the first element. -/
def PTree.leavesAt : PTree T V → Nat → List (Nat × LeafIndex T)
  | .leaf i _, o => [(o, i)]
  | .branch _ cs, o => PTree.leavesAtL cs o
  | .purgedLeaf _, _ => []
  | .purgedBranch _, _ => []
def PTree.leavesAtL : List (PTree T V) → Nat → List (Nat × LeafIndex T)
  | [], _ => []
  | c :: cs, o => PTree.leavesAt c o ++ PTree.leavesAtL cs (o + c.index.count)
end

/-- A sealed leaf in which the query selects nothing. -/
def Missed (q : Query T) (x : Nat × LeafIndex T) : Prop :=
  x.2.isSealed = true ∧ ∀ b ∈ q.containing x.1 x.2 (List.replicate (T.keys.len x.2.keys) true), b = false

/-- All elements of a leaf are gone from the content, which starts at the given offset. -/
def Wiped (o : Nat) (c : List (Option (T.Key × V))) (x : Nat × LeafIndex T) : Prop :=
  ∀ n, x.1 ≤ o + n → o + n < x.1 + T.keys.len x.2.keys → c[n]? = some none

end Banyan
