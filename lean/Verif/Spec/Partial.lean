import Verif.Spec.Iter
/-
Stores that hold only a part of the blocks of a tree.
-/
set_option autoImplicit false
namespace Banyan

variable {T : TreeTypes} {V : Type} {E : Env T V}

mutual
/-- The nodes a reader with a query has to look into, for a tree whose first element has the given offset: the leaves
for which the query selects some key, and the branches for which it selects some child. Nothing below a child that is
not selected, and nothing that has been purged. -/
def PTree.needs (q : Query T) : PTree T V → Nat → List (PTree T V)
  | .leaf i vs, base =>
    if anyTrue (q.containing base i (List.replicate (T.keys.len i.keys) true)) then [.leaf i vs] else []
  | .branch i cs, base =>
    if anyTrue (q.intersecting base i (List.replicate (T.sums.len i.summaries) true)) then
      .branch i cs :: PTree.needsL q cs (q.intersecting base i (List.replicate (T.sums.len i.summaries) true)) base
    else []
  | .purgedLeaf _, _ => []
  | .purgedBranch _, _ => []
/-- The same for the children of a branch and the children selected by the query. -/
def PTree.needsL (q : Query T) : List (PTree T V) → List Bool → Nat → List (PTree T V)
  | [], _, _ => []
  | _ :: _, [], _ => []
  | c :: cs, b :: bs, base => (if b then PTree.needs q c base else []) ++ PTree.needsL q cs bs (base + c.index.count)
end

mutual
/-- The nodes on the way to the element at the given offset. -/
def PTree.wayTo : PTree T V → Nat → List (PTree T V)
  | .leaf i vs, o => if o < T.keys.len i.keys then [.leaf i vs] else []
  | .branch i cs, o => if o < i.count then .branch i cs :: PTree.wayToL cs o else []
  | .purgedLeaf _, _ => []
  | .purgedBranch _, _ => []
def PTree.wayToL : List (PTree T V) → Nat → List (PTree T V)
  | [], _ => []
  | c :: cs, o => if o < c.index.count then PTree.wayTo c o else PTree.wayToL cs (o - c.index.count)
end

mutual
/-- The nodes containing elements from the given offset on. -/
def PTree.tailFrom : PTree T V → Nat → List (PTree T V)
  | .leaf i vs, o => if o < T.keys.len i.keys then [.leaf i vs] else []
  | .branch i cs, o => if o < i.count then .branch i cs :: PTree.tailFromL cs o else []
  | .purgedLeaf _, _ => []
  | .purgedBranch _, _ => []
def PTree.tailFromL : List (PTree T V) → Nat → List (PTree T V)
  | [], _ => []
  | c :: cs, o => PTree.tailFrom c o ++ PTree.tailFromL cs (o - c.index.count)
end

/-- Nodes have a link unless they have been purged. -/
def LinkedAt : PTree T V → Prop
  | .leaf i _ => ∃ l, i.link = some l
  | .branch i _ => ∃ l, i.link = some l
  | .purgedLeaf i => i.link = none
  | .purgedBranch i => i.link = none

/-- The store `σ'` has the same blocks as the store `σ` for the given nodes (other blocks may be missing). -/
def SameBlocks (E : Env T V) (σ σ' : E.σ) (nodes : List (PTree T V)) : Prop :=
  ∀ n ∈ nodes, ∀ l, n.index.link = some l → E.get σ' l = E.get σ l

/-- One of the elements of the node, counted from `o`, satisfies `m`. -/
def HasMatch (m : Nat → T.Key → Bool) (o : Nat) (n : PTree T V) : Prop :=
  ∃ j k v, n.content[j]? = some (some (k, v)) ∧ m (o + j) k = true

/-- The content of the node is the content of the tree from `o` on. -/
def At (c : List (Option (T.Key × V))) (o : Nat) (n : PTree T V) : Prop :=
  ∃ a b, c = a ++ n.content ++ b ∧ a.length = o

end Banyan
