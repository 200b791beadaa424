import Verif.Spec.Iter
/-
What iterators over indexes are expected to deliver.
-/
set_option autoImplicit false
namespace Banyan

variable {T : TreeTypes} {V : Type} {E : Env T V}

mutual
/-- The nodes of a tree starting at offset `o` that are not pruned by the query, with their offsets: a node, then its
children from left to right or from right to left. -/
def visits (q : Query T) (m : Mode) : PTree T V → Nat → List (Nat × PTree T V)
  | .leaf i vs, o => [(o, .leaf i vs)]
  | .purgedLeaf i, o => [(o, .purgedLeaf i)]
  | .purgedBranch i, o => [(o, .purgedBranch i)]
  | .branch i cs, o =>
    (o, .branch i cs) :: visitsL q m cs (q.intersecting o i (List.replicate (T.sums.len i.summaries) true)) o
/-- The same for consecutive trees of which only some are visited. -/
def visitsL (q : Query T) (m : Mode) : List (PTree T V) → List Bool → Nat → List (Nat × PTree T V)
  | c :: cs, b :: bs, o =>
    match m with
    | .forward => (if b then visits q m c o else []) ++ visitsL q m cs bs (o + c.index.count)
    | .backward => visitsL q m cs bs (o + c.index.count) ++ (if b then visits q m c o else [])
  | _, _, _ => []
end

/-- As `Delivers`, but the bound on the number of turns per call depends on the tree (pruned children cost one turn
each). -/
def Enumerates {α : Type} (op : (Nat → St E → St E) → Nat → Nat → Tree E → M E (List (Except String α))) (sec : Secrets E)
    (t : Tree E) (s : St E) (items : List α) : Prop :=
  ∃ bound, ∀ between n fuel, Harmless sec between → bound ≤ fuel → ∃ s', op between n fuel t s = .ok ((items.take n).map .ok) s'

end Banyan
