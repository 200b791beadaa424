import Verif.Spec.Repair
/-
The report of a repair.
-/
set_option autoImplicit false
namespace Banyan

variable {T : TreeTypes} {V : Type}

/-- The block of the node is lost. -/
def Index.lostBy (lost : T.Link → Bool) (x : Index T) : Bool := x.link.any lost

mutual
/-- The nodes that can be found in a tree if some blocks are lost: parents before children, from left to right. Below a lost
branch nothing can be found. -/
def PTree.found (lost : T.Link → Bool) : PTree T V → List (Index T)
  | .leaf i _ => [.leaf i]
  | .branch i cs => .branch i :: if (Index.branch i).lostBy lost then [] else PTree.foundL lost cs
  | .purgedLeaf i => [.leaf i]
  | .purgedBranch i => [.branch i]
def PTree.foundL (lost : T.Link → Bool) : List (PTree T V) → List (Index T)
  | [] => []
  | c :: cs => PTree.found lost c ++ PTree.foundL lost cs
end

/-- The node cannot be part of a packed part of the tree: before it there is an unsealed node that is not above it. -/
def afterUnsealed (before : List (Index T)) (x : Index T) : Bool := before.any fun y => !y.isSealed && decide (y.level ≤ x.level)

/-- What a report has to say about a lost node: its link, and a warning if it is unsealed or not in a packed part. -/
def reportEntry (before : List (Index T)) : Index T → List (RepairMsg T)
  | .leaf i => .forgetLeaf i.link ::
      if !i.isSealed then [.warnUnsealedLeaf] else if afterUnsealed before (.leaf i) then [.warnUnpackedLeaf] else []
  | .branch i => .forgetBranch i.link ::
      if !i.isSealed then [.warnUnsealedBranch] else if afterUnsealed before (.branch i) then [.warnUnpackedBranch] else []

/-- The report for some nodes that come after other ones. -/
def expectedReport (lost : T.Link → Bool) : List (Index T) → List (Index T) → List (RepairMsg T)
  | _, [] => []
  | before, x :: rest => (if x.lostBy lost then reportEntry before x else []) ++ expectedReport lost (before ++ [x]) rest

/-- The report does not warn about nodes in an unpacked part. -/
def NoUnpacked (report : List (RepairMsg T)) : Prop := .warnUnpackedBranch ∉ report ∧ .warnUnpackedLeaf ∉ report

end Banyan
