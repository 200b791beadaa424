import Verif.Spec.Tree
/-
What is wrong with a node: the specification of the invariant checker.
-/
set_option autoImplicit false
namespace Banyan

variable {T : TreeTypes} {V : Type}

/-- A node (of any tree that can be loaded, well formed or not) violates an invariant. -/
def Violates (cfg : Config) : PTree T V → InvMsg → Prop
  | .leaf i vs, .valueCount => vs.length ≠ T.keys.len i.keys
  | .branch i cs, .branchCount => cs.length ≠ T.sums.len i.summaries
  | .branch i cs, .childLevelSealed => i.isSealed = true ∧ ∃ c ∈ cs, c.index.level + 1 ≠ i.level
  | .branch i cs, .childLevel => i.isSealed = false ∧ ∃ c ∈ cs, i.level ≤ c.index.level
  | .branch i cs, .childSummary =>
    ∃ (j : Nat) (c : PTree T V) (y : T.Summary), cs[j]? = some c ∧ (T.sums.toVec i.summaries)[j]? = some y ∧ c.index.summarize ≠ y
  | .branch i cs, .sealedFlag =>
    ¬ (i.isSealed = true ↔ (∀ c ∈ cs, c.index.isSealed = true ∧ c.index.level + 1 = i.level) ∧
      (if i.level = 1 then cfg.maxKeyBranches else cfg.maxSummaryBranches) ≤ cs.length)
  | _, _ => False

end Banyan
