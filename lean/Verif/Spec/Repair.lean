import Verif.Spec.Yields
/-
Repairing trees in damaged stores.
-/
set_option autoImplicit false
namespace Banyan

variable {T : TreeTypes} {V : Type} {E : Env T V}

/-- The stores that can come out of a store by adding blocks. -/
inductive PutsTo (E : Env T V) (δ : E.σ) : E.σ → Prop
  | refl : PutsTo E δ δ
  | put {τ : E.σ} (x : Bytes) : PutsTo E δ τ → PutsTo E δ (E.put τ x).2

/-- The state `d` is the state `s` after damage to the store: any blocks may be missing, and nothing is known about the
cache except that it holds no wrong branches. What can be read is right, and this stays so when blocks are added (links
are hashes of the blocks). -/
structure Damaged (cx : Ctx E) (s d : St E) : Prop where
  root : d.root = s.root
  written : d.written = s.written
  same : ∀ τ, PutsTo E d.store τ → ∀ l b b', E.get s.store l = .ok b → E.get τ l = .ok b' → b' = b
  cache : ∀ l b, (E.cacheGet d.cache l).1 = some b → loadBranchFromLink E cx.sec s.store l = .ok b

mutual
/-- The links of the blocks that are needed to read the element with the given number. -/
def PTree.pathTo : PTree T V → Nat → List T.Link
  | .leaf i _, _ => i.link.toList
  | .branch i cs, n => i.link.toList ++ PTree.pathToL cs n
  | .purgedLeaf _, _ => []
  | .purgedBranch _, _ => []
def PTree.pathToL : List (PTree T V) → Nat → List T.Link
  | [], _ => []
  | c :: cs, n => if n < c.index.count then PTree.pathTo c n else PTree.pathToL cs (n - c.index.count)
end

/-- The report says that the block with the given link was given up. -/
def Forgotten (report : List (RepairMsg T)) (l : T.Link) : Prop :=
  .forgetBranch (some l) ∈ report ∨ .forgetLeaf (some l) ∈ report

/-- The report does not say that an unsealed node was given up. -/
def Quiet (report : List (RepairMsg T)) : Prop := .warnUnsealedBranch ∉ report ∧ .warnUnsealedLeaf ∉ report

end Banyan
