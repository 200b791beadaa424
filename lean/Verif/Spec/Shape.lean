import Verif.Spec.Nodes
/-
The shape of trees, and their parts.
-/
set_option autoImplicit false
namespace Banyan

variable {T : TreeTypes} {V : Type}

/-! ### sharing -/

mutual
/-- The tree is cut into the given disjoint subtrees, from left to right. -/
inductive PTree.Cut : PTree T V → List (PTree T V) → Prop
  | whole (t) : PTree.Cut t [t]
  | split (i : BranchIndex T) (cs rs : List (PTree T V)) : PTree.CutL cs rs → PTree.Cut (.branch i cs) rs
inductive PTree.CutL : List (PTree T V) → List (PTree T V) → Prop
  | nil : PTree.CutL [] []
  | cons (c) (cs rs rs' : List (PTree T V)) : PTree.Cut c rs → PTree.CutL cs rs' → PTree.CutL (c :: cs) (rs ++ rs')
end

/-- The given subtrees are at the start of the tree, next to each other, sealed, and get smaller to the right: together they are
a packed tree (without its root). -/
structure PackedPart (t : PTree T V) (rs : List (PTree T V)) : Prop where
  start : ∃ more, t.Cut (rs ++ more)
  «sealed» : ∀ r ∈ rs, r.index.isSealed = true
  sorted : rs.Pairwise fun a b => b.index.level ≤ a.index.level

/-! ### shapes -/

/-- A tree without its data. -/
inductive Shape where
  | leaf (count : Nat) (isSealed : Bool)
  | branch (level count : Nat) (isSealed : Bool) (children : List Shape)

mutual
def PTree.shape : PTree T V → Shape
  | .leaf i _ => .leaf (T.keys.len i.keys) i.isSealed
  | .purgedLeaf i => .leaf (T.keys.len i.keys) i.isSealed
  | .branch i cs => .branch i.level i.count i.isSealed (PTree.shapes cs)
  | .purgedBranch i => .branch i.level i.count i.isSealed []
def PTree.shapes : List (PTree T V) → List Shape
  | [] => []
  | c :: cs => PTree.shape c :: PTree.shapes cs
end

/-- The number of elements of a full tree. -/
def Config.capacity (cfg : Config) : Nat → Nat
  | 0 => cfg.maxLeafCount
  | l + 1 => (if l = 0 then cfg.maxKeyBranches else cfg.maxSummaryBranches) * cfg.capacity l

/-- The tree with `n` elements whose root has level `l`: full children, and the rest in the last child. -/
def Config.fullShape (cfg : Config) : Nat → Nat → Shape
  | 0, n => .leaf n (n == cfg.capacity 0)
  | l + 1, n => .branch (l + 1) n (n == cfg.capacity (l + 1)) (List.replicate (n / cfg.capacity l) (cfg.fullShape l (cfg.capacity l)) ++
      if n % cfg.capacity l = 0 then [] else [cfg.fullShape l (n % cfg.capacity l)])

mutual
/-- The leaves of a tree, from left to right: the number of elements, and whether the leaf is full. -/
def PTree.leafSizes : PTree T V → List (Nat × Bool)
  | .leaf i _ => [(T.keys.len i.keys, i.isSealed)]
  | .purgedLeaf i => [(T.keys.len i.keys, i.isSealed)]
  | .branch _ cs => PTree.leafSizesL cs
  | .purgedBranch _ => []
def PTree.leafSizesL : List (PTree T V) → List (Nat × Bool)
  | [] => []
  | c :: cs => PTree.leafSizes c ++ PTree.leafSizesL cs
end

/-- The number of leaves of a full tree. -/
def Config.fullLeaves (cfg : Config) : Nat → Nat
  | 0 => 1
  | l + 1 => (if l = 0 then cfg.maxKeyBranches else cfg.maxSummaryBranches) * cfg.fullLeaves l

/-- No leaf of the tree has been sealed because of its size. -/
def LimitedByCount (cfg : Config) (t : PTree T V) : Prop :=
  ∀ i vs, .leaf i vs ∈ t.nodes → i.isSealed = true → T.keys.len i.keys = cfg.maxLeafCount

/-- States with a tree that was built by calls of `extend` only, starting with the empty tree, with the number of elements that were
given to the successful calls. -/
inductive Extended {E : Env T V} (cx : Ctx E) : St E → Nat → Prop
  | fresh (s) : s.root = none → Coherent E cx.sec s → Extended cx s 0
  | extend {s s' n} (fuel) (xs : List (T.Key × V)) : Extended cx s n → rootLevel s.root < fuel → rootCount s.root + xs.length ≤ maxElements →
      Banyan.extend cx fuel xs s = .ok () s' → Extended cx s' (n + xs.length)
  | failed {s s' n} (fuel) (xs : List (T.Key × V)) (e) : Extended cx s n → rootLevel s.root < fuel → rootCount s.root + xs.length ≤ maxElements →
      Banyan.extend cx fuel xs s = .error e s' → Extended cx s' n
  | world {s n} (σ γ) : Extended cx s n → StoreLe E s.store σ → Coherent E cx.sec { s with store := σ, cache := γ } →
      Extended cx { s with store := σ, cache := γ } n

end Banyan
