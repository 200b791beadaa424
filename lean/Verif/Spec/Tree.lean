import Verif.Spec.Laws
/-
Loaded trees: the specification of what a store holds for an index.
-/
namespace Banyan

/-- A tree with everything loaded. `leaf` carries the values, the `purged` constructors stand for nodes without a
link. -/
inductive PTree (T : TreeTypes) (V : Type) where
  | leaf (i : LeafIndex T) (vs : List V)
  | branch (i : BranchIndex T) (cs : List (PTree T V))
  | purgedLeaf (i : LeafIndex T)
  | purgedBranch (i : BranchIndex T)

variable {T : TreeTypes} {V : Type}

namespace PTree

/-- The index of the root of a loaded tree. -/
def index : PTree T V → Index T
  | leaf i _ => .leaf i
  | branch i _ => .branch i
  | purgedLeaf i => .leaf i
  | purgedBranch i => .branch i

mutual
/-- The content of a tree: one entry per element ever appended, `none` for purged ones. -/
def content : PTree T V → List (Option (T.Key × V))
  | leaf i vs => ((T.keys.toVec i.keys).zip vs).map some
  | branch _ cs => contents cs
  | purgedLeaf i => List.replicate (T.keys.len i.keys) none
  | purgedBranch i => List.replicate i.count none
/-- The concatenated content of a list of trees. -/
def contents : List (PTree T V) → List (Option (T.Key × V))
  | [] => []
  | c :: cs => content c ++ contents cs
end

mutual
/-- All nodes, in pre-order. -/
def nodes : PTree T V → List (PTree T V)
  | leaf i vs => [leaf i vs]
  | branch i cs => branch i cs :: nodesL cs
  | purgedLeaf i => [purgedLeaf i]
  | purgedBranch i => [purgedBranch i]
def nodesL : List (PTree T V) → List (PTree T V)
  | [] => []
  | c :: cs => nodes c ++ nodesL cs
end

/-- A predicate holds for all nodes. -/
def All (P : PTree T V → Prop) (t : PTree T V) : Prop := ∀ n ∈ t.nodes, P n

end PTree

/-- A store holds the data of one node: the blocks can be read with the given secrets and contain the values (for a
leaf) or the indexes of the children (for a branch). -/
def StoredAt (E : Env T V) (sec : Secrets E) (s : E.σ) : PTree T V → Prop
  | .leaf i vs => ∃ l z r, i.link = some l ∧ loadLeafFromLink E sec s l = .ok ⟨z, r⟩ ∧ z.data ≠ [] ∧
      decompress E z.data = .ok (vs.map E.encV).flatten
  | .branch i cs => ∃ l r, i.link = some l ∧ loadBranchFromLink E sec s l = .ok ⟨cs.map PTree.index, r⟩
  | .purgedLeaf i => i.link = none
  | .purgedBranch i => i.link = none

/-- A store holds a tree. -/
def Stored (E : Env T V) (sec : Secrets E) (s : E.σ) (t : PTree T V) : Prop := t.All (StoredAt E sec s)

/-- Like `StoredAt`, but only branches need to be stored. -/
def OutlinedAt (E : Env T V) (sec : Secrets E) (s : E.σ) : PTree T V → Prop
  | .leaf i _ => ∃ l, i.link = some l
  | .branch i cs => ∃ l r, i.link = some l ∧ loadBranchFromLink E sec s l = .ok ⟨cs.map PTree.index, r⟩
  | .purgedLeaf i => i.link = none
  | .purgedBranch i => i.link = none

/-- A store holds the branches of a tree. -/
def Outlined (E : Env T V) (sec : Secrets E) (s : E.σ) (t : PTree T V) : Prop := t.All (OutlinedAt E sec s)

/-- The structural invariants of a node, which do not depend on the configuration. -/
def WFAt (E : Env T V) : PTree T V → Prop
  | .leaf i vs => T.keys.len i.keys = vs.length ∧ vs ≠ [] ∧ (vs.map E.encV).flatten.length ≤ maxCapacity
  | .branch i cs => cs ≠ [] ∧
      (∀ c ∈ cs, c.index.level < i.level) ∧ (∃ c ∈ cs, c.index.level + 1 = i.level) ∧
      i.count = (cs.map fun c => c.index.count).sum ∧
      i.summaries = T.sums.ofList (cs.map fun c => c.index.summarize) ∧
      i.valueBytes = (cs.map fun c => c.index.valueBytes).sum ∧
      (i.isSealed = true → (∀ c ∈ cs, c.index.isSealed = true ∧ c.index.level + 1 = i.level) ∧ (2 ≤ i.level → 2 ≤ cs.length))
  | .purgedLeaf i => i.isSealed = true ∧ 0 < T.keys.len i.keys
  | .purgedBranch i => i.isSealed = true ∧ 0 < i.count ∧ 0 < i.level ∧ i.level ≤ i.count ∧ 0 < T.sums.len i.summaries

/-- A well formed tree. -/
def WF (E : Env T V) (t : PTree T V) : Prop := t.All (WFAt E)

/-- A leaf with these values is within the limits of a configuration. -/
def LeafWithin (E : Env T V) (cfg : Config) (vs : List V) : Prop :=
  vs.length ≤ cfg.maxLeafCount ∧ (vs.map E.encV).flatten.length ≤ cfg.maxUncompressedLeafSize

/-- A node is within the limits of a configuration, and a branch is sealed exactly if the configuration says so. -/
def WithinAt (E : Env T V) (cfg : Config) : PTree T V → Prop
  | .leaf _ vs => LeafWithin E cfg vs
  | .branch i cs => cs.length ≤ cfg.maxBranches i.level ∧ i.isSealed = cfg.branchSealed (cs.map PTree.index) i.level
  | _ => True

/-- All nodes of a tree are within the limits of a configuration. -/
def Within (E : Env T V) (cfg : Config) (t : PTree T V) : Prop := t.All (WithinAt E cfg)

/-- A packed tree: every unsealed branch has only sealed children directly below it, except for the last child, which
can be at any level below it but has to be packed itself. -/
inductive Packed : PTree T V → Prop
  | leaf (i vs) : Packed (.leaf i vs)
  | purgedLeaf (i) : Packed (.purgedLeaf i)
  | purgedBranch (i) : Packed (.purgedBranch i)
  | closed (i cs) : i.isSealed = true → Packed (.branch i cs)
  | unclosed (i init last) : (∀ c ∈ init, c.index.isSealed = true ∧ c.index.level + 1 = i.level) →
      last.index.level < i.level → Packed last → Packed (.branch i (init ++ [last]))

mutual
/-- The maximal packed sealed subtrees at the start of the tree: a traversal which carries the highest level that may
still be added, and returns it together with the subtrees. A node is taken as a whole if it is sealed and not above the
level; an unsealed leaf ends the traversal (level -1). -/
def PTree.rootsOf : PTree T V → Int → Int × List (PTree T V)
  | .leaf i vs, l =>
    if i.isSealed ∧ 0 ≤ l then (0, [.leaf i vs]) else (min l (-1), [])
  | .purgedLeaf i, l =>
    if i.isSealed ∧ 0 ≤ l then (0, [.purgedLeaf i]) else (min l (-1), [])
  | .purgedBranch i, l =>
    if i.isSealed ∧ (i.level : Int) ≤ l then ((i.level : Int), [.purgedBranch i]) else (min l ((i.level : Int) - 1), [])
  | .branch i cs, l =>
    if i.isSealed ∧ (i.level : Int) ≤ l then ((i.level : Int), [.branch i cs])
    else PTree.rootsOfL cs (min l ((i.level : Int) - 1))
def PTree.rootsOfL : List (PTree T V) → Int → Int × List (PTree T V)
  | [], l => (l, [])
  | c :: cs, l =>
    let r := PTree.rootsOf c l
    let r' := PTree.rootsOfL cs r.1
    (r'.1, r.2 ++ r'.2)
end

mutual
/-- All purged nodes are inside of the maximal packed sealed subtrees. -/
def PTree.PurgeOk : PTree T V → Int → Prop
  | .leaf _ _, _ => True
  | .purgedLeaf i, l => i.isSealed = true ∧ 0 ≤ l
  | .purgedBranch i, l => i.isSealed = true ∧ (i.level : Int) ≤ l
  | .branch i cs, l => (i.isSealed = true ∧ (i.level : Int) ≤ l) ∨ PTree.PurgeOkL cs (min l ((i.level : Int) - 1))
def PTree.PurgeOkL : List (PTree T V) → Int → Prop
  | [], _ => True
  | c :: cs, l => PTree.PurgeOk c l ∧ PTree.PurgeOkL cs (PTree.rootsOf c l).1
end

/-- The cache of branches does not contradict the store: what is cached is in the store, and if it can be read with the key, then it is
what is cached. The cache is shared by all users of a forest, so it can have branches that were read with other keys. -/
def Coherent (E : Env T V) (sec : Secrets E) (s : St E) : Prop :=
  ∀ l b, (E.cacheGet s.cache l).1 = some b → (∃ d, E.get s.store l = .ok d) ∧ ∀ b', loadBranchFromLink E sec s.store l = .ok b' → b' = b

/-- The cache of branches agrees with the store: everything in it was read with this key. -/
def Exact (E : Env T V) (sec : Secrets E) (s : St E) : Prop :=
  ∀ l b, (E.cacheGet s.cache l).1 = some b → loadBranchFromLink E sec s.store l = .ok b

/-- The content of an optional tree. -/
def optContent : Option (PTree T V) → List (Option (T.Key × V))
  | none => []
  | some t => t.content

/-- No branch written so far is larger than what can be decompressed again
(`MAX_CAPACITY`, `store/thread_local_zstd.rs:9`). -/
def Small (E : Env T V) (s : St E) : Prop :=
  ∀ cs ∈ s.written, (cs.map E.encIdx).flatten.length ≤ maxCapacity

end Banyan
