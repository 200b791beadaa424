import Verif.Spec.Partial
import Verif.Spec.Nodes
import Verif.Spec.History
/-
The right edge of a tree, and builders that have nothing but the right edge.
-/
set_option autoImplicit false
namespace Banyan

variable {T : TreeTypes} {V : Type} {E : Env T V}

mutual
/-- The nodes at the right edge of a tree that are not full: the root, its last child, the last child of that one, and so on, down to a
leaf, until there is a node that is sealed (or purged). -/
def PTree.edge : PTree T V → List (PTree T V)
  | .leaf i vs => if i.isSealed then [] else [.leaf i vs]
  | .branch i cs => if i.isSealed then [] else .branch i cs :: PTree.edgeL cs
  | .purgedLeaf _ => []
  | .purgedBranch _ => []
/-- The same for the last one of the children of a branch. -/
def PTree.edgeL : List (PTree T V) → List (PTree T V)
  | [] => []
  | [c] => c.edge
  | _ :: c :: cs => PTree.edgeL (c :: cs)
end

mutual
/-- The nodes outside of the packed sealed subtrees at the start of the tree (`PTree.rootsOf`): the branches above these subtrees, and
everything behind them. Nothing of what is inside of a packed sealed subtree, and nothing that has been purged. -/
def PTree.loose : PTree T V → Int → List (PTree T V)
  | .leaf i vs, l => if i.isSealed ∧ 0 ≤ l then [] else [.leaf i vs]
  | .branch i cs, l =>
    if i.isSealed ∧ (i.level : Int) ≤ l then [] else .branch i cs :: PTree.looseL cs (min l ((i.level : Int) - 1))
  | .purgedLeaf _, _ => []
  | .purgedBranch _, _ => []
/-- The same for the children of a branch. -/
def PTree.looseL : List (PTree T V) → Int → List (PTree T V)
  | [], _ => []
  | c :: cs, l => PTree.loose c l ++ PTree.looseL cs (PTree.rootsOf c l).1
end

/-- A store after some blocks have been put. -/
def afterPuts (E : Env T V) (σ : E.σ) (ds : List Bytes) : E.σ := ds.foldl (fun σ d => (E.put σ d).2) σ

/-- Two stores answer puts alike, whatever is put: with the same links (e.g. hashes), or with the same errors. -/
def Alike (E : Env T V) (σ σ' : E.σ) : Prop := ∀ ds d, (E.put (afterPuts E σ' ds) d).1 = (E.put (afterPuts E σ ds) d).1

/-- A put adds nothing to the store but the block that is put. -/
def Frugal (E : Env T V) : Prop := ∀ σ d l b, E.get (E.put σ d).2 l = .ok b → E.get σ l = .ok b ∨ (E.put σ d).1 = .ok l ∧ b = d

/-- `s2` is a builder for the tree of `s` that has only the blocks outside of the packed sealed subtrees at the start of the tree, in another
store with another cache. -/
structure Loosened (cx : Ctx E) (s s2 : St E) : Prop where
  root : s2.root = s.root
  offset : s2.offset = s.offset
  alike : Alike E s.store s2.store
  coherent : Coherent E cx.sec s2
  loose : ∀ t : PTree T V, Shows cx s t → SameBlocks E s.store s2.store (t.loose i32max)

/-- `s2` is a builder for the tree of `s` that has only the blocks at the right edge of the tree, in another store with another cache. -/
structure Edged (cx : Ctx E) (s s2 : St E) : Prop where
  root : s2.root = s.root
  offset : s2.offset = s.offset
  alike : Alike E s.store s2.store
  coherent : Coherent E cx.sec s2
  edge : ∀ t : PTree T V, Shows cx s t → SameBlocks E s.store s2.store t.edge

/-- An operation of a builder that writes. -/
inductive Work (T : TreeTypes) (V : Type) where
  | extend (fuel : Nat) (xs : List (T.Key × V))
  | extendUnpacked (fuel : Nat) (xs : List (T.Key × V))
  | pack (fuel : Nat)

/-- One operation. -/
def Work.run (cx : Ctx E) : Work T V → M E Unit
  | .extend fuel xs => Banyan.extend cx fuel xs
  | .extendUnpacked fuel xs => Banyan.extendUnpacked cx fuel xs
  | .pack fuel => Banyan.pack cx fuel

/-- An operation may be called: there is space for the elements. -/
def Work.Allowed (s : St E) : Work T V → Prop
  | .extend fuel xs => rootLevel s.root < fuel ∧ rootCount s.root + xs.length ≤ maxElements
  | .extendUnpacked fuel xs => rootLevel s.root < fuel ∧ rootCount s.root + xs.length ≤ maxElements
  | .pack fuel => rootLevel s.root < fuel

/-- Some operations in a row, all of which are allowed and succeed. -/
inductive Works (cx : Ctx E) : List (Work T V) → St E → St E → Prop
  | nil (s : St E) : Works cx [] s s
  | cons {w : Work T V} {ws : List (Work T V)} {s s1 s' : St E} : w.Allowed s → w.run cx s = .ok () s1 → Works cx ws s1 s' →
      Works cx (w :: ws) s s'

/-- Some operations in a row. -/
def performAll (cx : Ctx E) : List (Work T V) → M E Unit
  | [] => pure ()
  | w :: ws => do
    w.run cx
    performAll cx ws

end Banyan
