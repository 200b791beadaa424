import Verif.Spec.Partial
import Verif.Spec.IndexIter
/-
Using the index of a tree without its values.
-/
set_option autoImplicit false
namespace Banyan

variable {T : TreeTypes} {V : Type} {E : Env T V}

/-- The branches of a tree. -/
def PTree.branches (t : PTree T V) : List (PTree T V) := t.nodes.filter fun
  | .branch _ _ => true
  | _ => false

/-- The branches an iteration over the indexes visits: those that are not below a child the query does not select. -/
def PTree.visited (q : Query T) (m : Mode) (t : PTree T V) : List (PTree T V) := ((visits q m t 0).map (·.2)).filter fun
  | .branch _ _ => true
  | _ => false

/-- The leaves of a tree that have not been purged. -/
def PTree.fullLeaves (t : PTree T V) : List (PTree T V) := t.nodes.filter fun
  | .leaf _ _ => true
  | _ => false

/-- The secrets of somebody who knows the key for the index. The key for the values may be another one. -/
def SameIndexKey (a b : Secrets E) : Prop := a.indexKey = b.indexKey

end Banyan
