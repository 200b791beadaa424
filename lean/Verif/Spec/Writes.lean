import Verif.Spec.Observe
/-
The blocks of a tree, in the order in which they have to be written.
-/
set_option autoImplicit false
namespace Banyan

variable {T : TreeTypes} {V : Type}

/-- The block an optional link leads to. -/
def blockAt (E : Env T V) (σ : E.σ) (link : Option T.Link) : List Bytes :=
  match link with
  | none => []
  | some l =>
    match E.get σ l with
    | .ok b => [b]
    | .error _ => []

mutual
/-- The blocks of all nodes of a tree, children before their parents, from left to right. -/
def PTree.blocks (E : Env T V) (σ : E.σ) : PTree T V → List Bytes
  | .leaf i _ => blockAt E σ i.link
  | .branch i cs => PTree.blocksL E σ cs ++ blockAt E σ i.link
  | .purgedLeaf _ => []
  | .purgedBranch _ => []
def PTree.blocksL (E : Env T V) (σ : E.σ) : List (PTree T V) → List Bytes
  | [] => []
  | c :: cs => PTree.blocks E σ c ++ PTree.blocksL E σ cs
end

end Banyan
