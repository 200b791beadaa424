import Verif.Spec.Tree
import Verif.Model.Dump
/-
What the dumps are expected to show.
-/
set_option autoImplicit false
namespace Banyan

variable {T : TreeTypes} {V : Type} {E : Env T V}

mutual
/-- One line for each node, a node before its children, indented by two blanks for each level of nesting. The numbers of elements and of
children are those of the tree. -/
def PTree.lines : PTree T V → Nat → List (Nat × NodeLine T.Link)
  | .leaf i vs, pre => [(pre, .leaf (PTree.leaf i vs).content.length i.valueBytes i.isSealed i.link)]
  | .branch i cs, pre => (pre, .branch (PTree.branch i cs).content.length i.keyBytes i.valueBytes i.isSealed i.link cs.length) :: PTree.linesL cs (pre + 2)
  | .purgedLeaf i, pre => [(pre, .purgedLeaf (PTree.purgedLeaf (V := V) i).content.length i.valueBytes i.isSealed)]
  | .purgedBranch i, pre => [(pre, .purgedBranch (PTree.purgedBranch (V := V) i).content.length i.keyBytes i.valueBytes i.isSealed)]
def PTree.linesL : List (PTree T V) → Nat → List (Nat × NodeLine T.Link)
  | [], _ => []
  | c :: cs, pre => PTree.lines c pre ++ PTree.linesL cs pre
end

/-- A node of a graph describes a node of the tree. -/
def Describes (n : Nat) (x : PTree T V) : NodeDescriptor → Prop
  | .branch level id isSealed => id = n ∧ (∃ i, x.index = .branch i ∧ i.level = level ∧ i.isSealed = isSealed)
  | .leaf id items bytes isSealed => id = n ∧ items = x.content.length ∧ (∃ i, x.index = .leaf i ∧ i.valueBytes = bytes ∧ i.isSealed = isSealed)

/-- How a node of the tree is drawn: leaves are circles with the number of elements, branches are boxes with their number, sealed nodes are
filled with grey. -/
structure DrawnAs (n : Nat) (x : PTree T V) (d : DotNode) : Prop where
  id : d.id = "N" ++ toString n
  leaf : ∀ i, x.index = .leaf i → d.shape = "circle" ∧ d.label = toString x.content.length
  branch : ∀ i, x.index = .branch i → d.shape = "box" ∧ d.label = toString n
  isSealed : x.index.isSealed = true → d.color = some "grey" ∧ d.filled = true
  unsealed : x.index.isSealed = false → d.color = none ∧ d.filled = false

/-- A list of fields in parentheses. -/
def fieldsText : List (String × String) → String
  | [] => ""
  | [(k, v)] => k ++ "=" ++ v
  | (k, v) :: rest => k ++ "=" ++ v ++ ", " ++ fieldsText rest

/-- The name of the kind of node and the fields of a line. For a purged leaf the number of bytes of the values has the name `key_bytes`. -/
def NodeLine.fields {L : Type} (showLink : L → String) : NodeLine L → String × List (String × String)
  | .leaf count vb isSealed link =>
    ("Leaf", [("count", toString count), ("value_bytes", toString vb), ("sealed", toString isSealed), ("link", (link.map showLink).getD "")])
  | .branch count kb vb isSealed link children =>
    ("Branch", [("count", toString count), ("key_bytes", toString kb), ("value_bytes", toString vb), ("sealed", toString isSealed),
      ("link", (link.map showLink).getD ""), ("children", toString children)])
  | .purgedBranch count kb vb isSealed =>
    ("PurgedBranch", [("count", toString count), ("key_bytes", toString kb), ("value_bytes", toString vb), ("sealed", toString isSealed)])
  | .purgedLeaf count vb isSealed => ("PurgedLeaf", [("count", toString count), ("key_bytes", toString vb), ("sealed", toString isSealed)])

/-- A value is printed as the given line by `dump_json`: whatever follows, it is decoded, and the result has this text. -/
def PrintsAs (P : Printers) (b : Bytes) (line : String) : Prop :=
  ∃ i, (∀ r, P.decIpld (b ++ r) = .ok (i, r)) ∧ P.json i = .ok line

end Banyan
