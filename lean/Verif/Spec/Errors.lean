import Verif.Spec.Laws
/-
The errors an operation may end with if nothing is wrong with the tree.
-/
namespace Banyan

variable {T : TreeTypes} {V : Type}

/-- Errors with a cause outside of the tree: the cipher offset is exhausted, the store refuses a block, a value or
index contains something that looks like a link but is not a valid one, or one of the given values does not fit into a
leaf on its own. In particular no panic and no endless recursion. -/
inductive Allowed (E : Env T V) (cfg : Config) (vals : V → Prop) : Err → Prop
  | offsets : Allowed E cfg vals .offsets
  | put (s d m) : (E.put s d).1 = .error m → Allowed E cfg vals (.fail m)
  | scrapeVal (v m) : E.itemLinks (E.encV v) = .error m → Allowed E cfg vals (.fail m)
  | scrapeIdx (i m) : E.itemLinks (E.encIdx i) = .error m → Allowed E cfg vals (.fail m)
  | tooLarge (v m) : vals v → cfg.maxUncompressedLeafSize < (E.encV v).length → Allowed E cfg vals (.fail m)

end Banyan
