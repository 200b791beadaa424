import Verif.Spec.History
/-
The tree of a builder.
-/
set_option autoImplicit false
namespace Banyan

variable {T : TreeTypes} {V : Type} {E : Env T V}

/-- The tree of the builder, with everything loaded. -/
structure Loaded (cx : Ctx E) (s : St E) (t : Option (PTree T V)) : Prop where
  root : s.root = t.map PTree.index
  stored : ∀ t', t = some t' → Stored E cx.sec s.store t'
  wf : ∀ t', t = some t' → WF E t'

end Banyan
