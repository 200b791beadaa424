import Verif.Spec.Frame
import Verif.Spec.Purge
/-
What a user can observe of a builder and of its snapshots.
-/
set_option autoImplicit false
namespace Banyan

variable {T : TreeTypes} {V : Type} {E : Env T V}

/-- The assumptions about the external components, the sequence types and the configuration. -/
structure Ctx.Ok (cx : Ctx E) : Prop where
  env : E.Lawful
  types : T.Lawful
  cfg : cx.cfg.Valid

/-- The level of a snapshot. -/
def Tree.level (t : Tree E) : Nat := rootLevel (t.map fun x => x.1)

/-- Reading the snapshot `t` with `op` in state `s` yields `a`: it succeeds, whatever recursion bound above the level of
the tree is used. -/
def Yields {α : Type} (op : Nat → Tree E → M E α) (t : Tree E) (s : St E) (a : α) : Prop :=
  ∀ fuel, t.level < fuel → ∃ s', op fuel t s = .ok a s'

/-- Reading back the whole tree of the builder yields `c`; purged elements are `none`. -/
def Contains (cx : Ctx E) (s : St E) (c : List (Option (T.Key × V))) : Prop :=
  Yields Tree.collect (snapshot cx s) s c

/-- The tree of the builder reports that it is packed. -/
def ReportsPacked (cx : Ctx E) (s : St E) : Prop := Yields Tree.isPacked (snapshot cx s) s true

end Banyan
