import Verif.Spec.Iter
/-
Damaged stores.
-/
set_option autoImplicit false
namespace Banyan

variable {T : TreeTypes} {V : Type} {E : Env T V}

/-- In the state `s`, some of the blocks of the store `σ` may be unavailable (lost, or detected as damaged by the store:
blocks are content addressed), but no block is different. Branches may still be cached. -/
structure Faulty (sec : Secrets E) (σ : E.σ) (s : St E) : Prop where
  store : ∀ l b, E.get s.store l = .ok b → E.get σ l = .ok b
  cache : Coherent E sec { s with store := σ }

/-- What happens between two calls of `next` may make more blocks unavailable, or some of them available again. -/
def Tolerable (sec : Secrets E) (σ : E.σ) (between : Nat → St E → St E) : Prop :=
  ∀ n s, Faulty sec σ s → Faulty sec σ (between n s)

/-- The operation yields `a` or fails with an error. -/
def YieldsOrFails {α : Type} (op : Nat → Tree E → M E α) (t : Tree E) (s : St E) (a : α) : Prop :=
  ∀ fuel, t.level < fuel → (∃ s', op fuel t s = .ok a s') ∨ ∃ msg s', op fuel t s = .error (.fail msg) s'

end Banyan
