import Verif.Model.Channel
import Verif.Spec.Stream
/-
Executions of threaded streams.
-/
set_option autoImplicit false
namespace Banyan

variable {T : TreeTypes} {V : Type} {E : Env T V} {X : Type}

/-- The turns can be taken in this order. `W tree s`: the state of the world in which the background task for `tree` is active. -/
inductive Exec (P : ThreadedParams T X) (W : Index T × Secrets E × Nat → St E → Prop) : Threaded E X → List (Actor E) → Threaded E X → Prop
  | nil (S) : Exec P W S [] S
  | snoc {S S' S''} {as : List (Actor E)} (a) : Exec P W S as S' → (a = .worker → ∀ p, S'.pipe = some p → W p.tree S'.world) →
      S'.step P a = some S'' → Exec P W S (as ++ [a]) S''

/-- A turn of the background task or of the consumer. -/
def Actor.isTurn : Actor E → Bool
  | .world _ => false
  | _ => true

/-- The blocks of the tree are available in this state of the world: `lo` and `hi` bound what is in the store, and the store has the blocks of
every snapshot that is this tree. -/
def Undisturbed (cx : Ctx E) (lo hi : E.σ) (snaps : List (St E)) (tree : Index T × Secrets E × Nat) (w : St E) : Prop :=
  Between cx.sec lo hi w ∧ ∀ s ∈ snaps, snapshot cx s = some tree → StoreLe E s.store w.store

end Banyan
