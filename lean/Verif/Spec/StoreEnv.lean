import Verif.Spec.Laws
import Verif.Spec.Stores
/-
An environment with another block store.
-/
set_option autoImplicit false
namespace Banyan

variable {T : TreeTypes} {V : Type}

/-- The environment with another block store, for the states with an invariant. -/
def Env.withStore (E : Env T V) (I : BlockStore T.Link) (Inv : I.σ → Prop) (keep : ∀ s d, Inv s → Inv (I.put s d).2) :
    Env T V :=
  { E with
    σ := { s : I.σ // Inv s }
    get := fun s l => I.get s.1 l
    put := fun s d => ((I.put s.1 d).1, ⟨(I.put s.1 d).2, keep s.1 d s.2⟩) }

end Banyan
