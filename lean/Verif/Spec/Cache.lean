import Verif.Spec.Frame
/-
What it means that the branch cache does not influence an operation.
-/
set_option autoImplicit false
namespace Banyan

variable {T : TreeTypes} {V : Type} {E : Env T V}

/-- Two states that differ only in the content of the branch cache; both caches agree with the store. -/
structure SameButCache (sec : Secrets E) (s s' : St E) : Prop where
  left : Exact E sec s
  right : Exact E sec s'
  store : s'.store = s.store
  offset : s'.offset = s.offset
  root : s'.root = s.root
  puts : s'.puts = s.puts
  written : s'.written = s.written

/-- The same outcome, up to the branch cache. -/
def SameOutcome {α : Type} (sec : Secrets E) : EStateM.Result Err (St E) α → EStateM.Result Err (St E) α → Prop
  | .ok a s, .ok a' s' => a' = a ∧ SameButCache sec s s'
  | .error e s, .error e' s' => e' = e ∧ SameButCache sec s s'
  | _, _ => False

/-- The operation does not depend on the branch cache, and takes nothing away from the store. -/
def CacheIndependent {α : Type} (sec : Secrets E) (m : M E α) : Prop :=
  ∀ s s', SameButCache sec s s' → SameOutcome sec (m s) (m s') ∧ StoreLe E s.store (endState m s).store

end Banyan
