import Verif.Spec.Observe
/-
How many elements a sealed node has at least.
-/
set_option autoImplicit false
namespace Banyan

/-- The least number of elements of a sealed node of the given level: a sealed branch has as many children as the
configuration allows, all of them sealed and directly below it, and a leaf has at least one element. -/
def Config.leastCount (cfg : Config) : Nat → Nat
  | 0 => 1
  | 1 => cfg.maxKeyBranches
  | level + 2 => cfg.maxSummaryBranches * cfg.leastCount (level + 1)

end Banyan
