import Verif.Spec.Stream
/-
What is expected of the dump of a tree, and what can happen after a snapshot has been taken.
-/
set_option autoImplicit false
namespace Banyan

open PTree

variable {T : TreeTypes} {V : Type} {E : Env T V}

/-- If the nodes of a tree are numbered in pre-order, starting with 0, the node with the second number is a child of the node with the
first number. -/
inductive Edge : PTree T V → Nat → Nat → Prop
  | child (i : BranchIndex T) (pre : List (PTree T V)) (c : PTree T V) (post : List (PTree T V)) :
      Edge (.branch i (pre ++ c :: post)) 0 (1 + (nodesL pre).length)
  | deeper (i : BranchIndex T) (pre : List (PTree T V)) (c : PTree T V) (post : List (PTree T V)) {a b : Nat} : Edge c a b →
      Edge (.branch i (pre ++ c :: post)) (1 + (nodesL pre).length + a) (1 + (nodesL pre).length + b)

/-- What can happen to the world after a snapshot has been taken: any operations, successful or not, of this builder or of any others
using the same secrets and branch cache (but maybe another configuration), reading of whatever trees, and blocks being added by others. -/
inductive Later (sec : Secrets E) (a : St E) : St E → Prop
  | refl : Later sec a a
  | builder {s : St E} (root : Option (Index T)) (offset : Nat) : Later sec a s → Later sec a { s with root := root, offset := offset }
  | extend {s : St E} (cfg : Config) (fuel : Nat) (xs : List (T.Key × V)) : Later sec a s → Later sec a (endState (extend ⟨cfg, sec⟩ fuel xs) s)
  | extendUnpacked {s : St E} (cfg : Config) (fuel : Nat) (xs : List (T.Key × V)) : Later sec a s →
      Later sec a (endState (extendUnpacked ⟨cfg, sec⟩ fuel xs) s)
  | pack {s : St E} (cfg : Config) (fuel : Nat) : Later sec a s → Later sec a (endState (pack ⟨cfg, sec⟩ fuel) s)
  | retain {s : St E} (cfg : Config) (fuel : Nat) (q : Query T) : Later sec a s → Later sec a (endState (retain ⟨cfg, sec⟩ fuel q) s)
  | repair {s : St E} (cfg : Config) (fuel : Nat) : Later sec a s → Later sec a (endState (repair ⟨cfg, sec⟩ fuel) s)
  | load {s : St E} (cfg : Config) (l : T.Link) : Later sec a s → Later sec a (endState (loadStreamBuilder ⟨cfg, sec⟩ l) s)
  | read {s : St E} (fuel n : Nat) (i : Index T) (o : Nat) : Later sec a s →
      Later sec a (endState (Tree.collectFrom fuel (some (i, sec, o)) n) s)
  | world {s : St E} (σ : E.σ) (γ : E.γ) : Later sec a s → StoreLe E s.store σ →
      Coherent E sec { s with store := σ, cache := γ } → Later sec a { s with store := σ, cache := γ }

/-- The read operation has the same result in both states. -/
def SameResult {α : Type} (op : Nat → Tree E → M E α) (t : Tree E) (s s' : St E) : Prop := ∃ a, Yields op t s a ∧ Yields op t s' a

end Banyan
