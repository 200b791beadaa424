import Verif.Spec.Tree
import Verif.Spec.Errors
/-
How operations may change the world.
-/
namespace Banyan

variable {T : TreeTypes} {V : Type}

/-- Everything that can be read from `a` can be read from `b`. -/
def StoreLe (E : Env T V) (a b : E.σ) : Prop := ∀ l x, E.get a l = .ok x → E.get b l = .ok x

/-- The blocks use consecutive disjoint parts of the key stream between `lo` and `hi`: each block is an envelope with a
start offset and a payload; it starts at or after the end of the block before it. -/
def Chain (E : Env T V) : Nat → List Bytes → Nat → Prop
  | lo, [], hi => lo ≤ hi
  | lo, b :: bs, hi => ∃ o links d, b = E.encNode (o, links, d) ∧ lo ≤ o ∧ Chain E (o + d.length) bs hi

/-- What is in the cache of `s'` was in the cache of `s`, or was read with the key. -/
def CacheAdds (E : Env T V) (sec : Secrets E) (s s' : St E) : Prop :=
  ∀ l b, (E.cacheGet s'.cache l).1 = some b → (E.cacheGet s.cache l).1 = some b ∨ loadBranchFromLink E sec s'.store l = .ok b

/-- `s'` is a possible successor of `s` within an operation: the store only grows, only what was read is added to the branch cache, the
root of the builder is not touched, all blocks written use fresh parts of the key stream. -/
structure Ext {E : Env T V} (cx : Ctx E) (s s' : St E) : Prop where
  store : StoreLe E s.store s'.store
  cache : CacheAdds E cx.sec s s'
  root : s'.root = s.root
  puts : ∃ new, s'.puts = s.puts ++ new ∧ Chain E s.offset new s'.offset
  written : ∃ new, s'.written = s.written ++ new

/-- The state in which a computation ends, successfully or not. -/
def endState {E : Env T V} {α : Type} (m : M E α) (s : St E) : St E :=
  match m s with
  | .ok _ s' => s'
  | .error _ s' => s'

end Banyan
