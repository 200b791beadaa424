import Verif.Spec.WProg
/-
Threads working at the same time: any interleaving of their accesses to the store and the branch cache.
-/
set_option autoImplicit false
namespace Banyan

variable {T : TreeTypes} {V : Type} {E : Env T V} {α : Type} {ι : Type}

/-- Where a thread is in its program. Loading a branch through the cache consists of three accesses: the lookup (`read.rs:413`), the load
from the store (`read.rs:415`), and the insertion (`read.rs:418`). `loading` is after the lookup was in vain, `loaded` is before the
insertion. -/
inductive Phase (T : TreeTypes) (α : Type)
  | running (p : WProg T α)
  | loading (l : T.Link) (k : Branch T → WProg T α)
  | loaded (l : T.Link) (b : Branch T) (k : Branch T → WProg T α)
  | done (r : Except Err α)

/-- One step of a thread: at most one access to what is shared. -/
inductive Phase.Step (sec : Secrets E) : Phase T α → St E → Phase T α → St E → Prop
  | ret (a : α) (s : St E) : Step sec (.running (.ret a)) s (.done (.ok a)) s
  | stop (e : Err) (s : St E) : Step sec (.running (.stop e)) s (.done (.error e)) s
  | hit {s : St E} {l : T.Link} {k : Branch T → WProg T α} (b : Branch T) : (E.cacheGet s.cache l).1 = some b →
      Step sec (.running (.branch l k)) s (.running (k b)) { s with cache := (E.cacheGet s.cache l).2 }
  | miss {s : St E} {l : T.Link} {k : Branch T → WProg T α} : (E.cacheGet s.cache l).1 = none →
      Step sec (.running (.branch l k)) s (.loading l k) { s with cache := (E.cacheGet s.cache l).2 }
  | load {s : St E} {l : T.Link} {k : Branch T → WProg T α} (b : Branch T) : loadBranchFromLink E sec s.store l = .ok b →
      Step sec (.loading l k) s (.loaded l b k) s
  | noLoad {s : St E} {l : T.Link} {k : Branch T → WProg T α} (e : Err) : loadBranchFromLink E sec s.store l = .error e →
      Step sec (.loading l k) s (.done (.error e)) s
  | insert (s : St E) (l : T.Link) (b : Branch T) (k : Branch T → WProg T α) :
      Step sec (.loaded l b k) s (.running (k b)) { s with cache := E.cachePut s.cache l b }
  | read {s : St E} {l : T.Link} {k : Branch T → WProg T α} (b : Branch T) : loadBranchFromLink E sec s.store l = .ok b →
      Step sec (.running (.read l k)) s (.running (k b)) s
  | noRead {s : St E} {l : T.Link} {k : Branch T → WProg T α} (e : Err) : loadBranchFromLink E sec s.store l = .error e →
      Step sec (.running (.read l k)) s (.done (.error e)) s
  | leaf {s : St E} {l : T.Link} {k : Leaf → WProg T α} (b : Leaf) : loadLeafFromLink E sec s.store l = .ok b →
      Step sec (.running (.leaf l k)) s (.running (k b)) s
  | noLeaf {s : St E} {l : T.Link} {k : Leaf → WProg T α} (e : Err) : loadLeafFromLink E sec s.store l = .error e →
      Step sec (.running (.leaf l k)) s (.done (.error e)) s
  | put {s : St E} {d : Bytes} {σ : E.σ} {k : T.Link → WProg T α} (l : T.Link) : E.put s.store d = (.ok l, σ) →
      Step sec (.running (.put d k)) s (.running (k l)) { s with store := σ, puts := s.puts ++ [d] }
  | noPut {s : St E} {d : Bytes} {σ : E.σ} {k : T.Link → WProg T α} (m : String) : E.put s.store d = (.error m, σ) →
      Step sec (.running (.put d k)) s (.done (.error (.fail m))) { s with store := σ, puts := s.puts ++ [d] }
  | reserve {s : St E} {n : Nat} {k : Nat → WProg T α} : s.offset + n < 2 ^ 64 →
      Step sec (.running (.reserve n k)) s (.running (k s.offset)) { s with offset := s.offset + n }
  | noReserve {s : St E} {n : Nat} {k : Nat → WProg T α} : ¬s.offset + n < 2 ^ 64 →
      Step sec (.running (.reserve n k)) s (.done (.error .offsets)) s
  | log (s : St E) (items : List (Index T)) (k : WProg T α) :
      Step sec (.running (.log items k)) s (.running k) { s with written := s.written ++ [items] }
  | getIndex (s : St E) (k : Option (Index T) → WProg T α) : Step sec (.running (.getIndex k)) s (.running (k s.root)) s
  | setIndex (s : St E) (i : Option (Index T)) (k : WProg T α) :
      Step sec (.running (.setIndex i k)) s (.running k) { s with root := i }

/-- Threads that share a store and a branch cache. The state of each thread holds what belongs to it alone (the cipher offset, the root,
the ghost logs); the store and the cache in it are those it saw last. -/
structure Pool (E : Env T V) (α : ι → Type) where
  world : World E
  threads : ∀ i, Phase T (α i) × St E

/-- The state of one thread of a pool, with the store and the cache as they are now. -/
def Pool.state {α : ι → Type} (a : Pool E α) (i : ι) : St E := (a.threads i).2.within a.world

/-- Some thread makes a step, or something is evicted from the cache. -/
inductive Pool.Step {α : ι → Type} (sec : ι → Secrets E) : Pool E α → Pool E α → Prop
  | thread {a b : Pool E α} (i : ι) : Phase.Step (sec i) (a.threads i).1 (a.state i) (b.threads i).1 (b.threads i).2 →
      b.world = (b.threads i).2.world → (∀ j, j ≠ i → b.threads j = a.threads j) → Step sec a b
  | evict {a b : Pool E α} : (∀ l x, (E.cacheGet b.world.2 l).1 = some x → (E.cacheGet a.world.2 l).1 = some x) → b.world.1 = a.world.1 →
      b.threads = a.threads → Step sec a b

/-- Any number of steps, in any order. -/
inductive Pool.Steps {α : ι → Type} (sec : ι → Secrets E) : Pool E α → Pool E α → Prop
  | refl (a : Pool E α) : Steps sec a a
  | step {a b c : Pool E α} : Pool.Step sec a b → Steps sec b c → Steps sec a c

end Banyan
