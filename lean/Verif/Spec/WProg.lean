import Verif.Model.WProg
import Verif.Spec.Frame
/-
Builders at work while other threads use the store and the branch cache of the same forest.
-/
set_option autoImplicit false
namespace Banyan

variable {T : TreeTypes} {V : Type} {E : Env T V} {α : Type}

/-- What the threads share: the store and the branch cache. Root and cipher offset belong to one builder. -/
abbrev World (E : Env T V) := E.σ × E.γ

def St.world (s : St E) : World E := (s.store, s.cache)
def St.within (s : St E) (w : World E) : St E := { s with store := w.1, cache := w.2 }

/-- One access of another thread that has the same index key (or does not use the cache): it puts a block, looks up a branch, inserts
a branch it has read, or something is evicted from the cache. Lookups in the store change nothing. -/
inductive Peer (sec : Secrets E) : World E → World E → Prop
  | put (w : World E) (data : Bytes) : Peer sec w ((E.put w.1 data).2, w.2)
  | lookup (w : World E) (l : T.Link) : Peer sec w (w.1, (E.cacheGet w.2 l).2)
  | insert (w : World E) (l : T.Link) (b : Branch T) : loadBranchFromLink E sec w.1 l = .ok b → Peer sec w (w.1, E.cachePut w.2 l b)
  | evict (w : World E) (γ : E.γ) : (∀ l b, (E.cacheGet γ l).1 = some b → (E.cacheGet w.2 l).1 = some b) → Peer sec w (w.1, γ)

/-- Any number of accesses of other threads. -/
inductive Peers (sec : Secrets E) : World E → World E → Prop
  | refl (w : World E) : Peers sec w w
  | step {a b c : World E} : Peers sec a b → Peer sec b c → Peers sec a c

/-- `WProg.Runs sec p s r s'`: the program, executed by one thread while others do what they want between any two of its accesses, can
bring `s` to `s'` with the result `r`. Loading a branch through the cache consists of three accesses: the lookup (`read.rs:413`), the load
from the store (`read.rs:415`), and the insertion (`read.rs:418`). -/
inductive WProg.Runs (sec : Secrets E) : WProg T α → St E → Except Err α → St E → Prop
  | others {p : WProg T α} {s s' : St E} {w : World E} {r : Except Err α} : Peer sec s.world w → Runs sec p (s.within w) r s' → Runs sec p s r s'
  | ret (a : α) (s : St E) : Runs sec (.ret a) s (.ok a) s
  | stop (e : Err) (s : St E) : Runs sec (.stop e) s (.error e) s
  | hit {s s' : St E} {l : T.Link} {k : Branch T → WProg T α} {r : Except Err α} (b : Branch T) : (E.cacheGet s.cache l).1 = some b →
      Runs sec (k b) { s with cache := (E.cacheGet s.cache l).2 } r s' → Runs sec (.branch l k) s r s'
  | miss {s s' : St E} {w w' : World E} {l : T.Link} {k : Branch T → WProg T α} {r : Except Err α} (b : Branch T) :
      (E.cacheGet s.cache l).1 = none → Peers sec (s.store, (E.cacheGet s.cache l).2) w → loadBranchFromLink E sec w.1 l = .ok b →
      Peers sec w w' → Runs sec (k b) (s.within (w'.1, E.cachePut w'.2 l b)) r s' → Runs sec (.branch l k) s r s'
  | missing {s : St E} {w : World E} {l : T.Link} {k : Branch T → WProg T α} (e : Err) :
      (E.cacheGet s.cache l).1 = none → Peers sec (s.store, (E.cacheGet s.cache l).2) w → loadBranchFromLink E sec w.1 l = .error e →
      Runs sec (.branch l k) s (.error e) (s.within w)
  | read {s s' : St E} {l : T.Link} {k : Branch T → WProg T α} {r : Except Err α} (b : Branch T) :
      loadBranchFromLink E sec s.store l = .ok b → Runs sec (k b) s r s' → Runs sec (.read l k) s r s'
  | noRead {s : St E} {l : T.Link} {k : Branch T → WProg T α} (e : Err) :
      loadBranchFromLink E sec s.store l = .error e → Runs sec (.read l k) s (.error e) s
  | leaf {s s' : St E} {l : T.Link} {k : Leaf → WProg T α} {r : Except Err α} (b : Leaf) :
      loadLeafFromLink E sec s.store l = .ok b → Runs sec (k b) s r s' → Runs sec (.leaf l k) s r s'
  | noLeaf {s : St E} {l : T.Link} {k : Leaf → WProg T α} (e : Err) :
      loadLeafFromLink E sec s.store l = .error e → Runs sec (.leaf l k) s (.error e) s
  | put {s s' : St E} {d : Bytes} {σ : E.σ} {k : T.Link → WProg T α} {r : Except Err α} (l : T.Link) : E.put s.store d = (.ok l, σ) →
      Runs sec (k l) { s with store := σ, puts := s.puts ++ [d] } r s' → Runs sec (.put d k) s r s'
  | noPut {s : St E} {d : Bytes} {σ : E.σ} {k : T.Link → WProg T α} (m : String) : E.put s.store d = (.error m, σ) →
      Runs sec (.put d k) s (.error (.fail m)) { s with store := σ, puts := s.puts ++ [d] }
  | reserve {s s' : St E} {n : Nat} {k : Nat → WProg T α} {r : Except Err α} : s.offset + n < 2 ^ 64 →
      Runs sec (k s.offset) { s with offset := s.offset + n } r s' → Runs sec (.reserve n k) s r s'
  | noReserve {s : St E} {n : Nat} {k : Nat → WProg T α} : ¬s.offset + n < 2 ^ 64 → Runs sec (.reserve n k) s (.error .offsets) s
  | log {s s' : St E} {items : List (Index T)} {k : WProg T α} {r : Except Err α} :
      Runs sec k { s with written := s.written ++ [items] } r s' → Runs sec (.log items k) s r s'
  | getIndex {s s' : St E} {k : Option (Index T) → WProg T α} {r : Except Err α} : Runs sec (k s.root) s r s' → Runs sec (.getIndex k) s r s'
  | setIndex {s s' : St E} {i : Option (Index T)} {k : WProg T α} {r : Except Err α} : Runs sec k { s with root := i } r s' →
      Runs sec (.setIndex i k) s r s'

end Banyan
