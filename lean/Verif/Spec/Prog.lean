import Verif.Model.Prog
import Verif.Spec.Iter
/-
Threads that share the store and the branch cache of a forest, at the granularity of single accesses.
-/
set_option autoImplicit false
namespace Banyan

variable {T : TreeTypes} {V : Type} {E : Env T V} {X : Type} {α : Type}

/-- One access of another thread to the store or the cache: it puts a block, looks up a branch, or inserts a branch it has read before.
What is inserted must not contradict what the reader (with the secrets `sec`) would read; this is so for users with the same index key
(`Access.same_key`), and for users with other keys if the blocks are `Separate`. Lookups in the store change nothing. -/
inductive Access (sec : Secrets E) : St E → St E → Prop
  | put (s : St E) (data : Bytes) : Access sec s { s with store := (E.put s.store data).2 }
  | lookup (s : St E) (l : T.Link) : Access sec s { s with cache := (E.cacheGet s.cache l).2 }
  | insert (s : St E) (l : T.Link) (b : Branch T) : (∃ d, E.get s.store l = .ok d) →
      (∀ b', loadBranchFromLink E sec s.store l = .ok b' → b' = b) → Access sec s { s with cache := E.cachePut s.cache l b }

/-- Any number of accesses of other threads. -/
inductive Meanwhile (sec : Secrets E) : St E → St E → Prop
  | refl (s : St E) : Meanwhile sec s s
  | step {a b c : St E} : Meanwhile sec a b → Access sec b c → Meanwhile sec a c

/-- `Prog.Runs sec p s r s'`: the program, executed by one thread while others do what they want between any two of its accesses, can
bring `s` to `s'` with the result `r`. Loading a branch through the cache consists of three accesses: the lookup (`read.rs:413`), the load
from the store (`read.rs:415`), and the insertion (`read.rs:418`). -/
inductive Prog.Runs (sec : Secrets E) : Prog T α → St E → Except Err α → St E → Prop
  | ret {s s' : St E} (a : α) : Meanwhile sec s s' → Runs sec (.ret a) s (.ok a) s'
  | stop {s s' : St E} (e : Err) : Meanwhile sec s s' → Runs sec (.stop e) s (.error e) s'
  | hit {s s₁ s' : St E} {l : T.Link} {k : Branch T → Prog T α} {r : Except Err α} (b : Branch T) : Meanwhile sec s s₁ →
      (E.cacheGet s₁.cache l).1 = some b → Runs sec (k b) { s₁ with cache := (E.cacheGet s₁.cache l).2 } r s' → Runs sec (.branch l k) s r s'
  | miss {s s₁ s₂ s₃ s' : St E} {l : T.Link} {k : Branch T → Prog T α} {r : Except Err α} (b : Branch T) : Meanwhile sec s s₁ →
      (E.cacheGet s₁.cache l).1 = none → Meanwhile sec { s₁ with cache := (E.cacheGet s₁.cache l).2 } s₂ →
      loadBranchFromLink E sec s₂.store l = .ok b → Meanwhile sec s₂ s₃ →
      Runs sec (k b) { s₃ with cache := E.cachePut s₃.cache l b } r s' → Runs sec (.branch l k) s r s'
  | missing {s s₁ s₂ s' : St E} {l : T.Link} {k : Branch T → Prog T α} (e : Err) : Meanwhile sec s s₁ →
      (E.cacheGet s₁.cache l).1 = none → Meanwhile sec { s₁ with cache := (E.cacheGet s₁.cache l).2 } s₂ →
      loadBranchFromLink E sec s₂.store l = .error e → Meanwhile sec s₂ s' → Runs sec (.branch l k) s (.error e) s'
  | leaf {s s₁ s' : St E} {l : T.Link} {k : Leaf → Prog T α} {r : Except Err α} (b : Leaf) : Meanwhile sec s s₁ →
      loadLeafFromLink E sec s₁.store l = .ok b → Runs sec (k b) s₁ r s' → Runs sec (.leaf l k) s r s'
  | noLeaf {s s₁ s' : St E} {l : T.Link} {k : Leaf → Prog T α} (e : Err) : Meanwhile sec s s₁ →
      loadLeafFromLink E sec s₁.store l = .error e → Meanwhile sec s₁ s' → Runs sec (.leaf l k) s (.error e) s'

/-- `Consumes sec next n i s items`: a consumer that makes up to `n` calls of `next` on the iterator `i`, while other threads do what they
want during and between the calls, can get these items. An error is delivered as an item and empties the iterator (`read.rs:335-345`); a
panic ends everything. -/
inductive Consumes (sec : Secrets E) (next : IterState T → Prog T (Option (Chunk T V X) × IterState T)) :
    Nat → IterState T → St E → List (Except Err (Chunk T V X)) → Prop
  | enough (i : IterState T) (s : St E) : Consumes sec next 0 i s []
  | done {n : Nat} {i i' : IterState T} {s s' : St E} : (next i).Runs sec s (.ok (none, i')) s' → Consumes sec next (n + 1) i s []
  | item {n : Nat} {i i' : IterState T} {s s' : St E} {a : Chunk T V X} {items : List (Except Err (Chunk T V X))} :
      (next i).Runs sec s (.ok (some a, i')) s' → Consumes sec next n i' s' items → Consumes sec next (n + 1) i s (.ok a :: items)
  | error {n : Nat} {i : IterState T} {s s' : St E} {msg : String} {items : List (Except Err (Chunk T V X))} :
      (next i).Runs sec s (.error (.fail msg)) s' → Consumes sec next n { i with stack := [] } s' items →
      Consumes sec next (n + 1) i s (.error (.fail msg) :: items)
  | panic {n : Nat} {i : IterState T} {s s' : St E} {e : Err} : (∀ msg, e ≠ .fail msg) → (next i).Runs sec s (.error e) s' →
      Consumes sec next (n + 1) i s [.error e]

/-- The result of a program that reads from the store only. -/
def Prog.plain (sec : Secrets E) (σ : E.σ) : Prog T α → Except Err α
  | .ret a => .ok a
  | .stop e => .error e
  | .branch l k =>
    match loadBranchFromLink E sec σ l with
    | .ok b => (k b).plain sec σ
    | .error e => .error e
  | .leaf l k =>
    match loadLeafFromLink E sec σ l with
    | .ok b => (k b).plain sec σ
    | .error e => .error e

end Banyan
