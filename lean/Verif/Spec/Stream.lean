import Verif.Spec.Damage
import Verif.Model.Stream
/-
What streams are expected to deliver.
-/
set_option autoImplicit false
namespace Banyan

variable {T : TreeTypes} {V : Type} {E : Env T V}

/-- The blocks in the store are among those of `hi`, those of `lo` are all there, and the caches are correct. -/
structure Between (sec : Secrets E) (lo hi : E.σ) (s : St E) : Prop where
  lo : StoreLe E lo s.store
  hi : StoreLe E s.store hi
  coherent : Coherent E sec s

/-- Whatever happens before a call of `next`, the blocks of the store `σ` are there. -/
def Provides (sec : Secrets E) (lo hi σ : E.σ) (world : Nat → St E → St E) : Prop :=
  ∀ n s, Between sec lo hi s → Between sec lo hi (world n s) ∧ StoreLe E σ (world n s).store

/-- The ways to get at the tree of a builder in state `s`: its snapshot, or loading it by the link of its root, from any store
the blocks of which do not contradict those of the builder (the root has to be a branch, see `C26_refuted`). -/
def Published (cx : Ctx E) (s : St E) (t : Tree E) : Prop :=
  t = snapshot cx s ∨ ∃ i l w σ, s.root = some (.branch i) ∧ i.link = some l ∧ StoreLe E s.store σ ∧ StoreLe E w.store σ ∧
    loadTree cx.sec l w = .ok t w

/-- A tree that is the tree of a builder (in state `s`) with content `c` comes out of the input stream. The numbers bound
the turns of the loop in a call of `next` and the calls of `next`. -/
structure Feed (cx : Ctx E) (fuel n : Nat) (a : Arrival E) (c : List (Option (T.Key × V))) (s : St E) : Prop where
  reach : Reach cx s
  small : Small E s
  contains : Contains cx s c
  tree : Published cx s a.2
  fuel : 2 * rootLevel s.root + 4 ≤ fuel
  calls : c.length < n

/-- Corresponding elements of two lists are related. -/
def Each {α β : Type} (P : α → β → Prop) : List α → List β → Prop
  | [], [] => True
  | a :: as, b :: bs => P a b ∧ Each P as bs
  | _, _ => False

/-- The blocks of the tree can be read when they are needed. -/
def Fed (cx : Ctx E) (fuel n : Nat) (lo hi : E.σ) (a : Arrival E) (c : List (Option (T.Key × V))) : Prop :=
  ∃ s, Feed cx fuel n a c s ∧ Provides cx.sec lo hi s.store a.1

/-- The blocks of the tree are blocks of the store `σ`, but reading may fail. -/
def FedFaulty (cx : Ctx E) (fuel n : Nat) (σ : E.σ) (a : Arrival E) (c : List (Option (T.Key × V))) : Prop :=
  ∃ s, Feed cx fuel n a c s ∧ StoreLe E s.store σ ∧ Tolerable cx.sec σ a.1

/-- The elements with an offset from `start` to `stop` that satisfy `m`. -/
def inRange (m : Nat → T.Key → Bool) (start stop : Nat) : Nat → T.Key → Bool :=
  fun o k => decide (start ≤ o ∧ o ≤ stop) && m o k

/-- The elements which are in the contents: from each content those that are behind all previous contents. -/
def news (m : Nat → T.Key → Bool) (stop : Nat) : List (List (Option (T.Key × V))) → Nat → List (Nat × T.Key × V)
  | [], _ => []
  | c :: cs, start => matching (inRange m start stop) 0 c ++ if stop < c.length then [] else news m stop cs (max start c.length)

/-- What a reverse stream delivers if reading fails part way: from each content `c` the elements from some offset `x` up to
the current end (which is included); the end for the next content is `x`, unless nothing has been read. -/
def Runs {X : Type} (m : Nat → T.Key → Bool) (start : Nat) : List (List (Option (T.Key × V))) → Nat → List (Chunk T V X) → Prop
  | [], _, l => l = []
  | c :: cs, stop, l => ∃ run rest x, l = run ++ rest ∧
      run.reverse.flatMap Chunk.data = matching (fun o k => decide (x ≤ o) && inRange m start stop o k) 0 c ∧
      ((run ≠ [] ∧ x ≤ start ∧ rest = []) ∨ (run ≠ [] ∧ start < x ∧ Runs m start cs (min stop x) rest) ∨ (run = [] ∧ Runs m start cs stop rest))

end Banyan
