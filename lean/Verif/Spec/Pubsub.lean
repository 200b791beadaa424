import Verif.Spec.Stream
import Verif.Spec.History
import Verif.Model.Pubsub
/-
Sending and receiving trees by links.
-/
set_option autoImplicit false
namespace Banyan

variable {T : TreeTypes} {V : Type} {E : Env T V}

/-- The sender has sent the elements `xs`, one in each turn. Each published link is recorded together with the state of the
sender at that time. Between the turns other blocks may be added to the store, and the cache may change. -/
inductive Sends (cx : Ctx E) : St E → List (T.Key × V) → List (T.Link × St E) → St E → Prop
  | done (s : St E) : Sends cx s [] [] s
  | tick {s s1 s' : St E} {l : Option T.Link} {xs : List (T.Key × V)} {sent : List (T.Link × St E)} (fuel : Nat) (x : T.Key × V) :
      rootLevel s.root + 4 ≤ fuel → rootCount s.root + 1 ≤ maxElements → sendTick cx fuel x s = .ok l s1 →
      Sends cx s1 xs sent s' → Sends cx s (x :: xs) ((l.map fun l => (l, s1)).toList ++ sent) s'
  | world {s s' : St E} {xs : List (T.Key × V)} {sent : List (T.Link × St E)} (σ : E.σ) (γ : E.γ) : StoreLe E s.store σ →
      Coherent E cx.sec { s with store := σ, cache := γ } → Sends cx { s with store := σ, cache := γ } xs sent s' → Sends cx s xs sent s'

/-- A link that has arrived: it is one of the published links, of a state `s` of the sender. The blocks of that state are there when
the link is loaded, and when the tree is read. -/
structure Received (cx : Ctx E) (lo hi : E.σ) (sent : List (T.Link × St E)) (a : St E × (Nat → St E → St E) × T.Link) (s : St E) : Prop where
  sent : (a.2.2, s) ∈ sent
  load : StoreLe E s.store a.1.store
  within : StoreLe E a.1.store hi
  read : Provides cx.sec lo hi s.store a.2.1

/-- A link that has arrived, where any block may be missing at any time. -/
structure ReceivedFaulty (cx : Ctx E) (σ : E.σ) (sent : List (T.Link × St E)) (a : St E × (Nat → St E → St E) × T.Link) (s : St E) : Prop where
  sent : (a.2.2, s) ∈ sent
  store : StoreLe E s.store σ
  load : StoreLe E a.1.store σ
  read : Tolerable cx.sec σ a.2.1

/-- The block with this link is not the block of a branch: a tree cannot be loaded from it, with the blocks of `σ` or with less. -/
def NotATree (sec : Secrets E) (σ : E.σ) (l : T.Link) : Prop :=
  ∀ w : St E, StoreLe E w.store σ → ∃ msg, loadTree sec l w = .error (.fail msg) w

/-- The root is a branch. -/
def IsTree (s : St E) : Prop := 0 < rootLevel s.root

instance (s : St E) : Decidable (IsTree s) := inferInstanceAs (Decidable (0 < rootLevel s.root))

/-- The elements of a content, with their offsets. -/
def withOffsets (xs : List (T.Key × V)) : List (Nat × T.Key × V) := xs.zipIdx.map fun (x, o) => (o, x.1, x.2)

end Banyan
