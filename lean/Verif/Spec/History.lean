import Verif.Spec.Repair
import Verif.Spec.WProg
/-
Executions: everything that can happen to a builder and the store below it.
-/
set_option autoImplicit false
namespace Banyan

variable {T : TreeTypes} {V : Type} {E : Env T V}

/-- Trees with more elements than this are not considered: levels are compared as `i32` in `read.rs:529-575` and
limited to `u32::max_value()` in `tree.rs:569`. The level of a tree is at most its number of elements plus one. -/
def maxElements : Nat := 2 ^ 31 - 3

/-- The writing operations of a builder, as programs, with the conditions under which they are considered. -/
inductive Job (cx : Ctx E) (s : St E) : WProg T Unit → Prop
  | extend (fuel : Nat) (xs : List (T.Key × V)) : rootLevel s.root < fuel → rootCount s.root + xs.length ≤ maxElements →
      Job cx s (WProg.extend cx fuel xs)
  | extendUnpacked (fuel : Nat) (xs : List (T.Key × V)) : rootLevel s.root < fuel → rootCount s.root + xs.length ≤ maxElements →
      Job cx s (WProg.extendUnpacked cx fuel xs)
  | pack (fuel : Nat) : rootLevel s.root < fuel → Job cx s (WProg.pack cx fuel)
  | retain (fuel : Nat) (q : Query T) : rootLevel s.root < fuel → Job cx s (WProg.retain cx fuel q)

/-- `Run cx a s`: the builder can come from state `a` to state `s`. The operations can be called in any order, with any
arguments, and can succeed or fail. `rollback` is an uncommitted transaction. `world` is whatever others do with the
store (only adding to it) and the shared cache. `threaded` is an operation during which other threads use the store and the branch
cache, between any two accesses of the builder; everything in the branch cache has been read with its key. `fuel` bounds the recursion
of the model. -/
inductive Run (cx : Ctx E) : St E → St E → Prop
  | refl (s : St E) : Run cx s s
  | extend {a s : St E} (fuel : Nat) (xs : List (T.Key × V)) : Run cx a s → rootLevel s.root < fuel →
      rootCount s.root + xs.length ≤ maxElements → Run cx a (endState (extend cx fuel xs) s)
  | extendUnpacked {a s : St E} (fuel : Nat) (xs : List (T.Key × V)) : Run cx a s → rootLevel s.root < fuel →
      rootCount s.root + xs.length ≤ maxElements → Run cx a (endState (extendUnpacked cx fuel xs) s)
  | pack {a s : St E} (fuel : Nat) : Run cx a s → rootLevel s.root < fuel → Run cx a (endState (pack cx fuel) s)
  | retain {a s : St E} (fuel : Nat) (q : Query T) : Run cx a s → rootLevel s.root < fuel →
      Run cx a (endState (retain cx fuel q) s)
  | rollback {a s s' : St E} : Run cx a s → Run cx s s' → Run cx a { s' with root := s.root }
  | world {a s : St E} (σ : E.σ) (γ : E.γ) : Run cx a s → StoreLe E s.store σ →
      Coherent E cx.sec { s with store := σ, cache := γ } → Run cx a { s with store := σ, cache := γ }
  | threaded {a s s' : St E} {p : WProg T Unit} {r : Except Err Unit} : Run cx a s → Exact E cx.sec s → Job cx s p →
      p.Runs cx.sec s r s' → Run cx a s'

/-- The store `σ` has the blocks of the tree of the builder; all other blocks may be missing or different. -/
def KeepsTree (sec : Secrets E) (s : St E) (σ : E.σ) : Prop :=
  ∀ t : PTree T V, s.root = some t.index → Stored E sec s.store t → ∀ n ∈ t.nodes, ∀ l, n.index.link = some l →
    E.get σ l = E.get s.store l

/-- The states a builder with some configuration can get into, starting from an empty builder on an arbitrary store.
`load` is the creation of a new builder from the link of the root of a tree, if that root is a branch; the tree may have
been written with any other configuration that satisfies `P`. `repair` is a repair of a packed tree after the store lost
any blocks, if the report does not warn about an unsealed node (otherwise the tree can be unusable, see C58). `collect` is garbage
collection: all blocks that are not blocks of the tree can vanish from the store (and from the cache). -/
inductive ReachIn (P : Config → Prop) (sec : Secrets E) : Config → St E → Prop
  | fresh {cfg : Config} (s : St E) : s.root = none → Coherent E sec s → ReachIn P sec cfg s
  | run {cfg : Config} {a s : St E} : ReachIn P sec cfg a → Run ⟨cfg, sec⟩ a s → ReachIn P sec cfg s
  | load {cfg cfg' : Config} {s : St E} (i : BranchIndex T) (l : T.Link) : P cfg' → ReachIn P sec cfg' s →
      s.root = some (.branch i) → i.link = some l → ReachIn P sec cfg (endState (loadStreamBuilder ⟨cfg, sec⟩ l) s)
  | repair {cfg : Config} {s d s' : St E} (fuel : Nat) (report : List (RepairMsg T)) : ReachIn P sec cfg s →
      ReportsPacked ⟨cfg, sec⟩ s → Damaged ⟨cfg, sec⟩ s d → Coherent E sec d → rootLevel s.root < fuel →
      repair ⟨cfg, sec⟩ fuel d = .ok report s' → Quiet report → ReachIn P sec cfg s'
  | collect {cfg : Config} {s : St E} (σ : E.σ) (γ : E.γ) : ReachIn P sec cfg s → KeepsTree sec s σ →
      Coherent E sec { s with store := σ, cache := γ } → ReachIn P sec cfg { s with store := σ, cache := γ }

/-- The states a builder can get into. Whenever it is loaded again, its (valid) configuration can be changed. -/
def Reach (cx : Ctx E) (s : St E) : Prop := ReachIn Config.Valid cx.sec cx.cfg s

/-- The states a builder can get into if its configuration is never changed. -/
def Steady (cx : Ctx E) (s : St E) : Prop := ReachIn (· = cx.cfg) cx.sec cx.cfg s

theorem Reach.fresh {cx : Ctx E} (s : St E) (h1 : s.root = none) (h2 : Coherent E cx.sec s) : Reach cx s := ReachIn.fresh s h1 h2
theorem Steady.fresh {cx : Ctx E} (s : St E) (h1 : s.root = none) (h2 : Coherent E cx.sec s) : Steady cx s := ReachIn.fresh s h1 h2

theorem Reach.run {cx : Ctx E} {a s : St E} (h1 : Reach cx a) (h2 : Run cx a s) : Reach cx s := ReachIn.run h1 h2
theorem Steady.run {cx : Ctx E} {a s : St E} (h1 : Steady cx a) (h2 : Run cx a s) : Steady cx s := ReachIn.run h1 h2

theorem Reach.load {cx : Ctx E} {cfg' : Config} (hv : cfg'.Valid) {s : St E} (i : BranchIndex T) (l : T.Link)
    (h1 : Reach ⟨cfg', cx.sec⟩ s) (h2 : s.root = some (.branch i)) (h3 : i.link = some l) :
    Reach cx (endState (loadStreamBuilder cx l) s) := ReachIn.load i l hv h1 h2 h3
theorem Steady.load {cx : Ctx E} {s : St E} (i : BranchIndex T) (l : T.Link)
    (h1 : Steady cx s) (h2 : s.root = some (.branch i)) (h3 : i.link = some l) :
    Steady cx (endState (loadStreamBuilder cx l) s) := ReachIn.load i l rfl h1 h2 h3

theorem Reach.repair {cx : Ctx E} {s d s' : St E} (fuel : Nat) (report : List (RepairMsg T)) (h1 : Reach cx s)
    (h2 : ReportsPacked cx s) (h3 : Damaged cx s d) (h4 : Coherent E cx.sec d) (h5 : rootLevel s.root < fuel)
    (h6 : Banyan.repair cx fuel d = .ok report s') (h7 : Quiet report) : Reach cx s' := ReachIn.repair fuel report h1 h2 h3 h4 h5 h6 h7
theorem Steady.repair {cx : Ctx E} {s d s' : St E} (fuel : Nat) (report : List (RepairMsg T)) (h1 : Steady cx s)
    (h2 : ReportsPacked cx s) (h3 : Damaged cx s d) (h4 : Coherent E cx.sec d) (h5 : rootLevel s.root < fuel)
    (h6 : Banyan.repair cx fuel d = .ok report s') (h7 : Quiet report) : Steady cx s' := ReachIn.repair fuel report h1 h2 h3 h4 h5 h6 h7

theorem Reach.collect {cx : Ctx E} {s : St E} (σ : E.σ) (γ : E.γ) (h1 : Reach cx s) (h2 : KeepsTree cx.sec s σ)
    (h3 : Coherent E cx.sec { s with store := σ, cache := γ }) : Reach cx { s with store := σ, cache := γ } := ReachIn.collect σ γ h1 h2 h3
theorem Steady.collect {cx : Ctx E} {s : St E} (σ : E.σ) (γ : E.γ) (h1 : Steady cx s) (h2 : KeepsTree cx.sec s σ)
    (h3 : Coherent E cx.sec { s with store := σ, cache := γ }) : Steady cx { s with store := σ, cache := γ } := ReachIn.collect σ γ h1 h2 h3

theorem ReachIn.imp {P Q : Config → Prop} {sec : Secrets E} {cfg : Config} {s : St E} (h : ReachIn P sec cfg s)
    (hpq : ∀ c, P c → Q c) : ReachIn Q sec cfg s := by
  induction h with
  | fresh s h1 h2 => exact .fresh s h1 h2
  | run _ h2 ih => exact .run ih h2
  | load i l h0 _ h2 h3 ih => exact .load i l (hpq _ h0) ih h2 h3
  | repair fuel report _ h2 h3 h4 h5 h6 h7 ih => exact .repair fuel report ih h2 h3 h4 h5 h6 h7
  | collect σ γ _ h2 h3 ih => exact .collect σ γ ih h2 h3

/-- What can be reached without changing the configuration can be reached. -/
theorem Steady.reach {cx : Ctx E} (hv : cx.cfg.Valid) {s : St E} (h : Steady cx s) : Reach cx s :=
  ReachIn.imp h fun _ hc => hc ▸ hv

end Banyan
