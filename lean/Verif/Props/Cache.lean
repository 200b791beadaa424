import Verif.Proofs.Cache
import Verif.Proofs.Observe
import Verif.Props.Retain
import Verif.Model.Stream
import Verif.Model.IndexIter
/-
The branch cache: C36.
-/
set_option autoImplicit false
namespace Banyan

open Concrete

variable {T : TreeTypes} {V : Type} {E : Env T V} {cx : Ctx E} {α : Type}

/-- `t` is a tree of the forest with the secrets `sec`. -/
def OfForest (sec : Secrets E) (t : Tree E) : Prop := ∀ y, t = some y → y.2.1 = sec

/-- The operations on trees, streams of trees and builders, with whatever arguments. -/
inductive Operation (cx : Ctx E) : (α : Type) → M E α → Prop
  | get (fuel : Nat) (t : Tree E) (o : Nat) : OfForest cx.sec t → Operation cx _ (t.get fuel o)
  | collectFrom (fuel : Nat) (t : Tree E) (o : Nat) : OfForest cx.sec t → Operation cx _ (t.collectFrom fuel o)
  | isPacked (fuel : Nat) (t : Tree E) : OfForest cx.sec t → Operation cx _ (t.isPacked fuel)
  | leftRoots (fuel : Nat) (t : Tree E) : OfForest cx.sec t → Operation cx _ (t.leftRoots fuel)
  | dumpGraph (fuel : Nat) (t : Tree E) : OfForest cx.sec t → Operation cx _ (t.dumpGraph fuel)
  | roots (fuel : Nat) : Operation cx _ (roots cx fuel)
  | checkInvariants (fuel : Nat) : Operation cx _ (checkInvariants cx fuel)
  | chunks {X : Type} (q : Query T) (mode : Mode) (mkExtra : Index T → X) (fuel n : Nat) (i : Index T) :
      Operation cx _ (chunkedTake cx.sec q mode mkExtra fuel (fun _ s => s) n i)
  | indexes (q : Query T) (mode : Mode) (fuel n : Nat) (i : Index T) :
      Operation cx _ (indexTake cx.sec q mode fuel (fun _ s => s) n (.new mode i))
  | stream {X : Type} (q : Query T) (mkExtra : Index T → X) (fuel n start end_ : Nat) (ts : List (Tree E)) :
      (∀ t ∈ ts, OfForest cx.sec t) → Operation cx _ (streamTreesChunked q mkExtra fuel n end_ (ts.map fun t => (fun _ s => s, t)) start)
  | streamReverse {X : Type} (q : Query T) (mkExtra : Index T → X) (fuel n start end_ : Nat) (ts : List (Tree E)) :
      (∀ t ∈ ts, OfForest cx.sec t) → Operation cx _ (streamTreesChunkedReverse q mkExtra fuel n start (ts.map fun t => (fun _ s => s, t)) end_)
  | streamThreaded {X : Type} (q : Query T) (mkExtra : Index T → X) (fuel n start end_ : Nat) (ts : List (Tree E)) :
      (∀ t ∈ ts, OfForest cx.sec t) → Operation cx _ (streamTreesThreaded q mkExtra fuel n end_ (ts.map fun t => (fun _ s => s, t)) start)
  | extend (fuel : Nat) (xs : List (T.Key × V)) : Operation cx _ (extend cx fuel xs)
  | extendUnpacked (fuel : Nat) (xs : List (T.Key × V)) : Operation cx _ (extendUnpacked cx fuel xs)
  | pack (fuel : Nat) : Operation cx _ (pack cx fuel)
  | retain (fuel : Nat) (q : Query T) : Operation cx _ (retain cx fuel q)
  | repair (fuel : Nat) : Operation cx _ (repair cx fuel)

theorem modify_id (sec : Secrets E) (n : Nat) :
    CacheIndependent sec (modify ((fun _ s => s : Nat → St E → St E) n) : M E Unit) := fun _ _ h => ⟨⟨rfl, h⟩, StoreLe.refl _⟩

theorem arrivals {sec : Secrets E} {ts : List (Tree E)} (ht : ∀ t ∈ ts, OfForest sec t) :
    ∀ x ∈ (ts.map fun t => ((fun _ s => s, t) : Arrival E)), (∀ y, x.2 = some y → y.2.1 = sec) ∧
      ∀ n, CacheIndependent sec (modify (x.1 n) : M E Unit) := by
  intro x hx
  obtain ⟨t, h1, rfl⟩ := List.mem_map.mp hx
  exact ⟨ht t h1, fun n => modify_id sec n⟩

theorem Operation.independent (h : E.Lawful) {m : M E α} (hm : Operation cx α m) : CacheIndependent cx.sec m := by
  cases hm with
  | get fuel t o ht => exact .treeGet h fuel t ht o
  | collectFrom fuel t o ht => exact .treeCollectFrom h fuel t ht o
  | isPacked fuel t ht => exact .treeIsPacked h fuel t ht
  | leftRoots fuel t ht => exact .treeLeftRoots h fuel t ht
  | dumpGraph fuel t ht => exact .treeDumpGraph h fuel t ht
  | roots fuel => exact .roots fuel
  | checkInvariants fuel => exact .checkInvariants h fuel
  | chunks q mode mkExtra fuel n i => exact .iterTake h q mode mkExtra fuel (modify_id _) n _
  | indexes q mode fuel n i => exact .indexTake h q mode fuel (modify_id _) n _
  | stream q mkExtra fuel n start end_ ts ht => exact .streamTreesChunked h q mkExtra fuel n end_ _ (arrivals ht) start
  | streamReverse q mkExtra fuel n start end_ ts ht => exact .streamTreesChunkedReverse h q mkExtra fuel n start _ (arrivals ht) end_
  | streamThreaded q mkExtra fuel n start end_ ts ht => exact .streamTreesThreaded h q mkExtra fuel n end_ _ (arrivals ht) start
  | extend fuel xs => exact .extend h fuel xs
  | extendUnpacked fuel xs => exact .extendUnpacked h fuel xs
  | pack fuel => exact .pack h fuel
  | retain fuel q => exact .retain h fuel q
  | repair fuel => exact .repair h fuel

theorem ReachIn.coherent (h : E.Lawful) {P : Config → Prop} {sec : Secrets E} {cfg : Config} {s : St E} (hr : ReachIn P sec cfg s) :
    Coherent E sec s := by
  induction hr with
  | fresh s _ hc => exact hc
  | run _ hr ih => exact (hr.ext0 h).coherent ih
  | @load cfg _ s i l _ _ _ _ ih =>
    intro k b hk
    unfold endState loadStreamBuilder at hk ⊢
    revert hk
    cases createIndexFromLink E sec (fun items level => cfg.branchSealed items level) s.store l with
    | error e => exact ih k b
    | ok x => exact ih k b
  | @repair cfg _ _ _ fuel report _ _ _ hc _ he _ _ => exact ((frame0_repair (cx := ⟨cfg, sec⟩) h fuel).ok he).coherent hc
  | collect _ _ _ _ hc _ => exact hc

theorem Reach.coherent (h : E.Lawful) {s : St E} (hr : Reach cx s) : Coherent E cx.sec s := ReachIn.coherent h hr

/-- C36: the operations keep the branch cache exact, whether they succeed or fail. -/
theorem C36_kept (h : E.Lawful) {s : St E} (hx : Exact E cx.sec s) {m : M E α} (hm : Operation cx α m) : Exact E cx.sec (endState m s) := by
  have := (hm.independent h s s ⟨hx, hx, rfl, rfl, rfl, rfl, rfl⟩).1
  unfold endState
  cases hms : m s with
  | ok a s' => rw [hms] at this; exact this.2.left
  | error e s' => rw [hms] at this; exact this.2.left

/-- What can happen to a forest all users of which have the same keys: operations on any of its trees and builders, in
any order and with any arguments, others adding blocks to the store, and the eviction of branches from the cache. -/
inductive Used (sec : Secrets E) : St E → St E → Prop
  | refl (s : St E) : Used sec s s
  | op {a s : St E} {α : Type} {m : M E α} (cfg : Config) : Used sec a s → Operation ⟨cfg, sec⟩ α m → Used sec a (endState m s)
  | builder {a s : St E} (root : Option (Index T)) (offset : Nat) : Used sec a s → Used sec a { s with root := root, offset := offset }
  | world {a s : St E} (σ : E.σ) (γ : E.γ) : Used sec a s → StoreLe E s.store σ →
      (∀ l b, (E.cacheGet γ l).1 = some b → (E.cacheGet s.cache l).1 = some b) → Used sec a { s with store := σ, cache := γ }

theorem Used.exact (h : E.Lawful) {sec : Secrets E} {s s' : St E} (hu : Used sec s s') (hx : Exact E sec s) :
    Exact E sec s' ∧ StoreLe E s.store s'.store := by
  induction hu with
  | refl => exact ⟨hx, fun _ _ h => h⟩
  | op cfg _ hm ih =>
    exact ⟨C36_kept (cx := ⟨cfg, sec⟩) h ih.1 hm, fun l b hb =>
      (hm.independent h _ _ ⟨ih.1, ih.1, rfl, rfl, rfl, rfl, rfl⟩).2 l b (ih.2 l b hb)⟩
  | builder root offset _ ih => exact ih
  | world σ γ _ h1 h2 ih =>
    exact ⟨fun l b hb => loadBranchFromLink_mono h1 (ih.1 l b (h2 l b hb)), fun l b hb => h1 l b (ih.2 l b hb)⟩

/-- C36: an operation ends in the same way, with the same result, the same blocks in the store, the same root and the
same cipher offset, whether it uses the cache as it is now, the cache as it was at any earlier moment of the history
(which amounts to any eviction in between), or an empty cache. The operations are all reading operations, and also the
writing ones. -/
theorem C36_transparent (h : E.Lawful) {s s' : St E} (hs : Exact E cx.sec s) (hu : Used cx.sec s s') {m : M E α} (hm : Operation cx α m)
    (empty : E.γ) (he : ∀ l, (E.cacheGet empty l).1 = none) :
    SameOutcome cx.sec (m s') (m { s' with cache := s.cache }) ∧ SameOutcome cx.sec (m s') (m { s' with cache := empty }) := by
  obtain ⟨hs', hst⟩ := hu.exact h hs
  refine ⟨(hm.independent h s' { s' with cache := s.cache } ⟨hs', ?_, rfl, rfl, rfl, rfl, rfl⟩).1,
    (hm.independent h s' { s' with cache := empty } ⟨hs', ?_, rfl, rfl, rfl, rfl, rfl⟩).1⟩
  · intro l b hb
    exact loadBranchFromLink_mono hst (hs l b hb)
  · intro l b hb
    have := he l
    have hb : (E.cacheGet empty l).1 = some b := hb
    rw [this] at hb
    cases hb

/-- C36, for any two caches whose entries agree with the store. -/
theorem C36_any_caches (h : E.Lawful) {s : St E} {γ γ' : E.γ} (h1 : Exact E cx.sec { s with cache := γ })
    (h2 : Exact E cx.sec { s with cache := γ' }) {m : M E α} (hm : Operation cx α m) :
    SameOutcome cx.sec (m { s with cache := γ }) (m { s with cache := γ' }) :=
  (hm.independent h _ _ ⟨h1, h2, rfl, rfl, rfl, rfl, rfl⟩).1

/-- the tree of ten elements, after its branches have been read into the cache -/
def warm10 : St env := endState (Tree.collect 10 (snapshot (ctx tiny) unpacked10)) unpacked10

/-- the cache is in use: it has more entries than before -/
example : unpacked10.cache.length < warm10.cache.length := by decide +kernel

theorem snapshot_ofForest (s : St E) : OfForest cx.sec (snapshot cx s) := CacheIndependent.snapshot_sec s

def noCache : env.γ := []

theorem noCache_empty (l : types.Link) : (env.cacheGet noCache l).1 = none := rfl

def withoutCache (s : St env) : St env := { s with cache := noCache }

theorem get_noCache {s : St env} (hs : Exact env (ctx tiny).sec s) (o : Nat) :
    SameOutcome (ctx tiny).sec (Tree.get 10 (snapshot (ctx tiny) s) o s)
      (Tree.get 10 (snapshot (ctx tiny) s) o (withoutCache s)) :=
  (C36_transparent env_lawful hs (.refl _) (.get 10 _ o (snapshot_ofForest s)) noCache noCache_empty).2

theorem start_exact (n : Nat) : Exact env (ctx tiny).sec (start n) := fun _ _ h => by cases h

/-- a tree of ten elements, made by two operations on the forest -/
theorem unpacked10_used : Used (ctx tiny).sec (start 100) unpacked10 :=
  .op tiny (.op tiny (.refl _) (.extend (cx := ctx tiny) 10 (seq 0 7))) (.extendUnpacked (cx := ctx tiny) 10 (seq 7 3))

attribute [local irreducible] SameOutcome in
example : SameOutcome (ctx tiny).sec (Tree.get 10 (snapshot (ctx tiny) unpacked10) 4 unpacked10)
    (Tree.get 10 (snapshot (ctx tiny) unpacked10) 4 (withoutCache unpacked10)) :=
  get_noCache (unpacked10_used.exact env_lawful (start_exact 100)).1 4

end Banyan
