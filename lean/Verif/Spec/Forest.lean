import Verif.Spec.History
/-
Several builders in one forest. `Forest` (`banyan/src/forest/mod.rs:59-120`) has one store and one branch cache for all trees and
builders; a `StreamBuilder` (`banyan/src/stream_builder.rs:38-48`) has its own root, cipher offset and secrets.
-/
set_option autoImplicit false
namespace Banyan

variable {T : TreeTypes} {V : Type} {E : Env T V} {ι : Type} [DecidableEq ι]

/-- What belongs to one builder alone. -/
structure Own (E : Env T V) where
  offset : Nat
  root : Option (Index T)
  puts : List Bytes
  written : List (List (Index T))

/-- The store and the branch cache, and the builders that use them. -/
structure Forest (E : Env T V) (ι : Type) where
  store : E.σ
  cache : E.γ
  own : ι → Own E

/-- What the builder `i` sees. -/
def Forest.view (f : Forest E ι) (i : ι) : St E :=
  ⟨f.store, f.cache, (f.own i).offset, (f.own i).root, (f.own i).puts, (f.own i).written⟩

/-- The forest after an operation of the builder `i` that ended in the state `s`. -/
def Forest.set (f : Forest E ι) (i : ι) (s : St E) : Forest E ι :=
  ⟨s.store, s.cache, fun j => if j = i then ⟨s.offset, s.root, s.puts, s.written⟩ else f.own j⟩

/-- `Together cxs a log f`: the builders, the one called `i` with the configuration and the secrets `cxs i`, can bring the forest from
`a` to `f` by operations in any order; `log` tells who did something. `world` is whatever others do with the store (only adding to it),
the eviction of branches from the cache, and reading by users who have the keys of one of the builders. -/
inductive Together (cxs : ι → Ctx E) (a : Forest E ι) : List ι → Forest E ι → Prop
  | refl : Together cxs a [] a
  | extend {log : List ι} {f : Forest E ι} (i : ι) (fuel : Nat) (xs : List (T.Key × V)) : Together cxs a log f →
      rootLevel (f.own i).root < fuel → rootCount (f.own i).root + xs.length ≤ maxElements →
      Together cxs a (log ++ [i]) (f.set i (endState (extend (cxs i) fuel xs) (f.view i)))
  | extendUnpacked {log : List ι} {f : Forest E ι} (i : ι) (fuel : Nat) (xs : List (T.Key × V)) : Together cxs a log f →
      rootLevel (f.own i).root < fuel → rootCount (f.own i).root + xs.length ≤ maxElements →
      Together cxs a (log ++ [i]) (f.set i (endState (extendUnpacked (cxs i) fuel xs) (f.view i)))
  | pack {log : List ι} {f : Forest E ι} (i : ι) (fuel : Nat) : Together cxs a log f → rootLevel (f.own i).root < fuel →
      Together cxs a (log ++ [i]) (f.set i (endState (pack (cxs i) fuel) (f.view i)))
  | retain {log : List ι} {f : Forest E ι} (i : ι) (fuel : Nat) (q : Query T) : Together cxs a log f → rootLevel (f.own i).root < fuel →
      Together cxs a (log ++ [i]) (f.set i (endState (retain (cxs i) fuel q) (f.view i)))
  | world {log : List ι} {f : Forest E ι} (σ : E.σ) (γ : E.γ) : Together cxs a log f → StoreLe E f.store σ →
      (∀ l b, (E.cacheGet γ l).1 = some b → (E.cacheGet f.cache l).1 = some b ∨ ∃ i, loadBranchFromLink E (cxs i).sec σ l = .ok b) →
      Together cxs a log { f with store := σ, cache := γ }

/-- Everything in the cache was read with the keys of one of the builders. -/
def Accounted (cxs : ι → Ctx E) (f : Forest E ι) : Prop :=
  ∀ l b, (E.cacheGet f.cache l).1 = some b → ∃ i, loadBranchFromLink E (cxs i).sec f.store l = .ok b

/-- No block can be read as two different branches with the keys of two builders. -/
def Separate (cxs : ι → Ctx E) (σ : E.σ) : Prop :=
  ∀ i j l b b', loadBranchFromLink E (cxs i).sec σ l = .ok b → loadBranchFromLink E (cxs j).sec σ l = .ok b' → b = b'

/-- The states of a forest. `fork` is the creation of another builder from the link of the tree of a builder with the same secrets. -/
inductive Lives (cxs : ι → Ctx E) : Forest E ι → Prop
  | new (f : Forest E ι) : (∀ i, (f.own i).root = none) → Accounted cxs f → Lives cxs f
  | run {log : List ι} {f f' : Forest E ι} : Lives cxs f → Together cxs f log f' → Lives cxs f'
  | fork {f : Forest E ι} (i j : ι) (b : BranchIndex T) (l : T.Link) : Lives cxs f → (cxs i).sec = (cxs j).sec →
      (f.own i).root = some (.branch b) → b.link = some l → Lives cxs (f.set j (endState (loadStreamBuilder (cxs j) l) (f.view i)))

end Banyan
