import Verif.Concrete.Env
import Verif.Spec.Observe
/-
Some reachable states of the concrete environment, for the examples.
-/
set_option autoImplicit false
namespace Banyan.Concrete

/-- An operation succeeds. -/
def succeeds {α : Type} (m : M env α) (s : St env) : Bool :=
  match m s with
  | .ok _ _ => true
  | .error _ _ => false

theorem ok_of_succeeds {m : M env Unit} {s : St env} (h : succeeds m s = true) : m s = .ok () (endState m s) := by
  unfold succeeds at h
  unfold endState
  cases hm : m s with
  | ok a s' => rfl
  | error e s' => rw [hm] at h; cases h

/-- The error of an operation. -/
def errorOf {α : Type} (m : M env α) (s : St env) : Option Err :=
  match m s with
  | .ok _ _ => none
  | .error e _ => some e

theorem error_of {α : Type} {m : M env α} {s : St env} {e : Err} (h : errorOf m s = some e) :
    m s = .error e (endState m s) := by
  unfold errorOf at h
  unfold endState
  cases hm : m s with
  | ok a s' => rw [hm] at h; cases h
  | error e s' => rw [hm] at h; cases h; rfl

/-- The result of a reading operation. -/
def valueOf {α : Type} (m : M env α) (s : St env) : Option α :=
  match m s with
  | .ok a _ => some a
  | .error _ _ => none

theorem value_of {α : Type} {m : M env α} {s : St env} {a : α} (h : valueOf m s = some a) :
    m s = .ok a (endState m s) := by
  unfold valueOf at h
  unfold endState
  cases hm : m s with
  | ok a s' => rw [hm] at h; cases h; rfl
  | error e s' => rw [hm] at h; cases h

/-- The elements of the tree of a builder. -/
def elements (cfg : Config) (s : St env) : Option (List (Option (Nat × Nat))) :=
  valueOf (Tree.collect 100 (snapshot (ctx cfg) s)) s

def smallB (s : St env) : Bool := s.written.all fun cs => decide ((cs.map env.encIdx).flatten.length ≤ maxCapacity)

theorem small_of {s : St env} (h : smallB s = true) : Small env s := by
  intro cs hcs
  have := List.all_eq_true.mp h cs hcs
  simpa using this

theorem tiny_ok : (ctx tiny).Ok := ⟨env_lawful, types_lawful, tiny_valid⟩

theorem debug_ok : (ctx Config.debug).Ok := ⟨env_lawful, types_lawful, debug_valid⟩

theorem start_reach (cfg : Config) (room : Nat) : Reach (ctx cfg) (start room) :=
  Reach.fresh _ rfl (by intro l b h; cases h)

theorem start_steady (cfg : Config) (room : Nat) : Steady (ctx cfg) (start room) :=
  Steady.fresh _ rfl (by intro l b h; cases h)

/-- The side conditions of `Run.extend`. -/
def fits (s : St env) (fuel n : Nat) : Bool :=
  decide (rootLevel s.root < fuel) && decide (rootCount s.root + n ≤ maxElements)

theorem fits_iff {s : St env} {fuel n : Nat} (h : fits s fuel n = true) :
    rootLevel s.root < fuel ∧ rootCount s.root + n ≤ maxElements := by
  unfold fits at h
  rw [Bool.and_eq_true, decide_eq_true_eq, decide_eq_true_eq] at h
  exact h

theorem reach_extend {cfg : Config} {s : St env} (h : Reach (ctx cfg) s) (fuel : Nat) (xs : List (Nat × Nat))
    (hf : fits s fuel xs.length = true) : Reach (ctx cfg) (endState (extend (ctx cfg) fuel xs) s) :=
  h.run (.extend fuel xs (.refl _) (fits_iff hf).1 (fits_iff hf).2)

theorem steady_extend {cfg : Config} {s : St env} (h : Steady (ctx cfg) s) (fuel : Nat) (xs : List (Nat × Nat))
    (hf : fits s fuel xs.length = true) : Steady (ctx cfg) (endState (extend (ctx cfg) fuel xs) s) :=
  h.run (.extend fuel xs (.refl _) (fits_iff hf).1 (fits_iff hf).2)

theorem reach_extendUnpacked {cfg : Config} {s : St env} (h : Reach (ctx cfg) s) (fuel : Nat) (xs : List (Nat × Nat))
    (hf : fits s fuel xs.length = true) : Reach (ctx cfg) (endState (extendUnpacked (ctx cfg) fuel xs) s) :=
  h.run (.extendUnpacked fuel xs (.refl _) (fits_iff hf).1 (fits_iff hf).2)

theorem steady_extendUnpacked {cfg : Config} {s : St env} (h : Steady (ctx cfg) s) (fuel : Nat) (xs : List (Nat × Nat))
    (hf : fits s fuel xs.length = true) : Steady (ctx cfg) (endState (extendUnpacked (ctx cfg) fuel xs) s) :=
  h.run (.extendUnpacked fuel xs (.refl _) (fits_iff hf).1 (fits_iff hf).2)

theorem reach_pack {cfg : Config} {s : St env} (h : Reach (ctx cfg) s) (fuel : Nat)
    (hf : fits s fuel 0 = true) : Reach (ctx cfg) (endState (pack (ctx cfg) fuel) s) :=
  h.run (.pack fuel (.refl _) (fits_iff hf).1)

theorem steady_pack {cfg : Config} {s : St env} (h : Steady (ctx cfg) s) (fuel : Nat)
    (hf : fits s fuel 0 = true) : Steady (ctx cfg) (endState (pack (ctx cfg) fuel) s) :=
  h.run (.pack fuel (.refl _) (fits_iff hf).1)

theorem reach_retain {cfg : Config} {s : St env} (h : Reach (ctx cfg) s) (fuel : Nat) (q : Query types)
    (hf : fits s fuel 0 = true) : Reach (ctx cfg) (endState (retain (ctx cfg) fuel q) s) :=
  h.run (.retain fuel q (.refl _) (fits_iff hf).1)

theorem steady_retain {cfg : Config} {s : St env} (h : Steady (ctx cfg) s) (fuel : Nat) (q : Query types)
    (hf : fits s fuel 0 = true) : Steady (ctx cfg) (endState (retain (ctx cfg) fuel q) s) :=
  h.run (.retain fuel q (.refl _) (fits_iff hf).1)

def setRoom (n : Nat) (σ : Store) : Store := { σ with room := n }

/-- The same state, but the store accepts only `n` more blocks. -/
def withRoom (n : Nat) (s : St env) : St env := { s with store := setRoom n s.store }

theorem reach_withRoom {cfg : Config} {s : St env} (h : Reach (ctx cfg) s) (n : Nat) (hc : Coherent env (ctx cfg).sec s) :
    Reach (ctx cfg) (withRoom n s) :=
  h.run (Run.world (cx := ctx cfg) (s := s) (setRoom n s.store) s.cache (.refl _) (fun _ _ h => h) (fun l b h => hc l b h))

theorem steady_withRoom {cfg : Config} {s : St env} (h : Steady (ctx cfg) s) (n : Nat) (hc : Coherent env (ctx cfg).sec s) :
    Steady (ctx cfg) (withRoom n s) :=
  h.run (Run.world (cx := ctx cfg) (s := s) (setRoom n s.store) s.cache (.refl _) (fun _ _ h => h) (fun l b h => hc l b h))

/-- Seven elements in a tree with two elements per leaf and two children per branch. -/
def packed7 : St env := endState (extend (ctx tiny) 10 (seq 0 7)) (start 100)

/-- Three more, appended without packing. -/
def unpacked10 : St env := endState (extendUnpacked (ctx tiny) 10 (seq 7 3)) packed7

theorem packed7_reach : Reach (ctx tiny) packed7 :=
  reach_extend (start_reach tiny 100) 10 (seq 0 7) (by decide +kernel)

theorem packed7_steady : Steady (ctx tiny) packed7 :=
  steady_extend (start_steady tiny 100) 10 (seq 0 7) (by decide +kernel)

theorem packed7_small : Small env packed7 := small_of (by decide +kernel)

theorem packed7_ok : extend (ctx tiny) 10 (seq 0 7) (start 100) = .ok () packed7 := ok_of_succeeds (by decide +kernel)

theorem unpacked10_ok : extendUnpacked (ctx tiny) 10 (seq 7 3) packed7 = .ok () unpacked10 := ok_of_succeeds (by decide +kernel)

theorem unpacked10_reach : Reach (ctx tiny) unpacked10 :=
  reach_extendUnpacked packed7_reach 10 (seq 7 3) (by decide +kernel)

theorem unpacked10_steady : Steady (ctx tiny) unpacked10 :=
  steady_extendUnpacked packed7_steady 10 (seq 7 3) (by decide +kernel)

theorem unpacked10_small : Small env unpacked10 := small_of (by decide +kernel)

end Banyan.Concrete
