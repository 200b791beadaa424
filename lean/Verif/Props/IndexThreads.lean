import Verif.Model.IndexProg
import Verif.Props.Threads
import Verif.Props.Index
import Verif.Props.Damage
/-
Iterating over indexes while other threads use the store and the branch cache: C88.
-/
set_option autoImplicit false
namespace Banyan

open PTree Concrete

variable {T : TreeTypes} {V : Type} {E : Env T V} {cx : Ctx E} {s w : St E} {sec : Secrets E}

/-- `ConsumesIndex sec q mode n i s items`: a consumer that makes up to `n` calls of `IndexIter::next` on the iterator `i`, while other
threads do what they want during and between the calls, can get these items. An error is delivered as an item and leaves the iterator as
it is (`index_iter.rs:107-210`); a panic ends everything. -/
inductive ConsumesIndex (sec : Secrets E) (q : Query T) (mode : Mode) : Nat → IterState T → St E → List (Except Err (Index T)) → Prop
  | enough (i : IterState T) (s : St E) : ConsumesIndex sec q mode 0 i s []
  | done {n : Nat} {i : IterState T} {s s' : St E} : (Prog.indexStep q mode i).Runs sec s (.ok .done) s' →
      ConsumesIndex sec q mode (n + 1) i s []
  | turn {n : Nat} {i i' : IterState T} {s s' : St E} {items : List (Except Err (Index T))} :
      (Prog.indexStep q mode i).Runs sec s (.ok (.cont i')) s' → ConsumesIndex sec q mode (n + 1) i' s' items →
      ConsumesIndex sec q mode (n + 1) i s items
  | item {n : Nat} {i i' : IterState T} {s s' : St E} {a : Index T} {items : List (Except Err (Index T))} :
      (Prog.indexStep q mode i).Runs sec s (.ok (.item a i')) s' → ConsumesIndex sec q mode n i' s' items →
      ConsumesIndex sec q mode (n + 1) i s (.ok a :: items)
  | error {n : Nat} {i : IterState T} {s s' : St E} {msg : String} {items : List (Except Err (Index T))} :
      (Prog.indexStep q mode i).Runs sec s (.error (.fail msg)) s' → ConsumesIndex sec q mode n i s' items →
      ConsumesIndex sec q mode (n + 1) i s (.error (.fail msg) :: items)
  | panic {n : Nat} {i : IterState T} {s s' : St E} {e : Err} : (∀ msg, e ≠ .fail msg) →
      (Prog.indexStep q mode i).Runs sec s (.error e) s' → ConsumesIndex sec q mode (n + 1) i s [.error e]

/-! ### without other threads, the program is the operation -/

theorem Prog.run_indexBranchStep (mode : Mode) (offset : Nat) (head : TraverseState T) (rest : List (TraverseState T)) (branch : Branch T) :
    (Prog.indexBranchStep mode offset head rest branch).run sec = Banyan.indexBranchStep mode offset head rest branch := by
  unfold Prog.indexBranchStep Banyan.indexBranchStep
  simp only
  split
  · rename_i h1 h2
    rw [h1, h2]
    rfl
  · rename_i h1 h2
    rw [h1, h2]
    simp only
    rw [run_bind, run_moveOffset]
    rfl
  · rename_i h1 h2
    split
    · rename_i h3 h4; exact absurd h4 (h1 _ h3)
    · rename_i h3 h4; exact absurd h4 (h2 _ h3)
    · rfl

theorem Prog.run_startOffsetOf (mode : Mode) (o n : Nat) : (Prog.startOffsetOf mode o n : Prog T Nat).run sec = Banyan.startOffsetOf mode o n := by
  cases mode with
  | forward => rfl
  | backward =>
    unfold Prog.startOffsetOf Banyan.startOffsetOf
    exact Prog.run_moveOffset _ _ _

/-- C88: one turn of the loop of the iterator, as a program. -/
theorem C88_indexStep (q : Query T) (mode : Mode) (i : IterState T) : (Prog.indexStep q mode i).run sec = Banyan.indexStep sec q mode i := by
  unfold Prog.indexStep Banyan.indexStep
  rcases hs : i.stack with _ | ⟨head, rest⟩ <;> simp only
  · rfl
  · split
    · rfl
    · rcases hi : head.index with l | b <;> simp only
      · rw [Prog.run_bind, Prog.run_moveOffset]
        rfl
      · rcases hl : b.link with _ | link <;> simp only
        · rw [Prog.run_bind, Prog.run_moveOffset]
          rfl
        · rw [Prog.run_bind, Prog.run_loadBranchCached]
          congr 1
          funext branch
          split
          · rw [Prog.run_bind, Prog.run_startOffsetOf]
            rfl
          · exact Prog.run_indexBranchStep ..

/-! ### reading from the store only -/

/-- What a consumer gets that reads from the store only. -/
inductive Walks (sec : Secrets E) (σ : E.σ) (q : Query T) (mode : Mode) : Nat → IterState T → List (Index T) → Prop
  | enough (i : IterState T) : Walks sec σ q mode 0 i []
  | done {n : Nat} {i : IterState T} : (Prog.indexStep q mode i).plain sec σ = .ok .done → Walks sec σ q mode (n + 1) i []
  | turn {n : Nat} {i i' : IterState T} {xs : List (Index T)} : (Prog.indexStep q mode i).plain sec σ = .ok (.cont i') →
      Walks sec σ q mode (n + 1) i' xs → Walks sec σ q mode (n + 1) i xs
  | item {n : Nat} {i i' : IterState T} {a : Index T} {xs : List (Index T)} : (Prog.indexStep q mode i).plain sec σ = .ok (.item a i') →
      Walks sec σ q mode n i' xs → Walks sec σ q mode (n + 1) i (a :: xs)

/-- Among other threads, a consumer gets the same. -/
theorem ConsumesIndex.walks (h : E.Lawful) {q : Query T} {mode : Mode} {σ : E.σ} {n : Nat} {i : IterState T} {items : List (Except Err (Index T))}
    {xs : List (Index T)} (hc : ConsumesIndex sec q mode n i w items) (hw : Walks sec σ q mode n i xs) (hle : StoreLe E σ w.store)
    (hco : Coherent E sec w) : items = xs.map .ok := by
  induction hc generalizing xs with
  | enough i s => cases hw; rfl
  | done hr =>
    cases hw with
    | done hp => rfl
    | turn hp _ => cases (Prog.runs_plain h hr hp hle hco).1
    | item hp _ => cases (Prog.runs_plain h hr hp hle hco).1
  | turn hr _ ih =>
    cases hw with
    | done hp => cases (Prog.runs_plain h hr hp hle hco).1
    | turn hp hw =>
      obtain ⟨h1, h2, h3⟩ := Prog.runs_plain h hr hp hle hco
      cases h1
      exact ih hw h2 h3
    | item hp _ => cases (Prog.runs_plain h hr hp hle hco).1
  | item hr _ ih =>
    cases hw with
    | done hp => cases (Prog.runs_plain h hr hp hle hco).1
    | turn hp _ => cases (Prog.runs_plain h hr hp hle hco).1
    | item hp hw =>
      obtain ⟨h1, h2, h3⟩ := Prog.runs_plain h hr hp hle hco
      cases h1
      rw [ih hw h2 h3]
      rfl
  | error hr _ _ =>
    cases hw with
    | done hp => cases (Prog.runs_plain h hr hp hle hco).1
    | turn hp _ => cases (Prog.runs_plain h hr hp hle hco).1
    | item hp _ => cases (Prog.runs_plain h hr hp hle hco).1
  | panic _ hr =>
    cases hw with
    | done hp => cases (Prog.runs_plain h hr hp hle hco).1
    | turn hp _ => cases (Prog.runs_plain h hr hp hle hco).1
    | item hp _ => cases (Prog.runs_plain h hr hp hle hco).1

theorem indexStep_uncached (q : Query T) (mode : Mode) (i : IterState T) (σ : St E) :
    Banyan.indexStep sec.uncached q mode i σ.uncached =
      match (Prog.indexStep q mode i).plain sec σ.store with
      | .ok a => .ok a σ.uncached | .error e => .error e σ.uncached := by
  rw [← C88_indexStep, Prog.run_uncached]
  cases (Prog.indexStep q mode i).plain sec σ.store <;> rfl

theorem indexNext_walks (q : Query T) (mode : Mode) (σ : St E) (fuel : Nat) (i i' : IterState T) (o : Option (Except String (Index T)))
    (s1 : St E.uncached) (h : indexNext sec.uncached q mode fuel i σ.uncached = .ok (o, i') s1) : s1 = σ.uncached ∧
      (o = none → ∀ n, Walks sec σ.store q mode (n + 1) i []) ∧
      ∀ a, o = some (.ok a) → ∀ n xs, Walks sec σ.store q mode n i' xs → Walks sec σ.store q mode (n + 1) i (a :: xs) := by
  induction fuel generalizing i with
  | zero => cases h
  | succ fuel ih =>
    unfold indexNext at h
    rw [bind_apply] at h
    unfold M.tryFail at h
    rw [indexStep_uncached] at h
    rcases hp : (Prog.indexStep q mode i).plain sec σ.store with e | r
    · rw [hp] at h
      cases e with
      | fail msg =>
        cases h
        exact ⟨rfl, fun h => (by cases h), fun a h => (by cases h)⟩
      | panic msg => cases h
      | offsets => cases h
      | fuel => cases h
    · rw [hp] at h
      cases r with
      | done =>
        cases h
        exact ⟨rfl, fun _ n => .done hp, fun a h => (by cases h)⟩
      | cont i2 =>
        obtain ⟨h1, h2, h3⟩ := ih i2 h
        exact ⟨h1, fun ho n => .turn hp (h2 ho n), fun a ho n xs hw => .turn hp (h3 a ho n xs hw)⟩
      | item a i2 =>
        cases h
        exact ⟨rfl, fun h => (by cases h), fun a h n xs hw => by cases h; exact .item hp hw⟩

theorem indexTake_walks (q : Query T) (mode : Mode) (σ : St E) (fuel n : Nat) (i : IterState T) (xs : List (Index T)) (s1 : St E.uncached)
    (h : indexTake sec.uncached q mode fuel (fun _ s => s) n i σ.uncached = .ok (xs.map .ok) s1) : Walks sec σ.store q mode n i xs := by
  induction n generalizing i xs s1 with
  | zero =>
    have h2 := (EStateM.Result.ok.inj h).1
    cases xs with
    | nil => exact .enough i
    | cons _ _ => cases h2
  | succ n ih =>
    unfold indexTake at h
    rw [bind_apply] at h
    rcases hn : indexNext sec.uncached q mode fuel i σ.uncached with ⟨⟨o, i'⟩, s2⟩ | ⟨e, s2⟩
    · rw [hn] at h
      obtain ⟨rfl, h1, h2⟩ := indexNext_walks q mode σ fuel i i' o s2 hn
      cases o with
      | none =>
        have h3 := (EStateM.Result.ok.inj h).1
        cases xs with
        | nil => exact h1 rfl n
        | cons _ _ => cases h3
      | some a =>
        have h' : (indexTake sec.uncached q mode fuel (fun _ s => s) n i' >>= fun rest => pure (a :: rest) :
            M E.uncached (List (Except String (Index T)))) σ.uncached = .ok (xs.map .ok) s1 := h
        rw [bind_apply] at h'
        rcases ht : indexTake sec.uncached q mode fuel (fun _ s => s) n i' σ.uncached with ⟨l, s3⟩ | ⟨e, s3⟩
        · rw [ht] at h'
          have h3 := (EStateM.Result.ok.inj h').1
          cases xs with
          | nil => cases h3
          | cons x xs =>
            injection h3 with h4 h5
            subst h4
            exact h2 x rfl n xs (ih i' xs s3 (by rw [ht, h5]))
        · rw [ht] at h'
          cases h'
    · rw [hn] at h
      cases h

/-- C88: iterating over the indexes of a snapshot in either direction with any query, while other threads write blocks and use the branch
cache during and between the calls of `next`: the consumer gets what it gets without them. -/
theorem C88_indexes (ok : cx.Ok) (hr : Reach cx s) (hs : Small E s) (hl : Later cx.sec s w) (q : Query T) (mode : Mode)
    {indexes : List (Index T)}
    (hd : Enumerates (fun between n fuel t => Tree.indexes q mode between n fuel t) cx.sec (snapshot cx s) s indexes)
    {index : Index T} (hroot : s.root = some index) (n : Nat) {items : List (Except Err (Index T))}
    (hx : ConsumesIndex cx.sec q mode n (IterState.new mode index) w items) : items = (indexes.take n).map .ok := by
  obtain ⟨t, hi⟩ := ok.inv hr hs
  have h2 := hi.holds.later ok.env hl
  rw [Enumerates.unique hd (hi.holds.snap.indexes (q := q) ok.env ok.types mode)]
  obtain ⟨bound, h5⟩ := h2.uncached.indexes (q := q) (Env.uncached_lawful ok.env) ok.types mode
  obtain ⟨s3, h6⟩ := h5 (fun _ s => s) n bound (fun _ _ h => ⟨fun _ _ h => h, h⟩) (Nat.le_refl _)
  refine hx.walks ok.env (indexTake_walks q mode w bound n _ _ s3 ?_) (fun _ _ h => h) h2.coherent
  unfold Tree.indexes snapshot at h6
  rw [show s.uncached.root = s.root from rfl, hroot] at h6
  exact h6

/-- A consumer can get all items while another thread puts a block and looks into the cache before every turn of the loop. -/
theorem Walks.disturbed (h : E.Lawful) {q : Query T} {mode : Mode} {σ : E.σ} {n : Nat} {i : IterState T} {xs : List (Index T)}
    (hw : Walks sec σ q mode n i xs) (d : Bytes) (l : T.Link) (s : St E) (hle : StoreLe E σ s.store) (hco : Coherent E sec s) :
    ∃ items, ConsumesIndex sec q mode n i s items := by
  induction hw generalizing s with
  | enough i => exact ⟨[], .enough i s⟩
  | @done n i hp =>
    obtain ⟨r, s', _, h1⟩ := Prog.Runs.disturbed sec (Prog.indexStep q mode i) s d l
    obtain ⟨rfl, h2, h3⟩ := Prog.runs_plain h h1 hp hle hco
    exact ⟨[], .done h1⟩
  | @turn n i i' xs hp _ ih =>
    obtain ⟨r, s', _, h1⟩ := Prog.Runs.disturbed sec (Prog.indexStep q mode i) s d l
    obtain ⟨rfl, h2, h3⟩ := Prog.runs_plain h h1 hp hle hco
    obtain ⟨items, h4⟩ := ih s' h2 h3
    exact ⟨items, .turn h1 h4⟩
  | @item n i i' a xs hp _ ih =>
    obtain ⟨r, s', _, h1⟩ := Prog.Runs.disturbed sec (Prog.indexStep q mode i) s d l
    obtain ⟨rfl, h2, h3⟩ := Prog.runs_plain h h1 hp hle hco
    obtain ⟨items, h4⟩ := ih s' h2 h3
    exact ⟨.ok a :: items, .item h1 h4⟩

/-- A consumer of a snapshot can get to the end of what it asked for, while another thread writes a block before every turn. -/
theorem consumesIndex_possible (ok : cx.Ok) (hr : Reach cx s) (hs : Small E s) (hl : Later cx.sec s w) (q : Query T) (mode : Mode)
    {index : Index T} (hroot : s.root = some index) (n : Nat) (d : Bytes) (l : T.Link) :
    ∃ items, ConsumesIndex cx.sec q mode n (IterState.new mode index) w items := by
  obtain ⟨t, hi⟩ := ok.inv hr hs
  have h2 := hi.holds.later ok.env hl
  obtain ⟨bound, h5⟩ := h2.uncached.indexes (q := q) (Env.uncached_lawful ok.env) ok.types mode
  obtain ⟨s3, h6⟩ := h5 (fun _ s => s) n bound (fun _ _ h => ⟨fun _ _ h => h, h⟩) (Nat.le_refl _)
  unfold Tree.indexes snapshot at h6
  rw [show s.uncached.root = s.root from rfl, hroot] at h6
  exact (indexTake_walks q mode w bound n _ _ s3 h6).disturbed ok.env d l w (fun _ _ h => h) h2.coherent

namespace Concrete

/-- Iterating backward over the indexes of the unpacked tree of ten elements, while another thread writes blocks. -/
example : ∃ (index : Index types) (t : PTree types Nat) (items : List (Except Err (Index types))), unpacked10.root = some index ∧
    Shows (ctx tiny) unpacked10 t ∧
    ConsumesIndex (ctx tiny).sec (keyRange 3 4) .backward 20 (IterState.new .backward index) unpacked10 items ∧
    items = (((visits (keyRange 3 4) .backward t 0).map fun x => x.2.index).take 20).map .ok := by
  obtain ⟨t, st⟩ := unpacked10_shows
  have hi := st.inv tiny_ok unpacked10_reach unpacked10_small
  obtain ⟨items, h⟩ := consumesIndex_possible tiny_ok unpacked10_reach unpacked10_small .refl (keyRange 3 4) .backward hi.holds.root 20 [1, 2, 3]
    (show types.Link from (0 : Nat))
  exact ⟨t.index, t, items, hi.holds.root, st, h, C88_indexes tiny_ok unpacked10_reach unpacked10_small .refl _ _
    (C33_indexes tiny_ok unpacked10_reach unpacked10_small st _ _) hi.holds.root 20 h⟩

end Concrete

end Banyan
