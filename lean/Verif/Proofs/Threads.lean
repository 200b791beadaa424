import Verif.Spec.Prog
import Verif.Proofs.Prog
import Verif.Proofs.SnapIter
/-
Programs among other threads: their results are those of programs that read from the store only, and these are the results of the
sequential operations in an environment whose cache is always empty.
-/
set_option autoImplicit false
namespace Banyan

open PTree

variable {T : TreeTypes} {V : Type} {E : Env T V} {X : Type} {α : Type} {sec : Secrets E}

/-! ### other threads -/

theorem Access.grows (h : E.Lawful) {a b : St E} (hx : Access sec a b) : StoreLe E a.store b.store := by
  cases hx with
  | put d => exact fun l x hl => h.put_mono _ _ _ _ hl
  | lookup l => exact fun _ _ hl => hl
  | insert l b _ _ => exact fun _ _ hl => hl

theorem Access.coherent (h : E.Lawful) {a b : St E} (hx : Access sec a b) (hc : Coherent E sec a) : Coherent E sec b := by
  cases hx with
  | put d =>
    intro l b hl
    obtain ⟨h1, h2⟩ := hc l b hl
    have hle : StoreLe E a.store (E.put a.store d).2 := fun l x hl => h.put_mono _ _ _ _ hl
    refine ⟨?_, fun b' hb' => h2 b' ?_⟩
    · obtain ⟨x, hx⟩ := h1; exact ⟨x, hle l x hx⟩
    · rw [loadBranchFromLink_same hle h1] at hb'; exact hb'
  | lookup l => exact fun l' b hl => hc l' b (h.cacheGet_sub _ _ _ _ hl)
  | insert l b h1 h2 =>
    intro l' b' hl
    rcases h.cachePut_sub _ _ _ _ _ hl with ⟨rfl, rfl⟩ | hl
    · exact ⟨h1, h2⟩
    · exact hc l' b' hl

/-- What a user with the same index key has read can be inserted. -/
theorem Access.same_key {sec' : Secrets E} (hk : sec'.indexKey = sec.indexKey) (s : St E) {l : T.Link} {b : Branch T}
    (hb : loadBranchFromLink E sec' s.store l = .ok b) : Access sec s { s with cache := E.cachePut s.cache l b } := by
  refine .insert s l b (loadBranchFromLink_get hb) fun b' hb' => ?_
  have : loadBranchFromLink E sec' s.store l = loadBranchFromLink E sec s.store l := by
    unfold loadBranchFromLink
    rw [hk]
  rw [this, hb'] at hb
  cases hb
  rfl

theorem Meanwhile.grows (h : E.Lawful) {a b : St E} (hx : Meanwhile sec a b) : StoreLe E a.store b.store := by
  induction hx with
  | refl => exact fun _ _ hl => hl
  | step _ hs ih => exact fun l x hl => hs.grows h l x (ih l x hl)

theorem Meanwhile.coherent (h : E.Lawful) {a b : St E} (hx : Meanwhile sec a b) (hc : Coherent E sec a) : Coherent E sec b := by
  induction hx with
  | refl => exact hc
  | step _ hs ih => exact hs.coherent h ih

theorem StoreLe.cons {a b c : E.σ} (h1 : StoreLe E a b) (h2 : StoreLe E b c) : StoreLe E a c := fun l x hl => h2 l x (h1 l x hl)

/-- The main fact: a program that succeeds when it reads from a store only gives the same result among other threads. -/
theorem Prog.runs_plain (h : E.Lawful) {p : Prog T α} {s s' : St E} {r : Except Err α} (hr : p.Runs sec s r s') {σ : E.σ} {a : α}
    (hp : p.plain sec σ = .ok a) (hle : StoreLe E σ s.store) (hc : Coherent E sec s) :
    r = .ok a ∧ StoreLe E σ s'.store ∧ Coherent E sec s' := by
  induction hr with
  | ret a' hm =>
    cases hp
    exact ⟨rfl, hle.cons (hm.grows h), hm.coherent h hc⟩
  | stop e hm => cases hp
  | hit b hm hg _ ih =>
    have hc1 := hm.coherent h hc
    have hle1 := hle.cons (hm.grows h)
    unfold Prog.plain at hp
    split at hp
    · rename_i b' hb'
      have := (hc1 _ _ hg).2 b' (loadBranchFromLink_mono hle1 hb')
      subst this
      exact ih hp hle1 (fun l b hl => hc1 l b (h.cacheGet_sub _ _ _ _ hl))
    · cases hp
  | @miss s s₁ s₂ s₃ s' l k r b hm1 hg hm2 hl hm3 _ ih =>
    have hc1 := hm1.coherent h hc
    have hle1 := hle.cons (hm1.grows h)
    have hc2 := hm2.coherent h (fun l b hl => hc1 l b (h.cacheGet_sub _ _ _ _ hl))
    have hle2 := hle1.cons (hm2.grows h)
    have hc3 := hm3.coherent h hc2
    have hle3 := hle2.cons (hm3.grows h)
    unfold Prog.plain at hp
    split at hp
    · rename_i b' hb'
      have hb2 := loadBranchFromLink_mono hle2 hb'
      rw [hl] at hb2
      cases hb2
      refine ih hp hle3 ?_
      exact (Access.same_key (sec := sec) rfl s₃ (loadBranchFromLink_mono (hm3.grows h) hl)).coherent h hc3
    · cases hp
  | missing e hm1 hg hm2 hl _ =>
    have hle2 := (hle.cons (hm1.grows h)).cons (hm2.grows h)
    unfold Prog.plain at hp
    split at hp
    · rename_i b' hb'
      have hb2 := loadBranchFromLink_mono hle2 hb'
      rw [hl] at hb2
      cases hb2
    · cases hp
  | leaf b hm hl _ ih =>
    have hle1 := hle.cons (hm.grows h)
    unfold Prog.plain at hp
    split at hp
    · rename_i b' hb'
      have hb2 := loadLeafFromLink_mono hle1 hb'
      rw [hl] at hb2
      cases hb2
      exact ih hp hle1 (hm.coherent h hc)
    · cases hp
  | noLeaf e hm hl _ =>
    have hle1 := hle.cons (hm.grows h)
    unfold Prog.plain at hp
    split at hp
    · rename_i b' hb'
      have hb2 := loadLeafFromLink_mono hle1 hb'
      rw [hl] at hb2
      cases hb2
    · cases hp

/-! ### an environment without cache -/

/-- The same environment with a cache that never has anything. -/
def Env.uncached (E : Env T V) : Env T V :=
  { E with γ := Unit, cacheGet := fun _ _ => (none, ()), cachePut := fun _ _ _ => () }

theorem Env.uncached_lawful (h : E.Lawful) : E.uncached.Lawful where
  put_ok := h.put_ok
  put_mono := h.put_mono
  cacheGet_sub := fun _ _ _ _ hl => hl
  cachePut_sub := fun _ _ _ _ _ hl => (by cases hl)
  unz_zfin := h.unz_zfin
  zfin_ne := h.zfin_ne
  zlen_le := h.zlen_le
  encV_ne := h.encV_ne
  item_encV := h.item_encV
  decV_encV := h.decV_encV
  encIdx_ne := h.encIdx_ne
  item_encIdx := h.item_encIdx
  decIdx_encIdx := h.decIdx_encIdx
  decNode_encNode := h.decNode_encNode

def Secrets.uncached (sec : Secrets E) : Secrets E.uncached := ⟨sec.indexKey, sec.valueKey⟩
def Ctx.uncached (cx : Ctx E) : Ctx E.uncached := ⟨cx.cfg, cx.sec.uncached⟩
def St.uncached (s : St E) : St E.uncached := ⟨s.store, (), s.offset, s.root, s.puts, s.written⟩

set_option smartUnfolding false in
theorem loadBranchFromLink_uncached (σ : E.σ) (l : T.Link) :
    loadBranchFromLink E.uncached sec.uncached σ l = loadBranchFromLink E sec σ l := rfl

set_option smartUnfolding false in
theorem loadLeafFromLink_uncached (σ : E.σ) (l : T.Link) :
    loadLeafFromLink E.uncached sec.uncached σ l = loadLeafFromLink E sec σ l := rfl

set_option smartUnfolding false in
/-- Without cache, a program is run by reading from the store. -/
theorem Prog.run_uncached (p : Prog T α) (s : St E) :
    p.run sec.uncached s.uncached = match p.plain sec s.store with | .ok a => .ok a s.uncached | .error e => .error e s.uncached := by
  induction p with
  | ret a => rfl
  | stop e => rfl
  | branch l k ih =>
    unfold Prog.run Prog.plain
    rw [bind_apply]
    have : Banyan.loadBranchCached sec.uncached l s.uncached = match loadBranchFromLink E sec s.store l with
        | .ok b => .ok b s.uncached | .error e => .error e s.uncached := by
      rw [← loadBranchFromLink_uncached]
      unfold Banyan.loadBranchCached
      simp only [Env.uncached, St.uncached]
      cases loadBranchFromLink E.uncached sec.uncached s.store l <;> rfl
    rw [this]
    cases loadBranchFromLink E sec s.store l with
    | error e => rfl
    | ok b => exact ih b
  | leaf l k ih =>
    unfold Prog.run Prog.plain
    rw [bind_apply]
    have : Banyan.loadLeafM sec.uncached l s.uncached = match loadLeafFromLink E sec s.store l with
        | .ok b => .ok b s.uncached | .error e => .error e s.uncached := by
      rw [← loadLeafFromLink_uncached]
      unfold Banyan.loadLeafM
      show (match loadLeafFromLink E.uncached sec.uncached s.store l with | .error e => EStateM.Result.error e s.uncached | .ok b => .ok b s.uncached) = _
      cases loadLeafFromLink E.uncached sec.uncached s.store l <;> rfl
    rw [this]
    cases loadLeafFromLink E sec s.store l with
    | error e => rfl
    | ok b => exact ih b

set_option smartUnfolding false in
theorem Snap.uncached {cx : Ctx E} {s s' : St E} {t : Option (PTree T V)} (h : Snap cx s t s') :
    Snap cx.uncached s.uncached t s'.uncached where
  root := h.root
  coherent := fun l b hl => (by cases hl)
  stored := by
    intro t' ht n hn
    have := h.stored t' ht n hn
    cases n <;> exact this
  wf := by
    intro t' ht n hn
    have := h.wf t' ht n hn
    cases n <;> exact this

set_option smartUnfolding false in
theorem get0_uncached (fuel : Nat) (i : Index T) (o : Nat) : Prog.get0 E.uncached fuel i o = Prog.get0 E fuel i o := by
  induction fuel generalizing i o with
  | zero => rfl
  | succ fuel ih =>
    have : Prog.get0 E.uncached fuel = Prog.get0 E fuel := by funext i o; exact ih i o
    unfold Prog.get0
    rw [this]
    rfl

set_option smartUnfolding false in
theorem collect0_uncached (fuel : Nat) (i : Index T) (o : Nat) (into : List (Option (T.Key × V))) :
    Prog.collect0 E.uncached fuel i o into = Prog.collect0 E fuel i o into := by
  induction fuel generalizing i o into with
  | zero => rfl
  | succ fuel ih =>
    have : Prog.collect0 E.uncached fuel = Prog.collect0 E fuel := by funext i o into; exact ih i o into
    unfold Prog.collect0
    rw [this]
    rfl

set_option smartUnfolding false in
theorem iterStep_uncached (q : Query T) (mode : Mode) (mkExtra : Index T → X) (s : IterState T) :
    Prog.iterStep E.uncached q mode mkExtra s = Prog.iterStep E q mode mkExtra s := rfl

theorem nextFallible_uncached (q : Query T) (mode : Mode) (mkExtra : Index T → X) (fuel : Nat) (s : IterState T) :
    Prog.nextFallible E.uncached q mode mkExtra fuel s = Prog.nextFallible E q mode mkExtra fuel s := by
  induction fuel generalizing s with
  | zero => rfl
  | succ fuel ih =>
    have : Prog.nextFallible E.uncached q mode mkExtra fuel = Prog.nextFallible E q mode mkExtra fuel := by funext s; exact ih s
    unfold Prog.nextFallible
    rw [this, iterStep_uncached]

theorem Prog.plain_of_run {p : Prog T α} {s : St E} {a : α} {s' : St E.uncached} (h : p.run sec.uncached s.uncached = .ok a s') :
    p.plain sec s.store = .ok a := by
  rw [Prog.run_uncached] at h
  cases hp : p.plain sec s.store with
  | error e => rw [hp] at h; cases h
  | ok b => rw [hp] at h; cases h; rfl

/-! ### the operations -/

variable {cx : Ctx E} {s s' : St E} {t : Option (PTree T V)}

theorem Snap.plain_get (h : E.Lawful) (ht : T.Lawful) (hs : Snap cx s t s') (o fuel : Nat) (hf : rootLevel s.root < fuel) :
    (Prog.get fuel (snapshot cx s) o).plain cx.sec s'.store = .ok ((optContent t)[o]?.join) := by
  obtain ⟨s1, h1⟩ := hs.uncached.get (Env.uncached_lawful h) ht o fuel (by rw [snapshot_level]; exact hf)
  unfold snapshot at h1 ⊢
  cases hr : s.root with
  | none =>
    rw [show s.uncached.root = s.root from rfl, hr] at h1
    have h2 := (EStateM.Result.ok.inj h1).1
    rw [← h2]
    rfl
  | some i =>
    rw [show s.uncached.root = s.root from rfl, hr] at h1
    refine Prog.plain_of_run (s' := s1) ?_
    show (Prog.get0 E fuel i o).run cx.sec.uncached s'.uncached = _
    rw [← get0_uncached, Prog.run_get0]
    exact h1

theorem Snap.plain_collectFrom (h : E.Lawful) (ht : T.Lawful) (hs : Snap cx s t s') (o fuel : Nat) (hf : rootLevel s.root < fuel) :
    (Prog.collectFrom fuel (snapshot cx s) o).plain cx.sec s'.store = .ok ((optContent t).drop o) := by
  obtain ⟨s1, h1⟩ := hs.uncached.collectFrom (Env.uncached_lawful h) ht o fuel (by rw [snapshot_level]; exact hf)
  unfold snapshot at h1 ⊢
  cases hr : s.root with
  | none =>
    rw [show s.uncached.root = s.root from rfl, hr] at h1
    have h2 := (EStateM.Result.ok.inj h1).1
    rw [← h2]
    rfl
  | some i =>
    rw [show s.uncached.root = s.root from rfl, hr] at h1
    refine Prog.plain_of_run (s' := s1) ?_
    show (Prog.collect0 E fuel i o []).run cx.sec.uncached s'.uncached = _
    rw [← collect0_uncached, Prog.run_collect0]
    exact h1

open Classical in
theorem Snap.plain_isPacked (h : E.Lawful) (hs : Snap cx s t s') (fuel : Nat) (hf : rootLevel s.root < fuel) :
    (Prog.isPacked fuel (snapshot cx s)).plain cx.sec s'.store = .ok (decide (OptPacked t)) := by
  obtain ⟨s1, h1⟩ := hs.uncached.isPacked (Env.uncached_lawful h) fuel (by rw [snapshot_level]; exact hf)
  unfold snapshot at h1 ⊢
  cases hr : s.root with
  | none =>
    rw [show s.uncached.root = s.root from rfl, hr] at h1
    have h2 := (EStateM.Result.ok.inj h1).1
    rw [← h2]
    rfl
  | some i =>
    rw [show s.uncached.root = s.root from rfl, hr] at h1
    refine Prog.plain_of_run (s' := s1) ?_
    show (Prog.isPacked0 fuel i).run cx.sec.uncached s'.uncached = _
    rw [Prog.run_isPacked0]
    exact h1

/-- A consumer among other threads gets what a consumer gets that reads from the store only. -/
theorem consumes_plain (h : E.Lawful) {q : Query T} {mode : Mode} {mkExtra : Index T → X} {fuel n : Nat} {i : IterState T} {σ w : St E}
    {items : List (Except Err (Chunk T V X))} {xs : List (Chunk T V X)} {s1 : St E.uncached}
    (hi : iterTake sec.uncached q mode mkExtra fuel (fun _ s => s) n i σ.uncached = .ok (xs.map .ok) s1)
    (hc : Consumes sec (Prog.nextFallible E q mode mkExtra fuel) n i w items) (hle : StoreLe E σ.store w.store) (hco : Coherent E sec w) :
    items = xs.map .ok := by
  induction n generalizing i w items xs s1 with
  | zero =>
    cases hc
    have h2 := (EStateM.Result.ok.inj hi).1
    cases xs with
    | nil => rfl
    | cons _ _ => cases h2
  | succ n ih =>
    have key : ∀ {r : Except Err (Option (Chunk T V X) × IterState T)} {w' : St E}, (Prog.nextFallible E q mode mkExtra fuel i).Runs sec w r w' →
        ((∃ i', r = .ok (none, i')) ∧ xs = [] ∨ ∃ a i' xs' s2, r = .ok (some a, i') ∧ xs = a :: xs' ∧
          iterTake sec.uncached q mode mkExtra fuel (fun _ s => s) n i' σ.uncached = .ok (xs'.map .ok) s2) ∧
        StoreLe E σ.store w'.store ∧ Coherent E sec w' := by
      intro r w' hr
      unfold iterTake iterNext at hi
      rw [bind_apply, bind_apply] at hi
      have hrun : Banyan.nextFallible sec.uncached q mode mkExtra fuel i σ.uncached =
          match (Prog.nextFallible E q mode mkExtra fuel i).plain sec σ.store with
          | .ok a => .ok a σ.uncached | .error e => .error e σ.uncached := by
        rw [← Prog.run_nextFallible, nextFallible_uncached, Prog.run_uncached]
        cases (Prog.nextFallible E q mode mkExtra fuel i).plain sec σ.store <;> rfl
      unfold M.tryFail at hi
      rw [hrun] at hi
      rcases hp : (Prog.nextFallible E q mode mkExtra fuel i).plain sec σ.store with e | ⟨o, i'⟩
      · rw [hp] at hi
        cases e with
        | fail msg =>
          simp only at hi
          rw [show (pure (some (Except.error msg), ({ i with stack := [] } : IterState T)) : M E.uncached (Option (Except String (Chunk T V X)) × IterState T)) σ.uncached =
            .ok (some (.error msg), { i with stack := [] }) σ.uncached from rfl] at hi
          simp only [bind_apply] at hi
          exfalso
          revert hi
          rcases (modify fun s => s : M E.uncached PUnit) σ.uncached with ⟨_, s2⟩ | ⟨_, s2⟩
          · simp only
            rcases iterTake sec.uncached q mode mkExtra fuel (fun _ s => s) n { i with stack := [] } s2 with ⟨l, s3⟩ | ⟨_, s3⟩
            · intro hi
              have h2 := (EStateM.Result.ok.inj hi).1
              cases xs with
              | nil => cases h2
              | cons _ _ => cases h2
            · intro hi; cases hi
          · intro hi; cases hi
        | panic msg => cases hi
        | offsets => cases hi
        | fuel => cases hi
      · rw [hp] at hi
        obtain ⟨h1, h2, h3⟩ := Prog.runs_plain h hr hp hle hco
        refine ⟨?_, h2, h3⟩
        subst h1
        cases o with
        | none =>
          left
          refine ⟨⟨_, rfl⟩, ?_⟩
          have h2 := (EStateM.Result.ok.inj hi).1
          cases xs with
          | nil => rfl
          | cons _ _ => cases h2
        | some a =>
          right
          have hi' : (iterTake sec.uncached q mode mkExtra fuel (fun _ s => s) n i' >>= fun rest => pure (Except.ok a :: rest) :
              M E.uncached (List (Except String (Chunk T V X)))) σ.uncached = .ok (xs.map .ok) s1 := hi
          rw [bind_apply] at hi'
          rcases ht : iterTake sec.uncached q mode mkExtra fuel (fun _ s => s) n i' σ.uncached with ⟨l, s3⟩ | ⟨e, s3⟩
          · rw [ht] at hi'
            have h2 := (EStateM.Result.ok.inj hi').1
            cases xs with
            | nil => cases h2
            | cons x xs =>
              injection h2 with h4 h5
              cases h4
              exact ⟨a, i', xs, s3, rfl, rfl, by rw [ht, h5]⟩
          · rw [ht] at hi'
            cases hi'
    cases hc with
    | done hr =>
      obtain ⟨h1, _⟩ := key hr
      rcases h1 with ⟨_, h1⟩ | ⟨a, i', xs', s2, h1, _⟩
      · rw [h1]; rfl
      · cases h1
    | item hr hrest =>
      obtain ⟨h1, h2, h3⟩ := key hr
      rcases h1 with ⟨⟨_, h1⟩, _⟩ | ⟨a, i', xs', s2, h1, h4, h5⟩
      · cases h1
      · cases h1
        rw [h4, ih h5 hrest h2 h3]
        rfl
    | error hr hrest =>
      obtain ⟨h1, _⟩ := key hr
      rcases h1 with ⟨⟨_, h1⟩, _⟩ | ⟨a, i', xs', s2, h1, _⟩ <;> cases h1
    | panic hne hr =>
      obtain ⟨h1, _⟩ := key hr
      rcases h1 with ⟨⟨_, h1⟩, _⟩ | ⟨a, i', xs', s2, h1, _⟩ <;> cases h1

end Banyan
