import Verif.Spec.Forest
import Verif.Props.Graph
import Verif.Props.Cipher
/-
Several builders in one forest: C85.
-/
set_option autoImplicit false
namespace Banyan

open Concrete

variable {T : TreeTypes} {V : Type} {E : Env T V} {ι : Type} [DecidableEq ι] {cxs : ι → Ctx E} {a f f' : Forest E ι} {log : List ι}

omit [DecidableEq ι] in
theorem Separate.mono {σ σ' : E.σ} (h : StoreLe E σ σ') (hs : Separate cxs σ') : Separate cxs σ :=
  fun i j l b b' h1 h2 => hs i j l b b' (loadBranchFromLink_mono h h1) (loadBranchFromLink_mono h h2)

omit [DecidableEq ι] in
theorem Accounted.coherent (ha : Accounted cxs f) (hs : Separate cxs f.store) (i : ι) : Coherent E (cxs i).sec (f.view i) := by
  intro l b hb
  obtain ⟨j, hj⟩ := ha l b hb
  exact ⟨loadBranchFromLink_get hj, fun b' hb' => hs i j l b' b hb' hj⟩

theorem Forest.view_set_self (f : Forest E ι) (i : ι) (s : St E) : (f.set i s).view i = s := by
  unfold Forest.set Forest.view
  simp

theorem Forest.view_set_ne (f : Forest E ι) {i j : ι} (h : j ≠ i) (s : St E) :
    (f.set i s).view j = { f.view j with store := s.store, cache := s.cache } := by
  unfold Forest.set Forest.view
  simp [h]

/-- What one operation of a builder does to a forest. -/
theorem Forest.step {i : ι} {s : St E} (hst : StoreLe E f.store s.store) (hadd : CacheAdds E (cxs i).sec (f.view i) s)
    (ha : Accounted cxs f) : Accounted cxs (f.set i s) := by
  intro l b hb
  rcases hadd l b hb with h | h
  · obtain ⟨j, hj⟩ := ha l b h
    exact ⟨j, loadBranchFromLink_mono hst hj⟩
  · exact ⟨i, h⟩

/-- The store only grows. -/
theorem Together.store (h : E.Lawful) (ht : Together cxs a log f) : StoreLe E a.store f.store := by
  have key : ∀ {f : Forest E ι} {α : Type} (i : ι) {m : M E α}, Frame0 (cxs i) m → StoreLe E a.store f.store →
      StoreLe E a.store (f.set i (endState m (f.view i))).store :=
    fun {f} _ i m hm ih l b hb => (hm (f.view i)).1.store l b (ih l b hb)
  induction ht with
  | refl => exact StoreLe.refl _
  | extend i fuel xs _ _ _ ih => exact key i (frame0_extend h fuel xs) ih
  | extendUnpacked i fuel xs _ _ _ ih => exact key i (frame0_extendUnpacked h fuel xs) ih
  | pack i fuel _ _ ih => exact key i (frame0_pack h fuel) ih
  | retain i fuel q _ _ ih => exact key i (frame0_retain h fuel q) ih
  | world σ γ _ h1 _ ih => exact fun l b hb => h1 l b (ih l b hb)

theorem Together.runs (h : E.Lawful) (ht : Together cxs a log f) (ha : Accounted cxs a) (hs : Separate cxs f.store) :
    Accounted cxs f ∧ ∀ i, Run (cxs i) (a.view i) (f.view i) := by
  have key : ∀ {log : List ι} {f : Forest E ι} {α : Type} (i : ι) {m : M E α}, Together cxs a log f → Frame0 (cxs i) m →
      Separate cxs (f.set i (endState m (f.view i))).store →
      (Separate cxs f.store → Accounted cxs f ∧ ∀ i, Run (cxs i) (a.view i) (f.view i)) →
      (Run (cxs i) (a.view i) (f.view i) → Run (cxs i) (a.view i) (endState m (f.view i))) →
      Accounted cxs (f.set i (endState m (f.view i))) ∧
        ∀ j, Run (cxs j) (a.view j) ((f.set i (endState m (f.view i))).view j) := by
    intro log f α i m ht hm hs ih hr
    have hst : StoreLe E f.store (endState m (f.view i)).store := (hm (f.view i)).1.store
    obtain ⟨h1, h2⟩ := ih (hs.mono hst)
    have hacc : Accounted cxs (f.set i (endState m (f.view i))) := Forest.step hst (hm.adds _) h1
    refine ⟨hacc, fun j => ?_⟩
    by_cases hj : j = i
    · subst hj
      rw [Forest.view_set_self]
      exact hr (h2 j)
    · have hc := hacc.coherent hs j
      rw [Forest.view_set_ne f hj] at hc ⊢
      exact .world _ _ (h2 j) hst hc
  induction ht with
  | refl => exact ⟨ha, fun i => .refl _⟩
  | extend i fuel xs ht h1 h2 ih => exact key i ht (frame0_extend h fuel xs) hs ih fun hr => .extend fuel xs hr h1 h2
  | extendUnpacked i fuel xs ht h1 h2 ih => exact key i ht (frame0_extendUnpacked h fuel xs) hs ih fun hr => .extendUnpacked fuel xs hr h1 h2
  | pack i fuel ht h1 ih => exact key i ht (frame0_pack h fuel) hs ih fun hr => .pack fuel hr h1
  | retain i fuel q ht h1 ih => exact key i ht (frame0_retain h fuel q) hs ih fun hr => .retain fuel q hr h1
  | @world log f σ γ ht h1 h2 ih =>
    obtain ⟨h3, h4⟩ := ih (hs.mono h1)
    have hacc : Accounted cxs { f with store := σ, cache := γ } := by
      intro l b hb
      rcases h2 l b hb with hb | hb
      · obtain ⟨j, hj⟩ := h3 l b hb
        exact ⟨j, loadBranchFromLink_mono h1 hj⟩
      · exact hb
    exact ⟨hacc, fun i => .world _ _ (h4 i) h1 (hacc.coherent hs i)⟩

/-- C85: what a builder sees of what all of them do is an execution of this builder alone. -/
theorem C85_runs (h : E.Lawful) (ht : Together cxs a log f) (ha : Accounted cxs a) (hs : Separate cxs f.store) (i : ι) :
    Run (cxs i) (a.view i) (f.view i) := (ht.runs h ha hs).2 i

theorem load_keeps {cx : Ctx E} {l : T.Link} {s : St E} : (endState (loadStreamBuilder cx l) s).store = s.store ∧
    (endState (loadStreamBuilder cx l) s).cache = s.cache := by
  unfold endState loadStreamBuilder
  cases createIndexFromLink E cx.sec (fun items level => cx.cfg.branchSealed items level) s.store l with
  | error e => exact ⟨rfl, rfl⟩
  | ok x => exact ⟨rfl, rfl⟩

theorem Lives.reach (h : E.Lawful) (ok : ∀ i, (cxs i).Ok) (hl : Lives cxs f) (hs : Separate cxs f.store) :
    Accounted cxs f ∧ ∀ i, Reach (cxs i) (f.view i) := by
  induction hl with
  | new f h1 h2 => exact ⟨h2, fun i => .fresh _ (h1 i) (h2.coherent hs i)⟩
  | @run log f f' _ h2 ih =>
    obtain ⟨h3, h4⟩ := ih (hs.mono (h2.store h))
    obtain ⟨h5, h6⟩ := h2.runs h h3 hs
    exact ⟨h5, fun i => (h4 i).run (h6 i)⟩
  | @fork f i j b l _ h2 h3 h4 ih =>
    obtain ⟨k1, k2⟩ := load_keeps (cx := cxs j) (l := l) (s := f.view i)
    have k1 : (endState (loadStreamBuilder (cxs j) l) (f.view i)).store = f.store := k1
    have hs : Separate cxs f.store := by
      have : Separate cxs (endState (loadStreamBuilder (cxs j) l) (f.view i)).store := hs
      rwa [k1] at this
    obtain ⟨h5, h6⟩ := ih hs
    have hacc : Accounted cxs (f.set j (endState (loadStreamBuilder (cxs j) l) (f.view i))) := by
      intro l' b' hb
      have hb : (E.cacheGet (endState (loadStreamBuilder (cxs j) l) (f.view i)).cache l').1 = some b' := hb
      rw [k2] at hb
      obtain ⟨n, hn⟩ := h5 l' b' hb
      exact ⟨n, by show loadBranchFromLink E (cxs n).sec (endState (loadStreamBuilder (cxs j) l) (f.view i)).store l' = _; rw [k1]; exact hn⟩
    refine ⟨hacc, fun n => ?_⟩
    by_cases hn : n = j
    · subst hn
      rw [Forest.view_set_self]
      refine Reach.load (cfg' := (cxs i).cfg) (ok i).cfg b l ?_ h3 h4
      have := h6 i
      rw [← h2]
      exact this
    · rw [Forest.view_set_ne f hn, k1, k2]
      exact h6 n

/-- C85: however the builders of a forest interleave their operations, each of them is in a state it could also get into
alone, so that everything proved about single builders holds for it. -/
theorem C85_reach (h : E.Lawful) (ok : ∀ i, (cxs i).Ok) (hl : Lives cxs f) (hs : Separate cxs f.store) (i : ι) :
    Reach (cxs i) (f.view i) := (hl.reach h ok hs).2 i

theorem Together.own (ht : Together cxs a log f) {i : ι} (hi : i ∉ log) : f.own i = a.own i := by
  have key : ∀ {log : List ι} {f : Forest E ι} {j : ι} {s : St E}, (i ∉ log → f.own i = a.own i) → i ∉ log ++ [j] →
      (f.set j s).own i = a.own i := by
    intro log f j s ih hi
    simp only [List.mem_append, List.mem_singleton, not_or] at hi
    unfold Forest.set
    simp only [if_neg hi.2]
    exact ih hi.1
  induction ht with
  | refl => rfl
  | extend j fuel xs _ _ _ ih => exact key ih hi
  | extendUnpacked j fuel xs _ _ _ ih => exact key ih hi
  | pack j fuel _ _ ih => exact key ih hi
  | retain j fuel q _ _ ih => exact key ih hi
  | world σ γ _ _ _ ih => exact ih hi

/-- C85: the operations of the others, successful or not, do not change the tree of a builder, what can be read from it,
or the place in the key stream where it goes on. -/
theorem C85_undisturbed (h : E.Lawful) (ok : ∀ i, (cxs i).Ok) (hl : Lives cxs f) (ht : Together cxs f log f') (hs : Separate cxs f'.store)
    {i : ι} (hi : i ∉ log) (hsm : Small E (f.view i)) :
    (f'.own i).root = (f.own i).root ∧ (f'.own i).offset = (f.own i).offset ∧
    (∀ c, Contains (cxs i) (f.view i) c → Contains (cxs i) (f'.view i) c) ∧
    (∀ q mode, ∃ chunks, Delivers (fun between n fuel t => Tree.chunks q mode (fun _ => ()) between n fuel t) (cxs i).sec
        (snapshot (cxs i) (f.view i)) (f.view i) chunks ∧
      Delivers (fun between n fuel t => Tree.chunks q mode (fun _ => ()) between n fuel t) (cxs i).sec
        (snapshot (cxs i) (f'.view i)) (f'.view i) chunks) := by
  have hst := ht.store h
  obtain ⟨h1, h2⟩ := hl.reach h ok (hs.mono hst)
  obtain ⟨h3, h4⟩ := ht.runs h h1 hs
  have hown := ht.own hi
  have hv : f'.view i = { f.view i with store := f'.store, cache := f'.cache } := by
    unfold Forest.view
    rw [hown]
  have hc := h3.coherent hs i
  rw [hv] at hc ⊢
  have hlater : Later (cxs i).sec (f.view i) { f.view i with store := f'.store, cache := f'.cache } := .world _ _ .refl hst hc
  have hsnap : snapshot (cxs i) { f.view i with store := f'.store, cache := f'.cache } = snapshot (cxs i) (f.view i) := rfl
  refine ⟨by rw [hown], by rw [hown], fun c hcon => ?_, fun q mode => ?_⟩
  · obtain ⟨c', k1, k2⟩ := (C15_reads (ok i) (h2 i) hsm hlater).1
    unfold Contains at hcon ⊢
    rw [hsnap, Yields.unique hcon k1]
    exact k2
  · rw [hsnap]
    exact (C15_iterators (ok i) (h2 i) hsm hlater q mode fun _ => ()).1

/-! ### C86 -/

/-- C86, what is true: in a forest with any number of builders, the blocks of one builder use disjoint parts of the key
stream, whatever the others do in the meantime. -/
theorem C86_no_reuse_partial (h : E.Lawful) (ok : ∀ i, (cxs i).Ok) (ht : Together cxs a log f) (ha : Accounted cxs a)
    (hs : Separate cxs f.store) (i : ι) :
    ∃ new, (f.own i).puts = (a.own i).puts ++ new ∧ NoReuse E new ∧
      ∀ b ∈ new, ∀ lo hi, UsesBytes E b lo hi → (a.own i).offset ≤ lo ∧ hi ≤ (f.own i).offset :=
  C21_no_reuse (ok i) (C85_runs h ht ha hs i)

/-! ### a forest with three builders -/

namespace Concrete

/-- Two builders with the same keys, and one with other keys. -/
def users (i : Fin 3) : Ctx env := if i = 2 then ⟨tiny, ⟨(7 : Nat), (9 : Nat)⟩⟩ else ctx tiny

theorem users_ok (i : Fin 3) : (users i).Ok := by
  unfold users
  split
  · exact ⟨env_lawful, types_lawful, tiny_valid⟩
  · exact tiny_ok

def emptyForest : Forest env (Fin 3) := ⟨(⟨[], 200⟩ : Store), ([] : List (Nat × Branch types)), fun _ => ⟨0, none, [], []⟩⟩

def acts (i : Fin 3) (m : Ctx env → M env Unit) (f : Forest env (Fin 3)) : Forest env (Fin 3) := f.set i (endState (m (users i)) (f.view i))

/-- The builders append, pack and purge in turn. -/
def mixed : Forest env (Fin 3) :=
  acts 0 (fun cx => pack cx 10) (acts 2 (fun cx => extendUnpacked cx 10 (seq 60 3)) (acts 0 (fun cx => extendUnpacked cx 10 (seq 7 2))
    (acts 1 (fun cx => extend cx 10 (seq 40 5)) (acts 2 (fun cx => extend cx 10 (seq 50 6)) (acts 0 (fun cx => extend cx 10 (seq 0 7)) emptyForest)))))

theorem accounted_empty : Accounted users emptyForest := fun _ _ h => by cases h

theorem acts_extend {log : List (Fin 3)} {f : Forest env (Fin 3)} {a : Forest env (Fin 3)} (h : Together users a log f) (i : Fin 3) (fuel : Nat)
    (xs : List (Nat × Nat)) (hf : fits (f.view i) fuel xs.length = true) :
    Together users a (log ++ [i]) (acts i (fun cx => extend cx fuel xs) f) :=
  Together.extend (T := types) i fuel (show List (types.Key × Nat) from xs) h (fits_iff hf).1 (fits_iff hf).2

theorem acts_extendUnpacked {log : List (Fin 3)} {f : Forest env (Fin 3)} {a : Forest env (Fin 3)} (h : Together users a log f) (i : Fin 3) (fuel : Nat)
    (xs : List (Nat × Nat)) (hf : fits (f.view i) fuel xs.length = true) :
    Together users a (log ++ [i]) (acts i (fun cx => extendUnpacked cx fuel xs) f) :=
  Together.extendUnpacked (T := types) i fuel (show List (types.Key × Nat) from xs) h (fits_iff hf).1 (fits_iff hf).2

theorem acts_pack {log : List (Fin 3)} {f : Forest env (Fin 3)} {a : Forest env (Fin 3)} (h : Together users a log f) (i : Fin 3) (fuel : Nat)
    (hf : fits (f.view i) fuel 0 = true) : Together users a (log ++ [i]) (acts i (fun cx => pack cx fuel) f) :=
  .pack i fuel h (fits_iff hf).1

/-- The first three operations. -/
def begun : Forest env (Fin 3) :=
  acts 1 (fun cx => extend cx 10 (seq 40 5)) (acts 2 (fun cx => extend cx 10 (seq 50 6)) (acts 0 (fun cx => extend cx 10 (seq 0 7)) emptyForest))

theorem begun_together : Together users emptyForest [0, 2, 1] begun :=
  acts_extend (acts_extend (acts_extend .refl 0 10 _ (by decide +kernel)) 2 10 _ (by decide +kernel)) 1 10 _ (by decide +kernel)

theorem mixed_together : Together users emptyForest [0, 2, 1, 0, 2, 0] mixed :=
  acts_pack (acts_extendUnpacked (acts_extendUnpacked begun_together 0 10 _ (by decide +kernel)) 2 10 _ (by decide +kernel)) 0 10 (by decide +kernel)

/-- The block can be read as a branch. -/
def opens (i : Fin 3) (σ : Store) (l : Nat) : Bool :=
  match loadBranchFromLink env (users i).sec σ l with
  | .ok _ => true
  | .error _ => false

theorem opens_of {i : Fin 3} {σ : Store} {l : Nat} {b : Branch types} (h : loadBranchFromLink env (users i).sec σ l = .ok b) :
    opens i σ l = true ∧ l < σ.blocks.length := by
  constructor
  · unfold opens; rw [h]
  · obtain ⟨d, hd⟩ := loadBranchFromLink_get h
    have hd : Store.get σ l = .ok d := hd
    unfold Store.get at hd
    cases hl : σ.blocks[l]? with
    | none => rw [hl] at hd; cases hd
    | some x =>
      rw [List.getElem?_eq_some_iff] at hl
      exact hl.1

theorem separate_of {σ : Store} (h : (List.range σ.blocks.length).all (fun l => !(opens 0 σ l && opens 2 σ l)) = true) : Separate users σ := by
  have key : ∀ {i j : Fin 3} {l : Nat} {b b' : Branch types}, loadBranchFromLink env (users i).sec σ l = .ok b →
      loadBranchFromLink env (users j).sec σ l = .ok b' → (users i).sec = (users j).sec := by
    intro i j l b b' h1 h2
    obtain ⟨g1, g2⟩ := opens_of h1
    obtain ⟨g3, _⟩ := opens_of h2
    have h3 := List.all_eq_true.mp h l (List.mem_range.mpr g2)
    by_cases hi : i = 2 <;> by_cases hj : j = 2
    · subst hi hj; rfl
    · have : opens 0 σ l = opens j σ l := by unfold opens users; rw [if_neg hj]; rfl
      subst hi
      rw [this, g1, g3] at h3
      cases h3
    · have : opens 0 σ l = opens i σ l := by unfold opens users; rw [if_neg hi]; rfl
      subst hj
      rw [this, g1, g3] at h3
      cases h3
    · unfold users; rw [if_neg hi, if_neg hj]
  intro i j l b b' h1 h2
  have := key h1 h2
  rw [this, h2] at h1
  injection h1 with h1
  exact h1.symm

theorem mixed_separate : Separate users mixed.store := separate_of (by decide +kernel)

theorem begun_lives : Lives users begun := .run (.new emptyForest (fun _ => rfl) accounted_empty) begun_together

/-- All three builders are fine, and the third has its nine elements. -/
example : (∀ i, Reach (users i) (mixed.view i)) ∧ (valueOf (Tree.collect 10 (snapshot (users 2) (mixed.view 2))) (mixed.view 2)).map List.length = some 9 :=
  ⟨C85_reach env_lawful users_ok (.run (.new emptyForest (fun _ => rfl) accounted_empty) mixed_together) mixed_separate, by decide +kernel⟩

/-- The second one has not noticed what the others did after its operation. -/
example (c : List (Option (types.Key × Nat))) (hc : Contains (users 1) (begun.view 1) c) : Contains (users 1) (mixed.view 1) c := by
  have ht : Together users begun [0, 2, 0] mixed :=
    acts_pack (acts_extendUnpacked (acts_extendUnpacked .refl 0 10 _ (by decide +kernel)) 2 10 _ (by decide +kernel)) 0 10 (by decide +kernel)
  exact (C85_undisturbed env_lawful users_ok begun_lives ht mixed_separate (i := 1) (by decide) (small_of (by decide +kernel))).2.2.1 c hc

/-- The offset into the key stream and the encrypted bytes of the first block of a builder. -/
def firstOf (i : Fin 3) : Option (Nat × Bytes) :=
  match (begun.own i).puts[0]? with
  | none => none
  | some b =>
    match env.decNode b with
    | .ok (o, _, d) => some (o, d)
    | .error _ => none

theorem firstOf_uses {i : Fin 3} {o : Nat} {d : Bytes} (h : firstOf i = some (o, d)) :
    ∃ b ∈ (begun.own i).puts, ∀ n, n = o + d.length → UsesBytes env b o n := by
  unfold firstOf at h
  cases hb : (begun.own i).puts[0]? with
  | none => rw [hb] at h; cases h
  | some b =>
    rw [hb] at h
    refine ⟨b, List.mem_of_getElem? hb, fun n hn => ?_⟩
    subst hn
    simp only at h
    cases hd : env.decNode b with
    | error e => rw [hd] at h; cases h
    | ok x =>
      rw [hd] at h
      obtain ⟨o', links, d'⟩ := x
      cases h
      exact ⟨links, d, hd, rfl⟩

def xors (a b : Bytes) : Bytes := List.zipWith (· ^^^ ·) a b

/-- C86 is false for builders with the same keys: each of them starts at the begin of the key stream. Here, the first blocks
of two builders, both leaves, use the same part of the key stream, so that the difference of the encrypted bytes `d` and `d'`
is the difference of what was encrypted. -/
theorem C86_reused : Lives users begun ∧ (users 0).sec = (users 1).sec ∧
    ∃ (b b' : Bytes) (d d' : Bytes), b ∈ (begun.own 0).puts ∧ b' ∈ (begun.own 1).puts ∧
      UsesBytes env b 0 d.length ∧ UsesBytes env b' 0 d'.length ∧ 0 < d.length ∧ 0 < d'.length ∧ d ≠ d' ∧
      xors d d' = xors (applyKeystream env (users 0).sec.valueKey 0 d) (applyKeystream env (users 1).sec.valueKey 0 d') := by
  obtain ⟨b, h1, h2⟩ := firstOf_uses (i := 0) (o := 0) (d := [4, 8, 15, 20, 27, 30, 41]) (by decide +kernel)
  obtain ⟨b', h1', h2'⟩ := firstOf_uses (i := 1) (o := 0) (d := [4, 9, 15, 132, 26, 29, 35, 179, 45]) (by decide +kernel)
  exact ⟨begun_lives, rfl, b, b', [4, 8, 15, 20, 27, 30, 41], [4, 9, 15, 132, 26, 29, 35, 179, 45], h1, h1', h2 _ rfl, h2' _ rfl, by decide, by decide, by decide,
    by decide +kernel⟩

/-- Nevertheless, none of the three builders uses a part twice. -/
example (i : Fin 3) : ∃ new, (mixed.own i).puts = [] ++ new ∧ NoReuse env new := by
  obtain ⟨new, h1, h2, _⟩ := C86_no_reuse_partial env_lawful users_ok mixed_together accounted_empty mixed_separate i
  exact ⟨new, h1, h2⟩

end Concrete

end Banyan
