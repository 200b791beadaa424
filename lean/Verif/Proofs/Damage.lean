import Verif.Spec.Damage
import Verif.Proofs.SnapIter
import Verif.Proofs.IndexIter
/-
Reading from a damaged store either gives an error or what the intact store gives.
-/
set_option autoImplicit false
namespace Banyan

variable {T : TreeTypes} {V : Type} {E : Env T V} {cx : Ctx E} {sec : Secrets E} {σ : E.σ} {α β X : Type}

/-- The state with the intact store. -/
def intact (σ : E.σ) (s : St E) : St E := { s with store := σ }

theorem Faulty.coherent {s : St E} (hf : Faulty sec σ s) : Coherent E sec (intact σ s) := hf.cache

/-- Run on a damaged store, the operation fails with an error or has the same outcome as on the intact store. -/
def Robust (sec : Secrets E) (σ : E.σ) (m : M E α) : Prop :=
  ∀ s, Faulty sec σ s →
    (∃ a s', m s = .ok a s' ∧ Faulty sec σ s' ∧ m (intact σ s) = .ok a (intact σ s')) ∨
    (∃ e s', m s = .error e s' ∧ Faulty sec σ s' ∧ ((∃ msg, e = .fail msg) ∨ ∃ s0', m (intact σ s) = .error e s0'))

namespace Robust

theorem pure (a : α) : Robust sec σ (Pure.pure a : M E α) := fun s h => .inl ⟨a, s, rfl, h, rfl⟩

theorem throw (e : Err) : Robust sec σ (MonadExcept.throw e : M E α) := fun s h => .inr ⟨e, s, rfl, h, .inr ⟨_, rfl⟩⟩

theorem bind {m : M E α} {f : α → M E β} (hm : Robust sec σ m) (hf : ∀ a, Robust sec σ (f a)) : Robust sec σ (m >>= f) := by
  intro s h1
  rcases hm s h1 with ⟨a, s', g1, g2, g4⟩ | ⟨e, s', g1, g2, g3⟩
  · rcases hf a s' g2 with ⟨b, s2, k1, k2, k4⟩ | ⟨e, s2, k1, k2, k3⟩
    · exact .inl ⟨b, s2, by rw [bind_apply, g1]; exact k1, k2, by rw [bind_apply, g4]; exact k4⟩
    · refine .inr ⟨e, s2, by rw [bind_apply, g1]; exact k1, k2, ?_⟩
      rcases k3 with k3 | ⟨s0', k3⟩
      · exact .inl k3
      · exact .inr ⟨s0', by rw [bind_apply, g4]; exact k3⟩
  · refine .inr ⟨e, s', by rw [bind_apply, g1], g2, ?_⟩
    rcases g3 with g3 | ⟨s0', g3⟩
    · exact .inl g3
    · exact .inr ⟨s0', by rw [bind_apply, g3]⟩

theorem lift (x : Except Err α) : Robust sec σ (M.lift x : M E α) := by
  cases x with
  | ok a => exact pure a
  | error e => exact throw e

theorem assert (b : Bool) (msg : String) : Robust sec σ (M.assert b msg : M E Unit) := by
  intro s h
  unfold M.assert
  cases b with
  | true => exact .inl ⟨(), s, rfl, h, rfl⟩
  | false => exact .inr ⟨_, s, rfl, h, .inr ⟨_, rfl⟩⟩

theorem loadBranch_damaged {τ : E.σ} (hd : ∀ l b, E.get τ l = .ok b → E.get σ l = .ok b) (l : T.Link) :
    (∃ msg, loadBranchFromLink E sec τ l = .error (.fail msg)) ∨ loadBranchFromLink E sec τ l = loadBranchFromLink E sec σ l := by
  unfold loadBranchFromLink getBlock
  cases hg : E.get τ l with
  | error m => exact .inl ⟨m, rfl⟩
  | ok b => rw [hd l b hg]; exact .inr rfl

theorem loadLeaf_damaged {τ : E.σ} (hd : ∀ l b, E.get τ l = .ok b → E.get σ l = .ok b) (l : T.Link) :
    (∃ msg, loadLeafFromLink E sec τ l = .error (.fail msg)) ∨ loadLeafFromLink E sec τ l = loadLeafFromLink E sec σ l := by
  unfold loadLeafFromLink getBlock
  cases hg : E.get τ l with
  | error m => exact .inl ⟨m, rfl⟩
  | ok b => rw [hd l b hg]; exact .inr rfl

theorem loadLeafM (l : T.Link) : Robust sec σ (Banyan.loadLeafM sec l) := by
  intro s h
  unfold Banyan.loadLeafM
  rcases loadLeaf_damaged (sec := sec) h.store l with ⟨msg, hm⟩ | hm
  · rw [hm]; exact .inr ⟨_, s, rfl, h, .inl ⟨msg, rfl⟩⟩
  · rw [hm]
    show _ ∨ _
    simp only [intact]
    cases hx : loadLeafFromLink E sec σ l with
    | ok a => exact .inl ⟨a, s, rfl, h, rfl⟩
    | error e => exact .inr ⟨e, s, rfl, h, .inr ⟨_, rfl⟩⟩

theorem loadBranchM (l : T.Link) : Robust sec σ (Banyan.loadBranchM sec l) := by
  intro s h
  unfold Banyan.loadBranchM
  rcases loadBranch_damaged (sec := sec) h.store l with ⟨msg, hm⟩ | hm
  · rw [hm]; exact .inr ⟨_, s, rfl, h, .inl ⟨msg, rfl⟩⟩
  · rw [hm]
    simp only [intact]
    cases hx : loadBranchFromLink E sec σ l with
    | ok a => exact .inl ⟨a, s, rfl, h, rfl⟩
    | error e => exact .inr ⟨e, s, rfl, h, .inr ⟨_, rfl⟩⟩

theorem loadBranchCached (h : E.Lawful) (l : T.Link) : Robust sec σ (Banyan.loadBranchCached sec l) := by
  intro s hf
  obtain ⟨c', hc', _⟩ := loadBranchCached_coherent h hf.coherent l
  have hsub : Faulty sec σ { s with cache := (E.cacheGet s.cache l).2 } :=
    ⟨hf.store, fun l' x hx => hf.cache l' x (h.cacheGet_sub _ _ _ _ hx)⟩
  unfold Banyan.loadBranchCached
  simp only [intact]
  cases hc : E.cacheGet s.cache l with
  | mk r c =>
    rw [hc] at hsub
    cases r with
    | some b => exact .inl ⟨b, _, rfl, hsub, rfl⟩
    | none =>
      simp only
      rcases loadBranch_damaged (sec := sec) hf.store l with ⟨msg, hm⟩ | hm
      · rw [hm]; exact .inr ⟨_, _, rfl, hsub, .inl ⟨msg, rfl⟩⟩
      · rw [hm]
        cases hx : loadBranchFromLink E sec σ l with
        | ok a =>
          refine .inl ⟨a, _, rfl, ⟨hf.store, ?_⟩, rfl⟩
          intro l' x hl'
          rcases h.cachePut_sub _ _ _ _ _ hl' with ⟨rfl, rfl⟩ | h2
          · exact ⟨loadBranchFromLink_get hx, fun b2 h2 => by rw [hx] at h2; injection h2 with h2; exact h2.symm⟩
          · exact hsub.cache l' x h2
        | error e => exact .inr ⟨e, _, rfl, hsub, .inr ⟨_, rfl⟩⟩

/-! ### reading -/

theorem get0Loop {rec : Index T → Nat → M E (Option (T.Key × V))} (hf : ∀ i o, Robust sec σ (rec i o))
    (cs : List (Index T)) (o : Nat) : Robust sec σ (Banyan.get0Loop rec cs o) := by
  induction cs generalizing o with
  | nil => exact throw _
  | cons c cs ih =>
    unfold Banyan.get0Loop
    split
    · exact hf _ _
    · exact ih _

theorem get0 (h : E.Lawful) (fuel : Nat) (index : Index T) (o : Nat) : Robust sec σ (Banyan.get0 (E := E) sec fuel index o) := by
  induction fuel generalizing index o with
  | zero => exact throw _
  | succ fuel ih =>
    unfold Banyan.get0
    split
    · exact pure _
    · cases index with
      | branch b =>
        simp only
        cases b.link with
        | none => exact pure _
        | some link => exact (loadBranchCached h _).bind fun _ => get0Loop (fun i o => ih i o) _ _
      | leaf l =>
        simp only
        cases l.link with
        | none => exact pure _
        | some link =>
          simp only
          cases T.keys.get l.keys o with
          | none => exact throw _
          | some k => exact (loadLeafM _).bind fun _ => (lift _).bind fun _ => pure _

theorem collect0Loop {rec : Index T → Nat → List (Option (T.Key × V)) → M E (List (Option (T.Key × V)))}
    (hf : ∀ i o x, Robust sec σ (rec i o x)) (cs : List (Index T)) (o : Nat) (into : List (Option (T.Key × V))) :
    Robust sec σ (Banyan.collect0Loop rec cs o into) := by
  induction cs generalizing o into with
  | nil => exact pure _
  | cons c cs ih =>
    unfold Banyan.collect0Loop
    split
    · exact (hf _ _ _).bind fun _ => ih _ _
    · exact ih _ _

theorem collect0 (h : E.Lawful) (fuel : Nat) (index : Index T) (o : Nat) (into : List (Option (T.Key × V))) :
    Robust sec σ (Banyan.collect0 (E := E) sec fuel index o into) := by
  induction fuel generalizing index o into with
  | zero => exact throw _
  | succ fuel ih =>
    unfold Banyan.collect0
    split
    · exact pure _
    · cases index with
      | branch b =>
        simp only
        cases b.link with
        | none => exact pure _
        | some link => exact (loadBranchCached h _).bind fun _ => collect0Loop (fun i o x => ih i o x) _ _ _
      | leaf l =>
        simp only
        cases l.link with
        | none => exact pure _
        | some link => exact (loadLeafM _).bind fun _ => (lift _).bind fun _ => pure _

theorem isPacked0 (h : E.Lawful) (fuel : Nat) (index : Index T) : Robust sec σ (Banyan.isPacked0 (E := E) sec fuel index) := by
  induction fuel generalizing index with
  | zero => exact throw _
  | succ fuel ih =>
    unfold Banyan.isPacked0
    cases index with
    | leaf l => exact pure _
    | branch b =>
      simp only
      cases b.link with
      | none => exact pure _
      | some link =>
        simp only
        split
        · exact pure _
        · refine (loadBranchCached h _).bind fun br => ?_
          cases br.children.getLast? with
          | none => exact pure _
          | some last => exact (ih _).bind fun _ => pure _

/-! ### iterators -/

theorem moveOffset (mode : Mode) (offset count : Nat) : Robust sec σ (Banyan.moveOffset (E := E) mode offset count) := by
  unfold Banyan.moveOffset
  cases mode with
  | forward => exact pure _
  | backward => simp only; split <;> first | exact pure _ | exact throw _

theorem visitLeaf (mkExtra : Index T → X) (range : Nat × Nat) (index : LeafIndex T) (link : T.Link) (matching : List Bool) :
    Robust sec σ (Banyan.visitLeaf (E := E) sec mkExtra range index link matching) := by
  unfold Banyan.visitLeaf
  refine bind ?_ fun _ => pure _
  unfold visitLeafData
  split
  · exact (loadLeafM _).bind fun _ => (lift _).bind fun _ => pure _
  · exact pure _

theorem skipTop (mode : Mode) (mkExtra : Index T → X) (offset : Nat) (top : TraverseState T)
    (rest : List (TraverseState T)) (range : Nat × Nat) :
    Robust sec σ (Banyan.skipTop (E := E) mode mkExtra offset top rest range) :=
  (moveOffset _ _ _).bind fun _ => pure _

theorem branchStep (h : E.Lawful) (mode : Mode) (mkExtra : Index T → X) (offset : Nat) (head : TraverseState T)
    (rest : List (TraverseState T)) (link : T.Link) :
    Robust sec σ (Banyan.branchStep (E := E) sec mode mkExtra offset head rest link) := by
  refine (loadBranchCached h _).bind fun br => ?_
  simp only
  split
  · exact pure _
  · exact (moveOffset _ _ _).bind fun _ => pure _
  · exact throw _

theorem iterStep (h : E.Lawful) (query : Query T) (mode : Mode) (mkExtra : Index T → X) (s : IterState T) :
    Robust sec σ (Banyan.iterStep (E := E) sec query mode mkExtra s) := by
  unfold Banyan.iterStep
  cases s.stack with
  | nil => exact pure _
  | cons head rest =>
    simp only
    split
    · exact pure _
    · cases head.index with
      | branch b =>
        simp only
        cases b.link with
        | none => exact skipTop _ _ _ _ _ _
        | some link =>
          simp only
          split
          · split
            · exact skipTop _ _ _ _ _ _
            · exact branchStep h _ _ _ _ _ _
          · exact branchStep h _ _ _ _ _ _
      | leaf l =>
        simp only
        cases l.link with
        | none => exact skipTop _ _ _ _ _ _
        | some link => exact (visitLeaf _ _ _ _ _).bind fun _ => (moveOffset _ _ _).bind fun _ => pure _

theorem indexBranchStep (mode : Mode) (offset : Nat) (head : TraverseState T) (rest : List (TraverseState T)) (branch : Branch T) :
    Robust sec σ (Banyan.indexBranchStep (E := E) mode offset head rest branch) := by
  unfold Banyan.indexBranchStep
  simp only
  split
  · exact pure _
  · exact (moveOffset _ _ _).bind fun _ => pure _
  · exact throw _

theorem startOffsetOf (mode : Mode) (offset count : Nat) : Robust sec σ (Banyan.startOffsetOf (E := E) mode offset count) := by
  unfold Banyan.startOffsetOf
  cases mode with
  | forward => exact pure _
  | backward => exact moveOffset _ _ _

theorem indexStep (h : E.Lawful) (query : Query T) (mode : Mode) (s : IterState T) :
    Robust sec σ (Banyan.indexStep (E := E) sec query mode s) := by
  unfold Banyan.indexStep
  cases s.stack with
  | nil => exact pure _
  | cons head rest =>
    simp only
    split
    · exact pure _
    · cases head.index with
      | branch b =>
        simp only
        cases b.link with
        | none => exact (moveOffset _ _ _).bind fun _ => pure _
        | some link =>
          refine (loadBranchCached h _).bind fun br => ?_
          split
          · exact (startOffsetOf _ _ _).bind fun _ => pure _
          · exact indexBranchStep _ _ _ _ _
      | leaf l => exact (moveOffset _ _ _).bind fun _ => pure _

theorem nextFallible (h : E.Lawful) (query : Query T) (mode : Mode) (mkExtra : Index T → X) (fuel : Nat) (s : IterState T) :
    Robust sec σ (Banyan.nextFallible (E := E) sec query mode mkExtra fuel s) := by
  induction fuel generalizing s with
  | zero => exact throw _
  | succ fuel ih =>
    refine (iterStep h _ _ _ _).bind fun r => ?_
    cases r with
    | done => exact pure _
    | cont s => exact ih _
    | item a s => exact pure _

end Robust

/-- With an operation that succeeds on the intact store, only an error can occur on a damaged one. -/
theorem Robust.tries {m : M E α} (hm : Robust sec σ m) {s : St E} {a : α} (hf : Faulty sec σ s) (hr : Reads sec m (intact σ s) a) :
    (∃ s', m s = .ok a s' ∧ Faulty sec σ s') ∨ ∃ msg s', m s = .error (.fail msg) s' ∧ Faulty sec σ s' := by
  obtain ⟨c, hc, hr⟩ := hr
  rcases hm s hf with ⟨a', s', g1, g2, g3⟩ | ⟨e, s', g1, g2, g3⟩
  · rw [hr] at g3
    cases (EStateM.Result.ok.inj g3).1
    exact .inl ⟨s', g1, g2⟩
  · rcases g3 with ⟨msg, rfl⟩ | ⟨s0', g3⟩
    · exact .inr ⟨msg, s', g1, g2⟩
    · rw [hr] at g3; cases g3

variable {q : Query T} {mkExtra : Index T → X} {L : Nat}

theorem piecesOf_ne {cs : List (PTree T V)} (ih : ∀ c ∈ cs, ∀ o, chunksOf q mkExtra c o ≠ []) {f : List Bool} (hl : f.length = cs.length) (hne : cs ≠ [])
    (o : Nat) : piecesOf q mkExtra cs f o ≠ [] := by
  cases cs with
  | nil => exact absurd rfl hne
  | cons c cs =>
    cases f with
    | nil => simp at hl
    | cons b f =>
      simp only [piecesOf]
      cases b with
      | false => simp
      | true => simp [ih c (by simp) o]

theorem chunksOf_ne {t : PTree T V} (hok : IterOk t) (o : Nat) : chunksOf q mkExtra t o ≠ [] := by
  induction t using PTree.induct generalizing o with
  | leaf i vs => simp [chunksOf]
  | purgedLeaf i => simp [chunksOf]
  | purgedBranch i => simp [chunksOf]
  | branch i cs ih =>
    unfold chunksOf
    split
    · have hr := PTree.All.root hok
      refine piecesOf_ne (fun c hc o => ih c hc (PTree.All.children hok c hc) o) ?_ hr.2.2.1 o
      rw [q.len_intersecting, List.length_replicate, hr.2.2.2]
    · simp

/-- When everything has been delivered, nothing more is read. -/
theorem Vis.finished {m : Mode} {st : List (TraverseState T)} {o : Nat} {rem : List (Chunk T V X)} {lv : Nat}
    (hv : Vis sec σ q mkExtra L m st o rem lv) (hrem : rem = []) (fuel : Nat) (hl : L + 1 < fuel + lv) (s : St E) :
    ∃ it, nextFallible sec q m mkExtra fuel ⟨o, st⟩ s = .ok (none, it) s := by
  have pop : ∀ {m : Mode} {o : Nat} {head : TraverseState T} {rest : List (TraverseState T)} {fuel : Nat}, head.isExhausted m = true →
      (∃ it, nextFallible sec q m mkExtra fuel ⟨o, bumpTop m rest⟩ s = .ok (none, it) s) →
      ∃ it, nextFallible sec q m mkExtra (fuel + 1) ⟨o, head :: rest⟩ s = .ok (none, it) s := by
    intro m o head rest fuel hx ⟨it, hn⟩
    refine ⟨it, ?_⟩
    have hs : iterStep (E := E) sec q m mkExtra ⟨o, head :: rest⟩ = pure (.cont ⟨o, bumpTop m rest⟩) := by
      unfold iterStep
      simp only
      rw [if_pos hx]
    unfold nextFallible
    rw [bind_apply, hs]
    exact hn
  induction hv generalizing fuel with
  | nil m o =>
    cases fuel with
    | zero => omega
    | succ fuel => exact ⟨⟨o, []⟩, rfl⟩
  | @fwd i pre todo fpre ftodo o rest rem lv hs h1 h2 h3 hv' ih =>
    obtain ⟨g1, g2⟩ := List.append_eq_nil_iff.mp hrem
    have hle := hv'.le
    cases todo with
    | cons c todo =>
      exact absurd g1 (piecesOf_ne (fun d hd o => chunksOf_ne (PTree.All.children hs.ok d (by simp at hd ⊢; exact .inr hd)) o) h2 (by simp) o)
    | nil =>
      have hft : ftodo = [] := List.length_eq_zero_iff.mp h2
      subst hft
      cases fuel with
      | zero => omega
      | succ fuel =>
        refine pop ?_ (by simpa [sizes_nil] using ih g2 fuel (by omega))
        have hne := (PTree.All.root hs.ok).2.2.1
        have hlen : 0 < (fpre ++ ([] : List Bool)).length := by
          rw [List.length_append, h1, h2, ← List.length_append]
          exact List.length_pos_iff.mpr hne
        simp only [TraverseState.isExhausted]
        rw [Bool.and_eq_true]
        constructor
        · simp only [Bool.not_eq_true', List.isEmpty_eq_false_iff]
          exact List.length_pos_iff.mp hlen
        · simp [h1]
  | @bwd i todo post ftodo fpost o rest rem lv hs h1 h2 h3 hv' ih =>
    obtain ⟨g1, g2⟩ := List.append_eq_nil_iff.mp hrem
    have hle := hv'.le
    cases todo with
    | cons c todo =>
      exact absurd (List.reverse_eq_nil_iff.mp g1)
        (piecesOf_ne (fun d hd o => chunksOf_ne (PTree.All.children hs.ok d (List.mem_append_left _ hd)) o) h1 (by simp) o)
    | nil =>
      cases fuel with
      | zero => omega
      | succ fuel => exact pop (by simp [TraverseState.isExhausted]) (by simpa [sizes_nil] using ih g2 fuel (by omega))

theorem Live.finished {m : Mode} {it : IterState T} (hl : Live sec σ q mkExtra L m it ([] : List (Chunk T V X))) {fuel : Nat} (hf : L + 1 < fuel)
    (s : St E) : ∃ it', nextFallible sec q m mkExtra fuel it s = .ok (none, it') s := by
  rcases hl with ⟨t, ⟨rest, base, rem', lv, _, h2, _, _, h5⟩, _⟩ | ⟨lv, hv⟩
  · obtain ⟨g1, _⟩ := List.append_eq_nil_iff.mp h5.symm
    have := chunksOf_ne (q := q) (mkExtra := mkExtra) h2.ok base
    cases m
    · exact absurd g1 this
    · exact absurd (List.reverse_eq_nil_iff.mp g1) this
  · exact hv.finished rfl fuel (by omega) s

theorem iterNext_faulty (h : E.Lawful) (ht : T.Lawful) {m : Mode} {fuel : Nat} {it : IterState T} {rem : List (Chunk T V X)} {s : St E}
    (hf : Faulty sec σ s) (hl : Live sec σ q mkExtra L m it rem) (hfu : 2 * L + 4 ≤ fuel) :
    (∃ msg s', iterNext sec q m mkExtra fuel it s = .ok (some (.error msg), { it with stack := [] }) s' ∧ Faulty sec σ s' ∧ rem ≠ []) ∨
    (rem = [] ∧ ∃ it' s', iterNext sec q m mkExtra fuel it s = .ok (none, it') s' ∧ Faulty sec σ s') ∨
    (∃ ch rem' it' s', iterNext sec q m mkExtra fuel it s = .ok (some (.ok ch), it') s' ∧ Faulty sec σ s' ∧ rem = ch :: rem' ∧
      Live sec σ q mkExtra L m it' rem') := by
  have hn : NextIs sec σ q mkExtra L m (nextFallible sec q m mkExtra fuel it) rem (intact σ s) := by
    have hst : ∀ s : St E, StoreLe E σ (intact σ s).store := fun _ _ _ h => h
    rcases hl with ⟨t, hfr, hlv⟩ | ⟨lv, hv⟩
    · exact next_fresh h ht fuel t it rem (intact σ s) (hst s) hf.coherent hfr (by omega)
    · exact next_vis h ht fuel it rem (intact σ s) lv (hst s) hf.coherent hv (by omega)
  have hrob := Robust.nextFallible (sec := sec) (σ := σ) (E := E) h q m mkExtra fuel it
  have herr : ∀ {msg s'}, nextFallible sec q m mkExtra fuel it s = .error (.fail msg) s' →
      iterNext sec q m mkExtra fuel it s = .ok (some (.error msg), { it with stack := [] }) s' := by
    intro msg s' hr
    unfold iterNext
    rw [bind_apply]
    unfold M.tryFail
    rw [hr]
    rfl
  rcases hn with ⟨g1, it', g2, g3⟩ | ⟨ch, rem', it', lv, g1, g2, g3⟩
  · rcases hrob.tries hf g2 with ⟨s', k1, k2⟩ | ⟨msg, s', k1, k2⟩
    · refine .inr (.inl ⟨g1, it', s', ?_, k2⟩)
      unfold iterNext
      rw [bind_apply]
      unfold M.tryFail
      rw [k1]
      rfl
    · subst g1
      obtain ⟨it'', hfin⟩ := hl.finished (fuel := fuel) (by omega) s
      rw [hfin] at k1
      cases k1
  · rcases hrob.tries hf g1 with ⟨s', k1, k2⟩ | ⟨msg, s', k1, k2⟩
    · refine .inr (.inr ⟨ch, rem', it', s', ?_, k2, g2, .inr ⟨lv, g3⟩⟩)
      unfold iterNext
      rw [bind_apply]
      unfold M.tryFail
      rw [k1]
      rfl
    · exact .inl ⟨msg, s', herr k1, k2, by rw [g2]; simp⟩

/-- What an iterator delivers on a damaged store: all items, or some of them and then an error. -/
theorem iterTake_faulty (h : E.Lawful) (ht : T.Lawful) {m : Mode} {fuel : Nat} {between : Nat → St E → St E} (hb : Tolerable sec σ between)
    (n : Nat) {it : IterState T} {rem : List (Chunk T V X)} {s : St E} (hf : Faulty sec σ s)
    (hl : Live sec σ q mkExtra L m it rem) (hfu : 2 * L + 4 ≤ fuel) :
    ∃ r s', iterTake sec q m mkExtra fuel between n it s = .ok r s' ∧ Faulty sec σ s' ∧
      (r = (rem.take n).map .ok ∨ ∃ j e, j < n ∧ j < rem.length ∧ r = (rem.take j).map .ok ++ [.error e]) := by
  induction n generalizing it rem s with
  | zero => exact ⟨[], s, rfl, hf, .inl rfl⟩
  | succ n ih =>
    rcases iterNext_faulty h ht hf hl hfu with ⟨msg, s', g1, g2, g3⟩ | ⟨g1, it', s', g2, g3⟩ | ⟨ch, rem', it', s', g1, g2, g3, g4⟩
    · have h3 : ∃ s2, iterTake sec q m mkExtra fuel between n { it with stack := [] } (between n s') = .ok [] s2 ∧ Faulty sec σ s2 := by
        cases n with
        | zero => exact ⟨_, rfl, hb _ _ g2⟩
        | succ n =>
          cases fuel with
          | zero => omega
          | succ fuel => exact ⟨_, rfl, hb _ _ g2⟩
      obtain ⟨s2, k1, k2⟩ := h3
      refine ⟨[.error msg], s2, ?_, k2, .inr ⟨0, msg, by omega, List.length_pos_iff.mpr g3, by simp⟩⟩
      unfold iterTake
      rw [bind_apply, g1]
      simp only
      rw [bind_apply, show (modify (between n) : M E Unit) s' = .ok () (between n s') from rfl]
      simp only
      rw [bind_apply, k1]
      rfl
    · subst g1
      refine ⟨[], s', ?_, g3, .inl rfl⟩
      unfold iterTake
      rw [bind_apply, g2]
      rfl
    · obtain ⟨r, s2, k1, k2, k3⟩ := ih (hb n _ g2) g4
      refine ⟨.ok ch :: r, s2, ?_, k2, ?_⟩
      · unfold iterTake
        rw [bind_apply, g1]
        simp only
        rw [bind_apply, show (modify (between n) : M E Unit) s' = .ok () (between n s') from rfl]
        simp only
        rw [bind_apply, k1]
        rfl
      · subst g3
        rcases k3 with rfl | ⟨j, e, j1, j2, rfl⟩
        · exact .inl (by simp)
        · exact .inr ⟨j + 1, e, by omega, by simpa using j2, by simp⟩

/-! ### the index iterator -/

theorem indexNext_faulty (h : E.Lawful) {m : Mode} (fuel : Nat) {it : IterState T} {rem : List (Nat × PTree T V)} {w : Nat} {s : St E}
    (hf : Faulty sec σ s) (hv : IVis sec σ q m it.stack it.offset rem w) (hw : w < fuel) :
    (rem = [] ∧ ∃ it' s', indexNext (E := E) sec q m fuel it s = .ok (none, it') s' ∧ Faulty sec σ s') ∨
    (∃ o t rem' it' w' s', indexNext (E := E) sec q m fuel it s = .ok (some (.ok t.index), it') s' ∧ Faulty sec σ s' ∧
      rem = (o, t) :: rem' ∧ w' ≤ w ∧ IVis sec σ q m it'.stack it'.offset rem' w') ∨
    (∃ msg it' w' s', indexNext (E := E) sec q m fuel it s = .ok (some (.error msg), it') s' ∧ Faulty sec σ s' ∧ w' ≤ w ∧
      IVis sec σ q m it'.stack it'.offset rem w') := by
  have hst : ∀ s : St E, StoreLe E σ (intact σ s).store := fun _ _ _ h => h
  induction fuel generalizing it w s with
  | zero => omega
  | succ fuel ih =>
    have hrob := Robust.indexStep (sec := sec) (σ := σ) (E := E) h q m it
    have hfail : ∀ {msg s'}, indexStep sec q m it s = .error (.fail msg) s' →
        indexNext sec q m (fuel + 1) it s = .ok (some (.error msg), it) s' := by
      intro msg s' hr
      unfold indexNext
      rw [bind_apply]
      unfold M.tryFail
      rw [hr]
      rfl
    rcases iturn h (hst s) hf.coherent hv with ⟨g1, g2⟩ | ⟨it', w', g2, g3, g4⟩ | ⟨o, t, rem', it', w', g2, g3, g4, g5⟩
    · rcases hrob.tries hf g2 with ⟨s', k1, k2⟩ | ⟨msg, s', k1, k2⟩
      · refine .inl ⟨g1, it, s', ?_, k2⟩
        unfold indexNext
        rw [bind_apply]
        unfold M.tryFail
        rw [k1]
        rfl
      · exact .inr (.inr ⟨msg, it, w, s', hfail k1, k2, Nat.le_refl _, hv⟩)
    · rcases hrob.tries hf g2 with ⟨s', k1, k2⟩ | ⟨msg, s', k1, k2⟩
      · have hcont : indexNext sec q m (fuel + 1) it s = indexNext sec q m fuel it' s' := by
          conv => lhs; unfold indexNext
          rw [bind_apply]
          unfold M.tryFail
          rw [k1]
        rw [hcont]
        rcases ih k2 g4 (by omega) with r | ⟨o, t, rem', it2, w2, s2, r1, r2, r3, r4, r5⟩ | ⟨msg, it2, w2, s2, r1, r2, r3, r4⟩
        · exact .inl r
        · exact .inr (.inl ⟨o, t, rem', it2, w2, s2, r1, r2, r3, by omega, r5⟩)
        · exact .inr (.inr ⟨msg, it2, w2, s2, r1, r2, by omega, r4⟩)
      · exact .inr (.inr ⟨msg, it, w, s', hfail k1, k2, Nat.le_refl _, hv⟩)
    · rcases hrob.tries hf g2 with ⟨s', k1, k2⟩ | ⟨msg, s', k1, k2⟩
      · refine .inr (.inl ⟨o, t, rem', it', w', s', ?_, k2, g3, by omega, g5⟩)
        unfold indexNext
        rw [bind_apply]
        unfold M.tryFail
        rw [k1]
        rfl
      · exact .inr (.inr ⟨msg, it, w, s', hfail k1, k2, Nat.le_refl _, hv⟩)

/-- The items that are not errors. -/
def oks {α : Type} (l : List (Except String α)) : List α := l.filterMap fun | .ok a => some a | .error _ => none

theorem indexTake_faulty (h : E.Lawful) {m : Mode} {fuel : Nat} {between : Nat → St E → St E} (hb : Tolerable sec σ between)
    (n : Nat) {it : IterState T} {rem : List (Nat × PTree T V)} {w : Nat} {s : St E} (hf : Faulty sec σ s)
    (hv : IVis sec σ q m it.stack it.offset rem w) (hw : w < fuel) :
    ∃ r s', indexTake sec q m fuel between n it s = .ok r s' ∧ Faulty sec σ s' ∧ oks r <+: rem.map fun x => x.2.index := by
  induction n generalizing it rem w s with
  | zero => exact ⟨[], s, rfl, hf, List.nil_prefix⟩
  | succ n ih =>
    rcases indexNext_faulty h fuel hf hv hw with ⟨g1, it', s', g2, g3⟩ | ⟨o, t, rem', it', w', s', g1, g2, g3, g4, g5⟩ |
      ⟨msg, it', w', s', g1, g2, g3, g4⟩
    · refine ⟨[], s', ?_, g3, List.nil_prefix⟩
      unfold indexTake
      rw [bind_apply, g2]
      rfl
    · obtain ⟨r, s2, k1, k2, k3⟩ := ih (hb n _ g2) g5 (by omega)
      refine ⟨.ok t.index :: r, s2, ?_, k2, ?_⟩
      · unfold indexTake
        rw [bind_apply, g1]
        simp only
        rw [bind_apply, show (modify (between n) : M E Unit) s' = .ok () (between n s') from rfl]
        simp only
        rw [bind_apply, k1]
        rfl
      · subst g3
        simp only [oks, List.filterMap_cons, List.map_cons]
        exact List.cons_prefix_cons.mpr ⟨rfl, k3⟩
    · obtain ⟨r, s2, k1, k2, k3⟩ := ih (hb n _ g2) g4 (by omega)
      refine ⟨.error msg :: r, s2, ?_, k2, ?_⟩
      · unfold indexTake
        rw [bind_apply, g1]
        simp only
        rw [bind_apply, show (modify (between n) : M E Unit) s' = .ok () (between n s') from rfl]
        simp only
        rw [bind_apply, k1]
        rfl
      · simpa only [oks, List.filterMap_cons] using k3

end Banyan
