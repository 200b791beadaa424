import Verif.Spec.Repair
import Verif.Proofs.Snap
/-
`repair`.
-/
set_option autoImplicit false
namespace Banyan

open PTree

variable {T : TreeTypes} {V : Type} {E : Env T V} {cx : Ctx E} {I : NodeInv cx} {α β : Type}

/-! ### only blocks are added -/

/-- The computation changes the store only by adding blocks, and does not touch the cache. -/
def OnlyPuts (m : M E α) : Prop := ∀ s, PutsTo E s.store (endState m s).store ∧ (endState m s).cache = s.cache

theorem PutsTo.trans {a b c : E.σ} (h1 : PutsTo E a b) (h2 : PutsTo E b c) : PutsTo E a c := by
  induction h2 with
  | refl => exact h1
  | put x _ ih => exact .put x ih

theorem PutsTo.le (h : E.Lawful) {a b : E.σ} (hp : PutsTo E a b) : StoreLe E a b := by
  induction hp with
  | refl => exact StoreLe.refl _
  | put x _ ih => exact ih.trans fun l b hb => h.put_mono _ _ _ _ hb

namespace OnlyPuts

theorem ok {m : M E α} (hm : OnlyPuts m) {s s' : St E} {a : α} (h : m s = .ok a s') : PutsTo E s.store s'.store ∧ s'.cache = s.cache := by
  have := hm s
  unfold endState at this
  rw [h] at this
  exact this

theorem of_same {m : M E α} (h : ∀ s, (endState m s).store = s.store ∧ (endState m s).cache = s.cache) : OnlyPuts m := by
  intro s
  rw [(h s).1]
  exact ⟨.refl, (h s).2⟩

theorem pure (a : α) : OnlyPuts (Pure.pure a : M E α) := of_same fun _ => ⟨rfl, rfl⟩

theorem throw (e : Err) : OnlyPuts (MonadExcept.throw e : M E α) := of_same fun _ => ⟨rfl, rfl⟩

theorem lift (x : Except Err α) : OnlyPuts (M.lift x : M E α) := of_same fun _ => by
  unfold endState M.lift; cases x <;> exact ⟨rfl, rfl⟩

theorem bind {m : M E α} {f : α → M E β} (hm : OnlyPuts m) (hf : ∀ a, OnlyPuts (f a)) : OnlyPuts (m >>= f) := by
  intro s
  have h1 := hm s
  unfold endState at *
  rw [bind_apply]
  cases hms : m s with
  | error e s1 => rw [hms] at h1; exact h1
  | ok a s1 =>
    rw [hms] at h1
    have h2 := hf a s1
    unfold endState at h2
    exact ⟨h1.1.trans h2.1, h2.2.trans h1.2⟩

theorem persistBranch (items : List (Index T)) : OnlyPuts (Banyan.persistBranch cx items) := by
  unfold Banyan.persistBranch serializeCompressed intoEncrypted
  refine bind (of_same fun _ => ⟨rfl, rfl⟩) fun _ => bind (bind (lift _) fun z => bind (of_same fun s => ?_) fun _ => pure _) fun _ => bind ?_ fun _ => pure _
  · unfold endState reserve
    split <;> (rename_i hx; split at hx <;> cases hx <;> exact ⟨rfl, rfl⟩)
  · intro s
    rename_i b
    unfold endState putBlock
    have : PutsTo E s.store (E.put s.store b).2 := .put b .refl
    cases hp : E.put s.store b with
    | mk r st =>
      rw [hp] at this
      cases r <;> exact ⟨this, rfl⟩

theorem repairLoop {rec : Index T → List (RepairMsg T) → Int → M E (Index T × List (RepairMsg T) × Int)}
    (hf : ∀ i r l, OnlyPuts (rec i r l)) (cs : List (Index T)) (report : List (RepairMsg T)) (level : Int) :
    OnlyPuts (Banyan.repairLoop rec cs report level) := by
  induction cs generalizing report level with
  | nil => exact pure _
  | cons c cs ih =>
    unfold Banyan.repairLoop
    refine bind (hf _ _ _) fun r => bind (ih _ _) fun r' => ?_
    obtain ⟨a, b, c⟩ := r'
    simp only
    split <;> exact pure _

theorem repair0 (fuel : Nat) (index : Index T) (report : List (RepairMsg T)) (level : Int) :
    OnlyPuts (Banyan.repair0 cx fuel index report level) := by
  induction fuel generalizing index report level with
  | zero => exact throw _
  | succ fuel ih =>
    intro s
    unfold Banyan.repair0 endState
    simp only
    cases index with
    | branch b =>
      simp only
      cases hl : loadBranch E cx.sec s.store b with
      | error e => cases e <;> exact ⟨.refl, rfl⟩
      | ok o =>
        cases o with
        | none => exact ⟨.refl, rfl⟩
        | some node =>
          simp only
          refine bind (repairLoop ih _ _ _) (fun r => ?_) s
          obtain ⟨a, b, c, d⟩ := r
          simp only
          split
          · exact bind (persistBranch _) fun _ => pure _
          · exact pure _
    | leaf l =>
      simp only
      cases hl : loadLeaf E cx.sec s.store l with
      | error e => cases e <;> exact ⟨.refl, rfl⟩
      | ok o => exact ⟨.refl, rfl⟩

end OnlyPuts

/-! ### nothing to report -/

/-- If nothing is reported then nothing was done. -/
theorem repairLoop_silent {rec : Index T → List (RepairMsg T) → Int → M E (Index T × List (RepairMsg T) × Int)}
    (hrec : ∀ i rep l s i' rep' l' s', rec i rep l s = .ok (i', rep', l') s' → ∃ new, rep' = rep ++ new ∧ (new = [] → i' = i ∧ s' = s))
    (cs : List (Index T)) (rep : List (RepairMsg T)) (l : Int) (s s' : St E) (cs' : List (Index T)) (ch : Bool) (rep' : List (RepairMsg T)) (l' : Int)
    (h : repairLoop rec cs rep l s = .ok (cs', ch, rep', l') s') : ∃ new, rep' = rep ++ new ∧ (new = [] → cs' = cs ∧ ch = false ∧ s' = s) := by
  induction cs generalizing rep l s s' cs' ch rep' l' with
  | nil => cases h; exact ⟨[], by simp, fun _ => ⟨rfl, rfl, rfl⟩⟩
  | cons c cs ih =>
    unfold repairLoop at h
    rw [bind_apply] at h
    cases h1 : rec c rep l s with
    | error e s1 => rw [h1] at h; cases h
    | ok r s1 =>
      obtain ⟨c1, rep1, l1⟩ := r
      rw [h1] at h
      simp only at h
      rw [bind_apply] at h
      cases h2 : repairLoop rec cs rep1 l1 s1 with
      | error e s2 => rw [h2] at h; cases h
      | ok r s2 =>
        obtain ⟨cs1, ch1, rep2, l2⟩ := r
        rw [h2] at h
        simp only at h
        obtain ⟨n1, e1, k1⟩ := hrec _ _ _ _ _ _ _ _ h1
        obtain ⟨n2, e2, k2⟩ := ih _ _ _ _ _ _ _ _ h2
        split at h
        · rename_i hne
          cases h
          refine ⟨n1 ++ n2, by rw [e2, e1, List.append_assoc], fun hn => ?_⟩
          rw [List.append_eq_nil_iff] at hn
          exact absurd (by rw [(k1 hn.1).1]) hne
        · cases h
          refine ⟨n1 ++ n2, by rw [e2, e1, List.append_assoc], fun hn => ?_⟩
          rw [List.append_eq_nil_iff] at hn
          obtain ⟨a1, a2, a3⟩ := k2 hn.2
          exact ⟨by rw [a1], a2, by rw [a3, (k1 hn.1).2]⟩

/-- What is added to the report if the block of a branch cannot be read. -/
def branchMsgs (b : BranchIndex T) (level : Int) : List (RepairMsg T) :=
  .forgetBranch b.link :: if !b.isSealed then [.warnUnsealedBranch] else if (b.level : Int) > level then [.warnUnpackedBranch] else []

/-- What is added to the report if the block of a leaf cannot be read. -/
def leafMsgs (b : LeafIndex T) (level : Int) : List (RepairMsg T) :=
  .forgetLeaf b.link :: if !b.isSealed then [.warnUnsealedLeaf] else if level < 0 then [.warnUnpackedLeaf] else []

/-- The level below which `repair0` continues. -/
def repairLevel (i : Index T) (level : Int) : Int := if !i.isSealed then min level ((i.level : Int) - 1) else level

theorem msgs_eq {γ : Type} (a : Bool) (p : Prop) [Decidable p] (r : List γ) (f m k : γ) :
    (if !a then r ++ [f] ++ [m] else if p then r ++ [f] ++ [k] else r ++ [f]) = r ++ f :: (if !a then [m] else if p then [k] else []) := by
  cases a <;> simp
  split <;> rfl

theorem repair0_branch (fuel : Nat) (b : BranchIndex T) (rep : List (RepairMsg T)) (l : Int) (s : St E) :
    repair0 cx (fuel + 1) (.branch b) rep l s =
      match loadBranch E cx.sec s.store b with
      | .ok (some node) => (repairLoop (repair0 cx fuel) node.children rep (repairLevel (.branch b) l) >>= fun r =>
          if r.2.1 then persistBranch cx r.1 >>= fun x => pure (.branch { b with link := some x.1 }, r.2.2.1, r.2.2.2)
          else pure (.branch b, r.2.2.1, r.2.2.2) : M E (Index T × List (RepairMsg T) × Int)) s
      | .ok none => .ok (.branch b, rep, repairLevel (.branch b) l) s
      | .error (.fail _) => .ok (.branch { b with link := none }, rep ++ branchMsgs b (repairLevel (.branch b) l), repairLevel (.branch b) l) s
      | .error e => .error e s := by
  unfold repair0
  simp only
  cases hl : loadBranch E cx.sec s.store b with
  | error e =>
    cases e with
    | fail m =>
      simp only
      congr 2
      exact congrArg (·, repairLevel (.branch b) l) (msgs_eq b.isSealed _ rep _ _ _)
    | _ => rfl
  | ok o =>
    cases o with
    | none => rfl
    | some node => rfl

theorem repair0_leaf (fuel : Nat) (b : LeafIndex T) (rep : List (RepairMsg T)) (l : Int) (s : St E) :
    repair0 cx (fuel + 1) (.leaf b) rep l s =
      match loadLeaf E cx.sec s.store b with
      | .ok _ => .ok (.leaf b, rep, repairLevel (.leaf b) l) s
      | .error (.fail _) => .ok (.leaf { b with link := none }, rep ++ leafMsgs b (repairLevel (.leaf b) l), repairLevel (.leaf b) l) s
      | .error e => .error e s := by
  unfold repair0
  simp only
  cases hl : loadLeaf E cx.sec s.store b with
  | error e =>
    cases e with
    | fail m =>
      simp only
      congr 2
      exact congrArg (·, repairLevel (.leaf b) l) (msgs_eq b.isSealed _ rep _ _ _)
    | _ => rfl
  | ok o => rfl

theorem repair0_silent (fuel : Nat) (i : Index T) (rep : List (RepairMsg T)) (l : Int) (s : St E) (i' : Index T) (rep' : List (RepairMsg T)) (l' : Int)
    (s' : St E) (h : repair0 cx fuel i rep l s = .ok (i', rep', l') s') : ∃ new, rep' = rep ++ new ∧ (new = [] → i' = i ∧ s' = s) := by
  induction fuel generalizing i rep l s i' rep' l' s' with
  | zero => cases h
  | succ fuel ih =>
    cases i with
    | branch b =>
      rw [repair0_branch] at h
      cases hl : loadBranch E cx.sec s.store b with
      | error e =>
        rw [hl] at h
        cases e <;> cases h
        exact ⟨_, rfl, fun hn => by cases hn⟩
      | ok o =>
        rw [hl] at h
        cases o with
        | none => cases h; exact ⟨[], by simp, fun _ => ⟨rfl, rfl⟩⟩
        | some node =>
          simp only at h
          rw [bind_apply] at h
          cases h1 : repairLoop (repair0 cx fuel) node.children rep (repairLevel (.branch b) l) s with
          | error e s1 => rw [h1] at h; cases h
          | ok r s1 =>
            obtain ⟨cs1, ch, rep1, l1⟩ := r
            rw [h1] at h
            obtain ⟨new, e1, k1⟩ := repairLoop_silent ih _ _ _ _ _ _ _ _ _ h1
            simp only at h
            cases ch with
            | false =>
              cases h
              exact ⟨new, e1, fun hn => ⟨rfl, (k1 hn).2.2⟩⟩
            | true =>
              simp only [if_true] at h
              rw [bind_apply] at h
              cases h2 : persistBranch cx cs1 s1 with
              | error e s2 => rw [h2] at h; cases h
              | ok x s2 =>
                rw [h2] at h
                cases h
                exact ⟨new, e1, fun hn => by cases (k1 hn).2.1⟩
    | leaf b =>
      rw [repair0_leaf] at h
      cases hl : loadLeaf E cx.sec s.store b with
      | error e =>
        rw [hl] at h
        cases e <;> cases h
        exact ⟨_, rfl, fun hn => by cases hn⟩
      | ok o =>
        rw [hl] at h
        cases h
        exact ⟨[], by simp, fun _ => ⟨rfl, rfl⟩⟩

/-- If `repair` reports nothing then it changes nothing. -/
theorem repair_silent {fuel : Nat} {s s' : St E} (h : repair cx fuel s = .ok [] s') : s' = s := by
  unfold repair at h
  rw [bind_apply] at h
  simp only [getIndex] at h
  cases hr : s.root with
  | none => rw [hr] at h; cases h; rfl
  | some i =>
    rw [hr] at h
    simp only at h
    rw [bind_apply] at h
    cases h1 : repair0 cx fuel i [] i32max s with
    | error e s1 => rw [h1] at h; cases h
    | ok r s1 =>
      obtain ⟨i', rep, l⟩ := r
      rw [h1] at h
      simp only at h
      obtain ⟨new, e1, k1⟩ := repair0_silent _ _ _ _ _ _ _ _ _ h1
      have : rep = [] := by cases h; rfl
      rw [this, List.nil_append] at e1
      obtain ⟨a1, a2⟩ := k1 e1.symm
      subst a1 a2
      cases h
      rw [← hr]

/-! ### intact trees -/

theorem repairLoop_intact {rec : Index T → List (RepairMsg T) → Int → M E (Index T × List (RepairMsg T) × Int)} (s : St E)
    (cs : List (Index T)) (hrec : ∀ c ∈ cs, ∀ rep l, ∃ l', rec c rep l s = .ok (c, rep, l') s) (rep : List (RepairMsg T)) (l : Int) :
    ∃ l', repairLoop rec cs rep l s = .ok (cs, false, rep, l') s := by
  induction cs generalizing l with
  | nil => exact ⟨l, rfl⟩
  | cons c cs ih =>
    obtain ⟨l1, h1⟩ := hrec c (by simp) rep l
    obtain ⟨l2, h2⟩ := ih (fun d hd => hrec d (by simp [hd])) l1
    refine ⟨l2, ?_⟩
    unfold repairLoop
    rw [bind_apply, h1]
    simp only
    rw [bind_apply, h2]
    simp only [ne_eq, not_true, if_false]
    rfl

/-- Repairing a tree all of whose blocks can be read. -/
theorem repair0_intact (fuel : Nat) (t : PTree T V) (rep : List (RepairMsg T)) (l : Int) (s : St E) (hs : Stored E cx.sec s.store t) (hc : Counts t)
    (hf : t.index.level < fuel) : ∃ l', repair0 cx fuel t.index rep l s = .ok (t.index, rep, l') s := by
  induction fuel generalizing t rep l with
  | zero => omega
  | succ fuel ih =>
    cases t with
    | leaf i vs =>
      obtain ⟨lk, z, r, h1, h2, _⟩ := PTree.All.root hs
      show ∃ l', repair0 cx (fuel + 1) (.leaf i) rep l s = .ok (.leaf i, rep, l') s
      rw [repair0_leaf]
      unfold loadLeaf
      rw [h1]
      simp only [h2]
      exact ⟨_, rfl⟩
    | purgedLeaf i =>
      have h1 : i.link = none := PTree.All.root hs
      show ∃ l', repair0 cx (fuel + 1) (.leaf i) rep l s = .ok (.leaf i, rep, l') s
      rw [repair0_leaf]
      unfold loadLeaf
      rw [h1]
      exact ⟨_, rfl⟩
    | purgedBranch i =>
      have h1 : i.link = none := PTree.All.root hs
      show ∃ l', repair0 cx (fuel + 1) (.branch i) rep l s = .ok (.branch i, rep, l') s
      rw [repair0_branch]
      unfold loadBranch
      rw [h1]
      exact ⟨_, rfl⟩
    | branch i cs =>
      obtain ⟨lk, r, h1, h2⟩ := PTree.All.root hs
      show ∃ l', repair0 cx (fuel + 1) (.branch i) rep l s = .ok (.branch i, rep, l') s
      rw [repair0_branch]
      have hld : loadBranch E cx.sec s.store i = .ok (some ⟨cs.map index, r⟩) := by
        unfold loadBranch; rw [h1]; simp only [h2]
      rw [hld]
      simp only
      have hf' : i.level < fuel + 1 := hf
      obtain ⟨l', h3⟩ := repairLoop_intact (rec := repair0 cx fuel) s (cs.map index) (by
        intro c hc2 rep l
        obtain ⟨c', hc', rfl⟩ := List.mem_map.mp hc2
        have := (PTree.All.root hc).1 c' hc'
        exact ih c' rep l (PTree.All.children hs c' hc') (PTree.All.children hc c' hc') (by omega)) rep (repairLevel (.branch i) l)
      refine ⟨l', ?_⟩
      rw [bind_apply, h3]
      rfl

/-! ### trees with any purged nodes -/

/-- The structural invariants of a node, if purged nodes need not be sealed. -/
def LooseAt (E : Env T V) : PTree T V → Prop
  | .purgedLeaf i => 0 < T.keys.len i.keys
  | .purgedBranch i => 0 < i.count ∧ 0 < i.level ∧ (i.isSealed = true → i.level ≤ i.count) ∧ 0 < T.sums.len i.summaries
  | n => WFAt E n

/-- A tree in the store which is well formed except that purged nodes need not be sealed. -/
def Mended (I : NodeInv cx) (σ : E.σ) (t : PTree T V) : Prop :=
  t.All fun n => StoredAt E cx.sec σ n ∧ LooseAt E n ∧ I.J σ n

/-- All purged nodes are sealed. -/
def SealedPurges (t : PTree T V) : Prop := t.All fun
  | .purgedLeaf i => i.isSealed = true
  | .purgedBranch i => i.isSealed = true
  | _ => True

theorem Mended.mono {a b : E.σ} (h : StoreLe E a b) {t : PTree T V} (ht : Mended I a t) : Mended I b t :=
  PTree.All.imp (fun _ x => ⟨x.1.mono h, x.2.1, I.mono h x.2.2⟩) ht

theorem Mended.stored {a : E.σ} {t : PTree T V} (h : Mended I a t) : Stored E cx.sec a t :=
  PTree.All.imp (fun _ x => x.1) h

theorem Mended.counts {a : E.σ} {t : PTree T V} (h : Mended I a t) : Counts t := by
  refine PTree.All.imp ?_ h
  intro n hn
  cases n with
  | leaf i vs => exact hn.2.1.1
  | branch i cs => exact ⟨hn.2.1.2.1, hn.2.1.2.2.2.1⟩
  | purgedLeaf => trivial
  | purgedBranch => trivial

theorem Mended.good {a : E.σ} {t : PTree T V} (h : Mended I a t) (hs : SealedPurges t) : Good I a t := by
  intro n hn
  obtain ⟨h1, h2, h3⟩ := h n hn
  have h4 := hs n hn
  refine ⟨h1, ?_, h3⟩
  cases n with
  | leaf i vs => exact h2
  | branch i cs => exact h2
  | purgedLeaf i => exact ⟨h4, h2⟩
  | purgedBranch i => exact ⟨h4, h2.1, h2.2.1, h2.2.2.1 h4, h2.2.2.2⟩

theorem WF.sealedPurges {t : PTree T V} (h : WF E t) : SealedPurges t := by
  refine PTree.All.imp ?_ h
  intro n hn
  cases n with
  | leaf i vs => trivial
  | branch i cs => trivial
  | purgedLeaf i => exact hn.1
  | purgedBranch i => exact hn.1

/-! ### what repair does -/

/-- The result of repairing: new tree and additions to the report. -/
structure Repaired (E : Env T V) (δ : E.σ) (t t' : PTree T V) (new : List (RepairMsg T)) : Prop where
  unlink : t'.index.unlink = t.index.unlink
  silent : new = [] → t' = t
  named : new ≠ [] → ∃ l, Forgotten new l
  bad : ∀ l, Forgotten new l → (∃ x ∈ t.nodes, x.index.link = some l) ∧ ∀ b, E.get δ l ≠ .ok b
  pos : ∀ n : Nat, t'.content[n]? = t.content[n]? ∨ (t'.content[n]? = some none ∧ ∃ l ∈ t.pathTo n, Forgotten new l)
  packed : Packed t → Packed t'
  quiet : Quiet new → SealedPurges t → SealedPurges t'
  minRoot : MinRoot t → MinRoot t'

/-- The same for a list of trees. -/
structure RepairedL (E : Env T V) (δ : E.σ) (cs cs' : List (PTree T V)) (new : List (RepairMsg T)) : Prop where
  unlink : cs'.map (fun c => c.index.unlink) = cs.map (fun c => c.index.unlink)
  silent : new = [] → cs' = cs
  named : new ≠ [] → ∃ l, Forgotten new l
  bad : ∀ l, Forgotten new l → (∃ c ∈ cs, ∃ x ∈ c.nodes, x.index.link = some l) ∧ ∀ b, E.get δ l ≠ .ok b
  pos : ∀ n : Nat, (contents cs')[n]? = (contents cs)[n]? ∨ ((contents cs')[n]? = some none ∧ ∃ l ∈ pathToL cs n, Forgotten new l)
  packed : ∀ (j : Nat) c c', cs[j]? = some c → cs'[j]? = some c' → Packed c → Packed c'
  quiet : Quiet new → (∀ c ∈ cs, SealedPurges c) → ∀ c ∈ cs', SealedPurges c

theorem Forgotten.append {a b : List (RepairMsg T)} {l : T.Link} : Forgotten (a ++ b) l ↔ Forgotten a l ∨ Forgotten b l := by
  simp only [Forgotten, List.mem_append]
  constructor
  · rintro ((h | h) | (h | h))
    · exact .inl (.inl h)
    · exact .inr (.inl h)
    · exact .inl (.inr h)
    · exact .inr (.inr h)
  · rintro ((h | h) | (h | h))
    · exact .inl (.inl h)
    · exact .inr (.inl h)
    · exact .inl (.inr h)
    · exact .inr (.inr h)

theorem Quiet.append {a b : List (RepairMsg T)} : Quiet (a ++ b) ↔ Quiet a ∧ Quiet b := by
  simp only [Quiet, List.mem_append, not_or]
  constructor
  · rintro ⟨⟨h1, h2⟩, h3, h4⟩; exact ⟨⟨h1, h3⟩, h2, h4⟩
  · rintro ⟨⟨h1, h2⟩, h3, h4⟩; exact ⟨⟨h1, h3⟩, h2, h4⟩

theorem Repaired.refl (E : Env T V) (δ : E.σ) (t : PTree T V) : Repaired E δ t t [] :=
  ⟨rfl, fun _ => rfl, fun h => absurd rfl h, (by rintro l (h | h) <;> cases h), fun _ => Or.inl rfl, id, fun _ => id, id⟩

theorem RepairedL.nil (E : Env T V) (δ : E.σ) : RepairedL E δ ([] : List (PTree T V)) [] [] :=
  ⟨rfl, fun _ => rfl, fun h => absurd rfl h, (by rintro l (h | h) <;> cases h), fun _ => Or.inl rfl, by simp, by simp⟩

theorem RepairedL.cons {δ : E.σ} {c c' : PTree T V} {cs cs' : List (PTree T V)} {n1 n2 : List (RepairMsg T)}
    (hlen : c.content.length = c.index.count) (hlen' : c'.content.length = c.index.count)
    (h1 : Repaired E δ c c' n1) (h2 : RepairedL E δ cs cs' n2) : RepairedL E δ (c :: cs) (c' :: cs') (n1 ++ n2) := by
  refine ⟨by simp [h1.unlink, h2.unlink], ?_, ?_, ?_, ?_, ?_, ?_⟩
  · intro h
    rw [List.append_eq_nil_iff] at h
    rw [h1.silent h.1, h2.silent h.2]
  · intro h
    by_cases hn : n1 = []
    · obtain ⟨l, hl⟩ := h2.named (by intro h3; rw [hn, h3] at h; exact h rfl)
      exact ⟨l, Forgotten.append.mpr (.inr hl)⟩
    · obtain ⟨l, hl⟩ := h1.named hn
      exact ⟨l, Forgotten.append.mpr (.inl hl)⟩
  · intro l hl
    rcases Forgotten.append.mp hl with hl | hl
    · obtain ⟨⟨x, hx, hxl⟩, hb⟩ := h1.bad l hl
      exact ⟨⟨c, by simp, x, hx, hxl⟩, hb⟩
    · obtain ⟨⟨d, hd, x, hx, hxl⟩, hb⟩ := h2.bad l hl
      exact ⟨⟨d, by simp [hd], x, hx, hxl⟩, hb⟩
  · intro n
    simp only [contents, pathToL]
    by_cases hn : n < c.index.count
    · rw [if_pos hn, List.getElem?_append_left (by omega), List.getElem?_append_left (by omega)]
      rcases h1.pos n with h | ⟨h, l, hl, hf⟩
      · exact .inl h
      · exact .inr ⟨h, l, hl, Forgotten.append.mpr (.inl hf)⟩
    · rw [if_neg hn, List.getElem?_append_right (by omega), List.getElem?_append_right (by omega), hlen, hlen']
      rcases h2.pos (n - c.index.count) with h | ⟨h, l, hl, hf⟩
      · exact .inl h
      · exact .inr ⟨h, l, hl, Forgotten.append.mpr (.inr hf)⟩
  · intro j d d' hd hd'
    cases j with
    | zero => simp only [List.getElem?_cons_zero, Option.some.injEq] at hd hd'; subst hd; subst hd'; exact h1.packed
    | succ j => simp only [List.getElem?_cons_succ] at hd hd'; exact h2.packed j d d' hd hd'
  · intro hq hs d hd
    rw [Quiet.append] at hq
    rcases List.mem_cons.mp hd with rfl | hd
    · exact h1.quiet hq.1 (hs c (by simp))
    · exact h2.quiet hq.2 (fun d hd => hs d (by simp [hd])) d hd

/-- Changing the children of a branch without changing their numbers keeps a branch packed. -/
theorem Packed.relink {i : BranchIndex T} {cs cs' : List (PTree T V)} (lk : Option T.Link)
    (hu : cs'.map (fun c => c.index.unlink) = cs.map (fun c => c.index.unlink))
    (hpk : ∀ (j : Nat) c c', cs[j]? = some c → cs'[j]? = some c' → Packed c → Packed c') (hp : Packed (.branch i cs)) :
    Packed (.branch { i with link := lk } cs') := by
  cases hp with
  | closed _ _ hs => exact .closed _ _ hs
  | unclosed _ init last h1 h2 h3 =>
    have hlen : cs'.length = init.length + 1 := by
      have := congrArg List.length hu
      simpa using this
    have hne : cs' ≠ [] := by intro hh; rw [hh] at hlen; simp at hlen
    obtain ⟨init', last', rfl⟩ : ∃ a b, cs' = a ++ [b] := ⟨_, _, (List.dropLast_concat_getLast hne).symm⟩
    have hlen' : init'.length = init.length := by simpa using hlen
    rw [List.map_append, List.map_append] at hu
    have hu2 := List.append_inj' hu (by simp)
    have hi := map_eq_of_unlink (fun i => (i.isSealed, i.level)) (fun a b h => by rw [unlink_sealed h, unlink_level h]) hu2.1
    have hlast : last'.index.unlink = last.index.unlink := by simpa using hu2.2
    refine .unclosed _ init' last' ?_ ?_ ?_
    · have h1' : ∀ y ∈ init.map (fun c => (c.index.isSealed, c.index.level)), y.1 = true ∧ y.2 + 1 = i.level := by
        simpa using h1
      rw [← hi] at h1'
      intro c hc
      exact h1' (c.index.isSealed, c.index.level) (List.mem_map.mpr ⟨c, hc, rfl⟩)
    · rw [unlink_level hlast]; exact h2
    · refine hpk init.length last last' (by simp) (by rw [← hlen']; simp) h3

/-- A branch whose children were repaired. -/
theorem Repaired.branch {δ : E.σ} {i : BranchIndex T} {cs cs' : List (PTree T V)} {new : List (RepairMsg T)} (lk : Option T.Link)
    (hlk : new = [] → lk = i.link) (h : RepairedL E δ cs cs' new) : Repaired E δ (.branch i cs) (.branch { i with link := lk } cs') new := by
  refine ⟨rfl, ?_, h.named, ?_, ?_, Packed.relink lk h.unlink h.packed, ?_, MinRoot.relink lk h.unlink⟩
  · intro hn
    rw [h.silent hn, hlk hn]
  · intro l hl
    obtain ⟨⟨c, hc, x, hx, hxl⟩, hb⟩ := h.bad l hl
    refine ⟨⟨x, ?_, hxl⟩, hb⟩
    simp only [nodes, List.mem_cons, nodesL_eq, List.mem_flatMap]
    exact .inr ⟨c, hc, hx⟩
  · intro n
    simp only [content, pathTo]
    rcases h.pos n with h | ⟨h, l, hl, hf⟩
    · exact .inl h
    · exact .inr ⟨h, l, by simp [hl], hf⟩
  · intro hq hs
    unfold SealedPurges at hs ⊢
    rw [all_branch] at hs ⊢
    exact ⟨trivial, h.quiet hq hs.2⟩

theorem branchMsgs_forgotten {b : BranchIndex T} {x : Int} {l : T.Link} : Forgotten (branchMsgs b x) l ↔ b.link = some l := by
  unfold Forgotten branchMsgs
  cases b.isSealed with
  | false => simp [eq_comm]
  | true =>
    simp only [Bool.not_true, Bool.false_eq_true, if_false]
    split <;> simp [eq_comm]

theorem leafMsgs_forgotten {b : LeafIndex T} {x : Int} {l : T.Link} : Forgotten (leafMsgs b x) l ↔ b.link = some l := by
  unfold Forgotten leafMsgs
  cases b.isSealed with
  | false => simp [eq_comm]
  | true =>
    simp only [Bool.not_true, Bool.false_eq_true, if_false]
    split <;> simp [eq_comm]

/-- A branch whose block cannot be read. -/
theorem Repaired.purge {δ : E.σ} {i : BranchIndex T} {cs : List (PTree T V)} {x : Int} {l : T.Link}
    (hlen : (contents cs).length = i.count) (hl : i.link = some l) (hb : ∀ b, E.get δ l ≠ .ok b) :
    Repaired E δ (.branch i cs) (.purgedBranch { i with link := none }) (branchMsgs i x) := by
  have hfg : Forgotten (branchMsgs i x) l := branchMsgs_forgotten.mpr hl
  refine ⟨rfl, ?_, fun _ => ⟨l, hfg⟩, ?_, ?_, fun _ => .purgedBranch _, ?_, fun _ => trivial⟩
  · intro h; cases h
  · intro l' hl'
    rw [branchMsgs_forgotten, hl, Option.some.injEq] at hl'
    subst hl'
    exact ⟨⟨_, self_mem_nodes _, hl⟩, hb⟩
  · intro n
    simp only [content, pathTo]
    rw [List.getElem?_replicate]
    by_cases hn : n < i.count
    · rw [if_pos hn]
      exact .inr ⟨rfl, l, by simp [hl], hfg⟩
    · rw [if_neg hn, List.getElem?_eq_none (by omega)]
      exact .inl rfl
  · intro hq _
    unfold SealedPurges
    rw [all_purgedBranch]
    cases hs : i.isSealed with
    | true => rfl
    | false =>
      have := hq.1
      unfold branchMsgs at this
      simp [hs] at this

/-- A leaf whose block cannot be read. -/
theorem Repaired.purgeLeaf {δ : E.σ} {i : LeafIndex T} {vs : List V} {x : Int} {l : T.Link}
    (hlen : (PTree.leaf i vs).content.length = T.keys.len i.keys) (hl : i.link = some l) (hb : ∀ b, E.get δ l ≠ .ok b) :
    Repaired E δ (.leaf i vs) (.purgedLeaf { i with link := none }) (leafMsgs i x) := by
  have hfg : Forgotten (leafMsgs i x) l := leafMsgs_forgotten.mpr hl
  refine ⟨rfl, ?_, fun _ => ⟨l, hfg⟩, ?_, ?_, fun _ => .purgedLeaf _, ?_, fun _ => trivial⟩
  · intro h; cases h
  · intro l' hl'
    rw [leafMsgs_forgotten, hl, Option.some.injEq] at hl'
    subst hl'
    exact ⟨⟨_, self_mem_nodes _, hl⟩, hb⟩
  · intro n
    have : (PTree.purgedLeaf (V := V) { i with link := none }).content = List.replicate (T.keys.len i.keys) none := rfl
    rw [this, List.getElem?_replicate]
    by_cases hn : n < T.keys.len i.keys
    · rw [if_pos hn]
      exact .inr ⟨rfl, l, by simp [pathTo, hl], hfg⟩
    · rw [if_neg hn, List.getElem?_eq_none (by omega)]
      exact .inl rfl
  · intro hq _
    unfold SealedPurges
    rw [all_purgedLeaf]
    cases hs : i.isSealed with
    | true => rfl
    | false =>
      have := hq.2
      unfold leafMsgs at this
      simp [hs] at this

/-! ### the functions -/

theorem Post.onlyPuts {m : M E α} {s : St E} {Q : α → St E → Prop} {R : Err → Prop} (hm : OnlyPuts m) (h : Post m s Q R) :
    Post m s (fun a s' => Q a s' ∧ PutsTo E s.store s'.store) R := by
  unfold Post at h ⊢
  cases hms : m s with
  | ok a s' => rw [hms] at h; exact fun hs => ⟨h hs, (hm.ok hms).1⟩
  | error e s' => rw [hms] at h; exact h

theorem repairLoop_spec (ht : T.Lawful) {R : Err → Prop} {σ δ : E.σ}
    {rec : Index T → List (RepairMsg T) → Int → M E (Index T × List (RepairMsg T) × Int)}
    (hfr : ∀ i r l, Frame cx (rec i r l)) (cs : List (PTree T V)) (rep : List (RepairMsg T)) (l : Int) (s : St E)
    (hgood : ∀ c ∈ cs, Good I σ c) (hp : PutsTo E δ s.store)
    (hrec : ∀ c ∈ cs, ∀ rep l s', PutsTo E δ s'.store →
      Post (rec c.index rep l) s' (fun r s2 => ∃ t' new, r.1 = t'.index ∧ r.2.1 = rep ++ new ∧ Mended I s2.store t' ∧ Repaired E δ c t' new ∧
        PutsTo E δ s2.store) R) :
    Post (repairLoop rec (cs.map index) rep l) s (fun r s' => ∃ cs' new, r.1 = cs'.map index ∧ r.2.2.1 = rep ++ new ∧
      (r.2.1 = false → cs'.map index = cs.map index) ∧ (r.2.1 = true → new ≠ []) ∧ (∀ c ∈ cs', Mended I s'.store c) ∧ RepairedL E δ cs cs' new ∧
      PutsTo E δ s'.store) R := by
  induction cs generalizing rep l s with
  | nil =>
    simp only [List.map_nil, repairLoop]
    exact Post.pure fun _ => ⟨[], [], rfl, by simp, fun _ => rfl, by simp, by simp, RepairedL.nil E δ, hp⟩
  | cons c cs ih =>
    simp only [List.map_cons, repairLoop]
    refine Post.bind (hfr _ _ _) (fun r => ?_) (hrec c (by simp) rep l s hp) ?_
    · refine Frame.bind (frame_repairLoop hfr _ _ _) fun x => ?_
      obtain ⟨a, b, c, d⟩ := x
      simp only
      split <;> exact Frame.pure _
    rintro ⟨i1, rep1, l1⟩ s1 hx1 _ ⟨c', n1, h1, e1, h2, h3, hp1⟩
    simp only at h1 e1 h3
    subst h1 e1
    refine Post.bind (frame_repairLoop hfr _ _ _) (fun x => by
      obtain ⟨a, b, c, d⟩ := x
      simp only
      split <;> exact Frame.pure _) (ih (rep ++ n1) l1 s1 (fun d hd => hgood d (by simp [hd])) hp1
        (fun d hd => hrec d (by simp [hd]))) ?_
    rintro ⟨is, ch, rep2, l2⟩ s2 hx2 _ ⟨cs', n2, k1, e2, k2, k2', k3, k4, hp2⟩
    simp only at k1 e2 k2 k2' k4 ⊢
    subst k1 e2
    have hcons : RepairedL E δ (c :: cs) (c' :: cs') (n1 ++ n2) := by
      refine RepairedL.cons (content_length ht (hgood c (by simp)).counts) ?_ h3 k4
      rw [content_length ht h2.counts, unlink_count h3.unlink]
    have hg : ∀ d ∈ c' :: cs', Mended I s2.store d := by
      intro d hd
      rcases List.mem_cons.mp hd with rfl | hd
      · exact h2.mono hx2.store
      · exact k3 d hd
    by_cases hl : c'.index.link ≠ c.index.link
    · rw [if_pos hl]
      refine Post.pure fun _ => ⟨c' :: cs', n1 ++ n2, rfl, by simp, by simp, fun _ hn => ?_, hg, hcons, hp2⟩
      rw [List.append_eq_nil_iff] at hn
      exact hl (by rw [h3.silent hn.1])
    · rw [if_neg hl]
      have heq := unlink_eq h3.unlink (by simpa using hl)
      refine Post.pure fun _ => ⟨c' :: cs', n1 ++ n2, by simp [heq], by simp, ?_, ?_, hg, hcons, hp2⟩
      · intro hch
        simp only [List.map_cons, heq, k2 hch]
      · intro hch hn
        rw [List.append_eq_nil_iff] at hn
        exact k2' hch hn.2

theorem repair0_spec (h : E.Lawful) (ht : T.Lawful) (hv : cx.cfg.Valid) (hI : I.Rewrites) {vals : V → Prop} {R : Err → Prop}
    (hR : ∀ e, Allowed E cx.cfg vals e → R e) {σ δ : E.σ}
    (hsame : ∀ τ, PutsTo E δ τ → ∀ l b b', E.get σ l = .ok b → E.get τ l = .ok b' → b' = b)
    (fuel : Nat) (t : PTree T V) (rep : List (RepairMsg T)) (l : Int) (s : St E)
    (hg : Good I σ t) (hp : PutsTo E δ s.store) (hf : t.index.level < fuel) :
    Post (repair0 cx fuel t.index rep l) s (fun r s' => ∃ t' new, r.1 = t'.index ∧ r.2.1 = rep ++ new ∧ Mended I s'.store t' ∧
      Repaired E δ t t' new ∧ PutsTo E δ s'.store) R := by
  induction fuel generalizing t rep l s with
  | zero => omega
  | succ fuel ih =>
    have h0 := PTree.All.root hg
    have hw := hg.wf
    -- a block is missing or the right one
    have hget : ∀ lk b, E.get σ lk = .ok b → (E.get s.store lk = .ok b) ∨ (∃ m, E.get s.store lk = .error m) := by
      intro lk b hb
      cases hgs : E.get s.store lk with
      | error m => exact .inr ⟨m, rfl⟩
      | ok b' => exact .inl (by rw [hsame _ hp lk b b' hb hgs])
    have hmiss : ∀ lk m, E.get s.store lk = .error m → ∀ b, E.get δ lk ≠ .ok b := by
      intro lk m hm b hb
      rw [hp.le h lk b hb] at hm
      cases hm
    cases t with
    | purgedLeaf i =>
      have hlk : i.link = none := h0.1
      show Post (repair0 cx (fuel + 1) (.leaf i) rep l) s _ R
      unfold Post
      rw [repair0_leaf]
      unfold loadLeaf
      rw [hlk]
      intro _
      exact ⟨.purgedLeaf i, [], rfl, by simp, (all_purgedLeaf _).mpr ⟨hlk, h0.2.1.2, hI.damage h0.2.2 (by intro lk hlk'; cases hlk.symm.trans hlk')⟩,
        Repaired.refl E δ _, hp⟩
    | purgedBranch i =>
      have hlk : i.link = none := h0.1
      show Post (repair0 cx (fuel + 1) (.branch i) rep l) s _ R
      unfold Post
      rw [repair0_branch]
      unfold loadBranch
      rw [hlk]
      intro _
      obtain ⟨w1, w2, w3, w4, w5⟩ := h0.2.1
      exact ⟨.purgedBranch i, [], rfl, by simp, (all_purgedBranch _).mpr ⟨hlk, ⟨w2, w3, fun _ => w4, w5⟩, hI.damage h0.2.2 (by intro lk hlk'; cases hlk.symm.trans hlk')⟩,
        Repaired.refl E δ _, hp⟩
    | leaf i vs =>
      obtain ⟨lk, z, r, hlk, hld, hz⟩ := h0.1
      show Post (repair0 cx (fuel + 1) (.leaf i) rep l) s _ R
      unfold Post
      rw [repair0_leaf]
      unfold loadLeaf
      rw [hlk]
      simp only
      have hb : ∃ b, E.get σ lk = .ok b := by
        unfold loadLeafFromLink at hld
        cases hgb : getBlock E σ lk with
        | error e => rw [hgb] at hld; cases hld
        | ok b => exact ⟨b, getBlock_eq.mp hgb⟩
      obtain ⟨b, hb⟩ := hb
      rcases hget lk b hb with hgs | ⟨m, hgs⟩
      · have hld' : loadLeafFromLink E cx.sec s.store lk = .ok ⟨z, r⟩ := by
          unfold loadLeafFromLink at hld ⊢
          rw [getBlock_eq.mpr hgs]
          rwa [getBlock_eq.mpr hb] at hld
        rw [hld']
        intro _
        refine ⟨.leaf i vs, [], rfl, by simp, (all_leaf _ _).mpr ⟨⟨lk, z, r, hlk, hld', hz⟩, h0.2.1, hI.damage h0.2.2 ?_⟩, Repaired.refl E δ _, hp⟩
        intro lk' hlk'
        cases hlk.symm.trans hlk'
        rw [hb, hgs]
      · have hld' : ∃ m, loadLeafFromLink E cx.sec s.store lk = .error (.fail m) := by
          unfold loadLeafFromLink getBlock failE
          rw [hgs]
          exact ⟨_, rfl⟩
        obtain ⟨m', hld'⟩ := hld'
        rw [hld']
        intro _
        refine ⟨.purgedLeaf { i with link := none }, leafMsgs i (repairLevel (.leaf i) l), rfl, rfl,
          (all_purgedLeaf _).mpr ⟨rfl, WF.count_pos hw, hI.damage (hI.purgeLeaf h0.2.2) (by intro l hl; cases hl)⟩, ?_, hp⟩
        exact Repaired.purgeLeaf (content_length ht hg.counts) hlk (hmiss lk m hgs)
    | branch i cs =>
      obtain ⟨lk, r, hlk, hld⟩ := h0.1
      show Post (repair0 cx (fuel + 1) (.branch i) rep l) s _ R
      unfold Post
      rw [repair0_branch]
      unfold loadBranch
      rw [hlk]
      simp only
      have hb : ∃ b, E.get σ lk = .ok b := by
        unfold loadBranchFromLink at hld
        cases hgb : getBlock E σ lk with
        | error e => rw [hgb] at hld; cases hld
        | ok b => exact ⟨b, getBlock_eq.mp hgb⟩
      obtain ⟨b, hb⟩ := hb
      rcases hget lk b hb with hgs | ⟨m, hgs⟩
      · have hld' : loadBranchFromLink E cx.sec s.store lk = .ok ⟨cs.map index, r⟩ := by
          unfold loadBranchFromLink at hld ⊢
          rw [getBlock_eq.mpr hgs]
          rwa [getBlock_eq.mpr hb] at hld
        rw [hld']
        simp only
        change Post (repairLoop (repair0 cx fuel) (cs.map index) rep (repairLevel (.branch i) l) >>= fun r =>
          if r.2.1 = true then do
            let x ← persistBranch cx r.1
            pure (Index.branch { i with link := some x.1 }, r.2.2.1, r.2.2.2)
          else pure (Index.branch i, r.2.2.1, r.2.2.2)) s (fun r s' => ∃ t' new, r.1 = t'.index ∧ r.2.1 = rep ++ new ∧ Mended I s'.store t' ∧
            Repaired E δ (branch i cs) t' new ∧ PutsTo E δ s'.store) R
        have hJ : I.J s.store (.branch i cs) := hI.damage h0.2.2 (by
          intro lk' hlk'
          cases hlk.symm.trans hlk'
          rw [hb, hgs])
        have hch : ∀ c ∈ cs, Good I σ c := hg.children
        have hlvl : ∀ c ∈ cs, c.index.level < fuel := by
          intro c hc
          have := h0.2.1.2.1 c hc
          have : i.level < fuel + 1 := hf
          omega
        have hloop := repairLoop_spec (I := I) (R := R) (σ := σ) (δ := δ) ht (frame_repair0 h fuel) cs rep (repairLevel (.branch i) l) s hch hp
          (fun c hc rep l s' hp' => ih c rep l s' (hch c hc) hp' (hlvl c hc))
        refine Post.bind (frame_repairLoop (frame_repair0 h fuel) _ _ _) (fun r => by
          obtain ⟨a, b, c, d⟩ := r
          simp only
          split
          · exact Frame.bind (frame_persistBranch h _) fun _ => Frame.pure _
          · exact Frame.pure _) hloop ?_
        rintro ⟨is, ch, rep2, l2⟩ s1 hx1 _ ⟨cs', new, k1, e1, k2, k2', k3, k4, hp1⟩
        simp only at k1 e1 k2 k2' k4 ⊢
        subst k1 e1
        by_cases hch' : ch = true
        · rw [if_pos hch']
          refine Post.bind (frame_persistBranch h _) (fun _ => Frame.pure _) (Post.onlyPuts (OnlyPuts.persistBranch _) (persistBranch_spec h hR _ s1)) ?_
          rintro ⟨lk', n⟩ s2 hx2 _ ⟨⟨o', links, p1, p2, p3, p4, p5⟩, hp2⟩
          have hne : cs' ≠ [] := (h0.2.1.relink k4.unlink none).1
          refine Post.pure fun _ => ⟨.branch { i with link := some lk' } cs', new, rfl, rfl, ?_, Repaired.branch _ (fun hn => absurd hn (k2' hch')) k4,
            hp1.trans hp2⟩
          refine (all_branch _ _).mpr ⟨⟨?_, h0.2.1.relink k4.unlink _, hI.rewrite (I.mono (hx1.store.trans hx2.store) hJ) k4.unlink ⟨o', links, p1, p2, p4, p5⟩⟩,
            fun c hc => (k3 c hc).mono hx2.store⟩
          exact ⟨lk', _, rfl, loadBranchFromLink_of_get h (by simpa using hne) p4 p1 p2⟩
        · rw [if_neg hch']
          have hix := k2 (by simpa using hch')
          refine Post.pure fun _ => ⟨.branch i cs', new, rfl, rfl, ?_, Repaired.branch i.link (fun _ => rfl) k4, hp1⟩
          refine (all_branch _ _).mpr ⟨⟨?_, h0.2.1.relink k4.unlink i.link, hI.same (I.mono hx1.store hJ) hix⟩, k3⟩
          exact ⟨lk, r, hlk, by rw [hix]; exact (loadBranchFromLink_mono hx1.store hld')⟩
      · have hld' : ∃ m, loadBranchFromLink E cx.sec s.store lk = .error (.fail m) := by
          unfold loadBranchFromLink getBlock failE
          rw [hgs]
          exact ⟨_, rfl⟩
        obtain ⟨m', hld'⟩ := hld'
        rw [hld']
        intro _
        obtain ⟨w1, _, w4, _, w6, _⟩ := h0.2.1
        refine ⟨.purgedBranch { i with link := none }, branchMsgs i (repairLevel (.branch i) l), rfl, rfl,
          (all_purgedBranch _).mpr ⟨rfl, ⟨WF.count_pos hw, ?_, fun hs => WF.level_le_count hw hs, ?_⟩,
            hI.damage (hI.purgeBranch h0.2.2) (by intro l hl; cases hl)⟩, ?_, hp⟩
        · obtain ⟨c, _, hcl⟩ := w4
          show 0 < i.level
          omega
        · show 0 < T.sums.len i.summaries
          rw [w6, ht.sums.len_ofList _ (by simpa using w1), List.length_map]
          exact List.length_pos_iff.mpr w1
        · have := content_length ht hg.counts
          exact Repaired.purge this hlk (hmiss lk m hgs)

theorem repair_eq {fuel : Nat} {d : St E} {i : Index T} (hr : d.root = some i) : repair cx fuel d =
    match repair0 cx fuel i [] i32max d with
    | .ok r s => .ok r.2.1 { s with root := some r.1 }
    | .error e s => .error e s := by
  unfold repair
  rw [bind_apply]
  simp only [getIndex, hr]
  rw [bind_apply]
  cases repair0 cx fuel i [] i32max d <;> rfl

/-- A successful repair. -/
theorem repair_ok (h : E.Lawful) (ht : T.Lawful) (hv : cx.cfg.Valid) (hI : I.Rewrites) {fuel : Nat} {s d s' : St E} {t : Option (PTree T V)}
    {report : List (RepairMsg T)} (hh : HoldsI I s t) (hd : Damaged cx s d) (hf : rootLevel s.root < fuel)
    (he : repair cx fuel d = .ok report s') (hs : Small E s') :
    (t = none ∧ report = [] ∧ s' = d) ∨ ∃ t0 t', t = some t0 ∧ s'.root = some t'.index ∧ Mended I s'.store t' ∧
      Repaired E d.store t0 t' report ∧ PutsTo E d.store s'.store ∧ s'.cache = d.cache := by
  cases t with
  | none =>
    have : d.root = none := by rw [hd.root, hh.root]; rfl
    unfold repair at he
    rw [bind_apply] at he
    simp only [getIndex, this] at he
    cases he
    exact .inl ⟨rfl, rfl, rfl⟩
  | some t =>
    have hr : d.root = some t.index := by rw [hd.root, hh.root]; rfl
    rw [repair_eq hr] at he
    cases h0 : repair0 cx fuel t.index [] i32max d with
    | error e s1 => rw [h0] at he; cases he
    | ok r s1 =>
      rw [h0] at he
      cases he
      rw [hh.level] at hf
      obtain ⟨t', new, k1, k2, k3, k4, k5⟩ := (repair0_spec (vals := fun _ => True) (R := fun _ => True) h ht hv hI (fun _ _ => True.intro) hd.same fuel t [] i32max d
        (hh.good t rfl) .refl hf).ok h0 hs
      rw [List.nil_append] at k2
      rw [k2]
      exact .inr ⟨t, t', rfl, by simp [k1], k3, k4, k5, ((OnlyPuts.repair0 _ _ _ _).ok h0).2⟩

/-- A failed repair. -/
theorem repair_err (h : E.Lawful) (ht : T.Lawful) (hv : cx.cfg.Valid) (hI : I.Rewrites) {fuel : Nat} {s d s' : St E} {t : Option (PTree T V)}
    {vals : V → Prop} {e : Err} (hh : HoldsI I s t) (hd : Damaged cx s d) (hf : rootLevel s.root < fuel)
    (he : repair cx fuel d = .error e s') (hs : Small E s') : Allowed E cx.cfg vals e := by
  cases t with
  | none =>
    have : d.root = none := by rw [hd.root, hh.root]; rfl
    unfold repair at he
    rw [bind_apply] at he
    simp only [getIndex, this] at he
    cases he
  | some t =>
    have hr : d.root = some t.index := by rw [hd.root, hh.root]; rfl
    rw [repair_eq hr] at he
    cases h0 : repair0 cx fuel t.index [] i32max d with
    | ok r s1 => rw [h0] at he; cases he
    | error e s1 =>
      rw [h0] at he
      cases he
      rw [hh.level] at hf
      exact (repair0_spec (vals := vals) (R := Allowed E cx.cfg vals) h ht hv hI (fun _ h => h) hd.same fuel t [] i32max d
        (hh.good t rfl) .refl hf).err h0 hs

/-! ### reading after damage -/

/-- The cache does not contradict the store. -/
def Sane (E : Env T V) (sec : Secrets E) (s : St E) : Prop :=
  ∀ l b b', (E.cacheGet s.cache l).1 = some b → loadBranchFromLink E sec s.store l = .ok b' → b' = b

theorem sane_serves (h : E.Lawful) (sec : Secrets E) : Serves sec (Sane E sec) := by
  intro s l b hs hl
  unfold ReadsP loadBranchCached
  cases hg : E.cacheGet s.cache l with
  | mk r c =>
    have hsub : Sane E sec { s with cache := c } := by
      intro l' b1 b2 hb
      exact hs l' b1 b2 (h.cacheGet_sub s.cache l l' b1 (by rw [hg]; exact hb))
    cases r with
    | some b1 =>
      have := hs l b1 b (by rw [hg]) hl
      subst this
      exact ⟨c, hsub, rfl⟩
    | none =>
      rw [hl]
      refine ⟨E.cachePut c l b, ?_, rfl⟩
      intro l' b1 b2 hb
      rcases h.cachePut_sub c l b l' b1 hb with ⟨rfl, rfl⟩ | h1
      · intro hb2
        have hb2 : loadBranchFromLink E sec s.store l' = .ok b2 := hb2
        rw [hl] at hb2
        cases hb2
        rfl
      · exact hsub l' b1 b2 h1

theorem Damaged.sane {s d s' : St E} (hd : Damaged cx s d) (hp : PutsTo E d.store s'.store) (hc : s'.cache = d.cache) : Sane E cx.sec s' := by
  intro l b b' hb hl
  rw [hc] at hb
  have h1 := hd.cache l b hb
  unfold loadBranchFromLink at h1 hl
  cases hg : getBlock E s.store l with
  | error e => rw [hg] at h1; cases h1
  | ok x =>
    cases hg' : getBlock E s'.store l with
    | error e => rw [hg'] at hl; cases hl
    | ok x' =>
      have := hd.same _ hp l x x' (getBlock_eq.mp hg) (getBlock_eq.mp hg')
      subst this
      rw [hg] at h1
      rw [hg', h1] at hl
      cases hl
      rfl

end Banyan
