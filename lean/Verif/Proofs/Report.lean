import Verif.Spec.Report
import Verif.Proofs.Repair
/-
The report of `repair`.
-/
set_option autoImplicit false
namespace Banyan

open PTree

variable {T : TreeTypes} {V : Type} {E : Env T V} {cx : Ctx E}

/-- The entry for a lost node, given the level of the traversal. -/
def nodeMsgs (level : Int) : Index T → List (RepairMsg T)
  | .leaf i => leafMsgs i level
  | .branch i => branchMsgs i level

/-- What a traversal with a level adds to the report, and the level at the end. -/
def walkMsgs (lost : T.Link → Bool) : Int → List (Index T) → List (RepairMsg T) × Int
  | l, [] => ([], l)
  | l, x :: xs =>
    ((if x.lostBy lost then nodeMsgs (repairLevel x l) x else []) ++ (walkMsgs lost (repairLevel x l) xs).1,
      (walkMsgs lost (repairLevel x l) xs).2)

theorem walkMsgs_append (lost : T.Link → Bool) (l : Int) (a b : List (Index T)) :
    walkMsgs lost l (a ++ b) = ((walkMsgs lost l a).1 ++ (walkMsgs lost (walkMsgs lost l a).2 b).1,
      (walkMsgs lost (walkMsgs lost l a).2 b).2) := by
  induction a generalizing l with
  | nil => simp [walkMsgs]
  | cons x xs ih => simp [walkMsgs, ih]

theorem repairLoop_report {lost : T.Link → Bool} {δ ω : E.σ}
    {rec : Index T → List (RepairMsg T) → Int → M E (Index T × List (RepairMsg T) × Int)}
    (hputs : ∀ i r l, OnlyPuts (rec i r l)) (cs : List (PTree T V)) (rep : List (RepairMsg T)) (l : Int) (s s' : St E)
    (r : List (Index T) × Bool × List (RepairMsg T) × Int) (hp : PutsTo E δ s.store) (hω : PutsTo E s'.store ω)
    (hrec : ∀ c ∈ cs, ∀ rep l s1 s2 r, PutsTo E δ s1.store → PutsTo E s2.store ω → rec c.index rep l s1 = .ok r s2 →
      r.2.1 = rep ++ (walkMsgs lost l (c.found lost)).1 ∧ r.2.2 = (walkMsgs lost l (c.found lost)).2)
    (he : repairLoop rec (cs.map index) rep l s = .ok r s') :
    r.2.2.1 = rep ++ (walkMsgs lost l (foundL lost cs)).1 ∧ r.2.2.2 = (walkMsgs lost l (foundL lost cs)).2 := by
  induction cs generalizing rep l s r with
  | nil =>
    cases he
    simp [foundL, walkMsgs]
  | cons c cs ih =>
    simp only [List.map_cons, repairLoop] at he
    rw [bind_apply] at he
    cases h1 : rec c.index rep l s with
    | error e s1 => rw [h1] at he; cases he
    | ok r1 s1 =>
      rw [h1] at he
      obtain ⟨i1, rep1, l1⟩ := r1
      simp only at he
      rw [bind_apply] at he
      have hp1 := hp.trans ((hputs _ _ _).ok h1).1
      cases h2 : repairLoop rec (cs.map index) rep1 l1 s1 with
      | error e s2 => rw [h2] at he; cases he
      | ok r2 s2 =>
        rw [h2] at he
        obtain ⟨is, ch, rep2, l2⟩ := r2
        simp only at he
        have hs2 : s2 = s' ∧ r.2.2.1 = rep2 ∧ r.2.2.2 = l2 := by
          split at he <;> cases he <;> exact ⟨rfl, rfl, rfl⟩
        obtain ⟨rfl, hr1, hr2⟩ := hs2
        have hp2 := ((OnlyPuts.repairLoop hputs _ _ _).ok h2).1
        obtain ⟨a1, a2⟩ := hrec c (by simp) rep l s s1 _ hp (hp2.trans hω) h1
        obtain ⟨b1, b2⟩ := ih rep1 l1 s1 _ hp1 (fun d hd => hrec d (by simp [hd])) h2
        simp only at a1 a2 b1 b2
        rw [hr1, hr2, foundL, walkMsgs_append, b1, b2, a1, a2, List.append_assoc]
        exact ⟨rfl, rfl⟩

theorem repair0_report {lost : T.Link → Bool} {σ δ ω : E.σ}
    (hsame : ∀ τ, PutsTo E δ τ → ∀ l b b', E.get σ l = .ok b → E.get τ l = .ok b' → b' = b)
    (fuel : Nat) (t : PTree T V) (rep : List (RepairMsg T)) (l : Int) (s s' : St E) (r : Index T × List (RepairMsg T) × Int)
    (hst : Stored E cx.sec σ t)
    (hav : ∀ τ, PutsTo E δ τ → PutsTo E τ ω → ∀ x ∈ t.nodes, ∀ lk, x.index.link = some lk → (lost lk = true ↔ ∀ b, E.get τ lk ≠ .ok b))
    (hp : PutsTo E δ s.store) (hω : PutsTo E s'.store ω) (he : repair0 cx fuel t.index rep l s = .ok r s') :
    r.2.1 = rep ++ (walkMsgs lost l (t.found lost)).1 ∧ r.2.2 = (walkMsgs lost l (t.found lost)).2 := by
  induction fuel generalizing t rep l s s' r with
  | zero => cases he
  | succ fuel ih =>
    have h0 := PTree.All.root hst
    have hsω := ((OnlyPuts.repair0 _ _ _ _).ok he).1.trans hω
    have hlost : ∀ lk, t.index.link = some lk → (lost lk = true ↔ ∀ b, E.get s.store lk ≠ .ok b) :=
      fun lk hlk => hav _ hp hsω t (self_mem_nodes t) lk hlk
    cases t with
    | purgedLeaf i =>
      have hlk : i.link = none := h0
      change repair0 cx (fuel + 1) (.leaf i) rep l s = _ at he
      rw [repair0_leaf] at he
      unfold loadLeaf at he
      rw [hlk] at he
      cases he
      simp [found, walkMsgs, Index.lostBy, Index.link, hlk]
    | purgedBranch i =>
      have hlk : i.link = none := h0
      change repair0 cx (fuel + 1) (.branch i) rep l s = _ at he
      rw [repair0_branch] at he
      unfold loadBranch at he
      rw [hlk] at he
      cases he
      simp [found, walkMsgs, Index.lostBy, Index.link, hlk]
    | leaf i vs =>
      obtain ⟨lk, z, x, hlk, hld, hz⟩ := h0
      change repair0 cx (fuel + 1) (.leaf i) rep l s = _ at he
      rw [repair0_leaf] at he
      unfold loadLeaf at he
      rw [hlk] at he
      simp only at he
      have hl := hlost lk hlk
      cases hgs : E.get s.store lk with
      | error m =>
        have hld' : ∃ m, loadLeafFromLink E cx.sec s.store lk = .error (.fail m) := by
          unfold loadLeafFromLink getBlock failE
          rw [hgs]
          exact ⟨_, rfl⟩
        obtain ⟨m', hld'⟩ := hld'
        rw [hld'] at he
        cases he
        have : lost lk = true := hl.mpr (by rw [hgs]; intro b hb; cases hb)
        simp [found, walkMsgs, Index.lostBy, Index.link, hlk, this, nodeMsgs]
      | ok b' =>
        have hb : ∃ b, E.get σ lk = .ok b := by
          unfold loadLeafFromLink at hld
          cases hgb : getBlock E σ lk with
          | error e => rw [hgb] at hld; cases hld
          | ok b => exact ⟨b, getBlock_eq.mp hgb⟩
        obtain ⟨b, hb⟩ := hb
        obtain rfl := hsame _ hp lk b b' hb hgs
        have hld' : loadLeafFromLink E cx.sec s.store lk = .ok ⟨z, x⟩ := by
          unfold loadLeafFromLink at hld ⊢
          rw [getBlock_eq.mpr hgs]
          rwa [getBlock_eq.mpr hb] at hld
        rw [hld'] at he
        cases he
        have : lost lk = false := by
          cases hx : lost lk with
          | false => rfl
          | true => exact absurd hgs (hl.mp hx _)
        simp [found, walkMsgs, Index.lostBy, Index.link, hlk, this]
    | branch i cs =>
      obtain ⟨lk, x, hlk, hld⟩ := h0
      change repair0 cx (fuel + 1) (.branch i) rep l s = _ at he
      rw [repair0_branch] at he
      unfold loadBranch at he
      rw [hlk] at he
      simp only at he
      have hl := hlost lk hlk
      cases hgs : E.get s.store lk with
      | error m =>
        have hld' : ∃ m, loadBranchFromLink E cx.sec s.store lk = .error (.fail m) := by
          unfold loadBranchFromLink getBlock failE
          rw [hgs]
          exact ⟨_, rfl⟩
        obtain ⟨m', hld'⟩ := hld'
        rw [hld'] at he
        cases he
        have : lost lk = true := hl.mpr (by rw [hgs]; intro b hb; cases hb)
        simp [found, walkMsgs, Index.lostBy, Index.link, hlk, this, nodeMsgs]
      | ok b' =>
        have hb : ∃ b, E.get σ lk = .ok b := by
          unfold loadBranchFromLink at hld
          cases hgb : getBlock E σ lk with
          | error e => rw [hgb] at hld; cases hld
          | ok b => exact ⟨b, getBlock_eq.mp hgb⟩
        obtain ⟨b, hb⟩ := hb
        obtain rfl := hsame _ hp lk b b' hb hgs
        have hld' : loadBranchFromLink E cx.sec s.store lk = .ok ⟨cs.map index, x⟩ := by
          unfold loadBranchFromLink at hld ⊢
          rw [getBlock_eq.mpr hgs]
          rwa [getBlock_eq.mpr hb] at hld
        rw [hld'] at he
        simp only at he
        have hno : lost lk = false := by
          cases hx : lost lk with
          | false => rfl
          | true => exact absurd hgs (hl.mp hx _)
        rw [bind_apply] at he
        cases h1 : repairLoop (repair0 cx fuel) (cs.map index) rep (repairLevel (.branch i) l) s with
        | error e s1 => rw [h1] at he; cases he
        | ok r1 s1 =>
          rw [h1] at he
          simp only at he
          have hfin : PutsTo E s1.store ω ∧ r.2.1 = r1.2.2.1 ∧ r.2.2 = r1.2.2.2 := by
            split at he
            · rw [bind_apply] at he
              cases h2 : persistBranch cx r1.1 s1 with
              | error e s2 => rw [h2] at he; cases he
              | ok y s2 =>
                rw [h2] at he
                cases he
                exact ⟨((OnlyPuts.persistBranch _).ok h2).1.trans hω, rfl, rfl⟩
            · cases he
              exact ⟨hω, rfl, rfl⟩
          obtain ⟨f1, f2, f3⟩ := hfin
          obtain ⟨k1, k2⟩ := repairLoop_report (lost := lost) (δ := δ) (ω := ω) (OnlyPuts.repair0 fuel) cs rep _ s s1 r1 hp f1
            (fun c hc rep l s1 s2 r g1 g2 g3 => ih c rep l s1 s2 r (hst.child hc)
              (fun τ t1 t2 y hy => hav τ t1 t2 y (mem_nodes_branch.mpr (.inr ⟨c, hc, hy⟩))) g1 g2 g3) h1
          rw [f2, f3, k1, k2]
          simp [found, walkMsgs, Index.lostBy, Index.link, hlk, hno]

/-! ### levels and the nodes before -/

theorem walkMsgs_expected (lost : T.Link → Bool) (l : Int) (before xs : List (Index T)) (bound : Nat) (hb : ∀ x ∈ xs, x.level ≤ bound)
    (hl : ∀ n : Nat, n ≤ bound → (l < (n : Int) ↔ ∃ y ∈ before, y.isSealed = false ∧ y.level ≤ n)) :
    (walkMsgs lost l xs).1 = expectedReport lost before xs := by
  induction xs generalizing l before with
  | nil => rfl
  | cons x xs ih =>
    have hx := hb x (by simp)
    simp only [walkMsgs, expectedReport]
    congr 1
    · by_cases hlost : x.lostBy lost = true
      · rw [if_pos hlost, if_pos hlost]
        have hafter : x.isSealed = true → (afterUnsealed before x = true ↔ repairLevel x l < (x.level : Int)) := by
          intro hs
          have : repairLevel x l = l := by simp [repairLevel, hs]
          rw [this, hl x.level hx]
          simp [afterUnsealed, List.any_eq_true]
        cases x with
        | leaf i =>
          simp only [nodeMsgs, leafMsgs, reportEntry]
          congr 1
          cases hs : i.isSealed with
          | false => rfl
          | true =>
            have := hafter hs
            simp only [Index.level] at this
            simp only [Bool.not_true, Bool.false_eq_true, if_false]
            by_cases ha : afterUnsealed before (.leaf i) = true
            · rw [if_pos ha, if_pos (by have := this.mp ha; simpa using this)]
            · rw [if_neg ha, if_neg (by intro hc; exact ha (this.mpr (by simpa using hc)))]
        | branch i =>
          simp only [nodeMsgs, branchMsgs, reportEntry]
          congr 1
          cases hs : i.isSealed with
          | false => rfl
          | true =>
            have := hafter hs
            simp only [Index.level] at this
            simp only [Bool.not_true, Bool.false_eq_true, if_false]
            by_cases ha : afterUnsealed before (.branch i) = true
            · rw [if_pos ha, if_pos (this.mp ha)]
            · rw [if_neg ha, if_neg (fun hc => ha (this.mpr hc))]
      · rw [if_neg hlost, if_neg hlost]
    · refine ih _ _ (fun y hy => hb y (by simp [hy])) fun n hn => ?_
      have h1 := hl n hn
      unfold repairLevel
      cases hs : x.isSealed with
      | true =>
        simp only [Bool.not_true, Bool.false_eq_true, if_false]
        rw [h1]
        constructor
        · rintro ⟨y, hy, h⟩; exact ⟨y, by simp [hy], h⟩
        · rintro ⟨y, hy, h⟩
          rcases List.mem_append.mp hy with hy | hy
          · exact ⟨y, hy, h⟩
          · simp only [List.mem_singleton] at hy
            subst hy
            rw [hs] at h
            cases h.1
      | false =>
        simp only [Bool.not_false, if_true]
        constructor
        · intro h
          by_cases hxl : x.level ≤ n
          · exact ⟨x, by simp, hs, hxl⟩
          · obtain ⟨y, hy, h⟩ := h1.mp (by omega)
            exact ⟨y, by simp [hy], h⟩
        · rintro ⟨y, hy, h⟩
          rcases List.mem_append.mp hy with hy | hy
          · have := h1.mpr ⟨y, hy, h⟩
            omega
          · simp only [List.mem_singleton] at hy
            subst hy
            omega

theorem found_mem (lost : T.Link → Bool) (t : PTree T V) : ∀ x ∈ t.found lost, ∃ n ∈ t.nodes, n.index = x := by
  induction t using PTree.induct with
  | leaf i vs => intro x hx; simp only [found, List.mem_singleton] at hx; exact ⟨_, self_mem_nodes _, hx.symm⟩
  | purgedLeaf i => intro x hx; simp only [found, List.mem_singleton] at hx; exact ⟨_, self_mem_nodes _, hx.symm⟩
  | purgedBranch i => intro x hx; simp only [found, List.mem_singleton] at hx; exact ⟨_, self_mem_nodes _, hx.symm⟩
  | branch i cs ih =>
    intro x hx
    have key : ∀ ds : List (PTree T V), (∀ d ∈ ds, d ∈ cs) → x ∈ foundL lost ds → ∃ n ∈ (PTree.branch i cs).nodes, n.index = x := by
      intro ds
      induction ds with
      | nil => intro _ h; simp [foundL] at h
      | cons d ds ihd =>
        intro hd h
        simp only [foundL, List.mem_append] at h
        rcases h with h | h
        · obtain ⟨n, hn, e⟩ := ih d (hd d (by simp)) x h
          exact ⟨n, mem_nodes_branch.mpr (.inr ⟨d, hd d (by simp), hn⟩), e⟩
        · exact ihd (fun d hd' => hd d (by simp [hd'])) h
    simp only [found, List.mem_cons] at hx
    rcases hx with rfl | hx
    · exact ⟨_, self_mem_nodes _, rfl⟩
    · split at hx
      · simp at hx
      · exact key cs (fun _ h => h) hx

theorem nodes_level {t : PTree T V} (hc : Counts t) : ∀ n ∈ t.nodes, n.index.level ≤ t.index.level := by
  induction t using PTree.induct with
  | leaf i vs => intro n hn; simp only [PTree.nodes, List.mem_singleton] at hn; subst hn; exact Nat.le_refl _
  | purgedLeaf i => intro n hn; simp only [PTree.nodes, List.mem_singleton] at hn; subst hn; exact Nat.le_refl _
  | purgedBranch i => intro n hn; simp only [PTree.nodes, List.mem_singleton] at hn; subst hn; exact Nat.le_refl _
  | branch i cs ih =>
    intro n hn
    rcases mem_nodes_branch.mp hn with rfl | ⟨c, hcs, hn⟩
    · exact Nat.le_refl _
    · have h1 := ih c hcs (hc.child hcs) n hn
      have h2 := (PTree.All.root hc).1 c hcs
      show _ ≤ i.level
      omega

/-! ### packed trees -/

theorem expectedReport_append (lost : T.Link → Bool) (before a b : List (Index T)) :
    expectedReport lost before (a ++ b) = expectedReport lost before a ++ expectedReport lost (before ++ a) b := by
  induction a generalizing before with
  | nil => simp [expectedReport]
  | cons x xs ih => simp [expectedReport, ih]

theorem NoUnpacked.append {a b : List (RepairMsg T)} (h1 : NoUnpacked a) (h2 : NoUnpacked b) : NoUnpacked (a ++ b) := by
  simp only [NoUnpacked, List.mem_append, not_or]
  exact ⟨⟨h1.1, h2.1⟩, h1.2, h2.2⟩

theorem reportEntry_noUnpacked {before : List (Index T)} {x : Index T} (h : ∀ y ∈ before, y.isSealed = false → x.level < y.level) :
    NoUnpacked (reportEntry before x) := by
  have ha : afterUnsealed before x = false := by
    rw [Bool.eq_false_iff]
    intro hc
    simp only [afterUnsealed, List.any_eq_true, Bool.and_eq_true, Bool.not_eq_true', decide_eq_true_eq] at hc
    obtain ⟨y, h1, h2, h3⟩ := hc
    have := h y h1 h2
    omega
  cases x with
  | leaf i =>
    simp only [reportEntry, ha, Bool.false_eq_true, if_false, NoUnpacked]
    split <;> simp
  | branch i =>
    simp only [reportEntry, ha, Bool.false_eq_true, if_false, NoUnpacked]
    split <;> simp

theorem expectedReport_noUnpacked {lost : T.Link → Bool} {n : Nat} {before xs : List (Index T)}
    (h : ∀ y ∈ before, y.isSealed = false → n < y.level) (hx : ∀ x ∈ xs, x.isSealed = true ∧ x.level ≤ n) :
    NoUnpacked (expectedReport lost before xs) := by
  induction xs generalizing before with
  | nil => simp [expectedReport, NoUnpacked]
  | cons x xs ih =>
    have hx0 := hx x (by simp)
    simp only [expectedReport]
    refine NoUnpacked.append ?_ (ih (fun y hy hs => ?_) fun y hy => hx y (by simp [hy]))
    · split
      · exact reportEntry_noUnpacked fun y hy hs => Nat.lt_of_le_of_lt hx0.2 (h y hy hs)
      · simp [NoUnpacked]
    · rcases List.mem_append.mp hy with hy | hy
      · exact h y hy hs
      · simp only [List.mem_singleton] at hy
        subst hy
        rw [hx0.1] at hs
        cases hs

theorem sealed_nodes {t : PTree T V} (hw : WF E t) (hs : t.index.isSealed = true) : ∀ n ∈ t.nodes, n.index.isSealed = true := by
  induction t using PTree.induct with
  | leaf i vs => intro n hn; simp only [PTree.nodes, List.mem_singleton] at hn; subst hn; exact hs
  | purgedLeaf i => intro n hn; simp only [PTree.nodes, List.mem_singleton] at hn; subst hn; exact hs
  | purgedBranch i => intro n hn; simp only [PTree.nodes, List.mem_singleton] at hn; subst hn; exact hs
  | branch i cs ih =>
    intro n hn
    rcases mem_nodes_branch.mp hn with rfl | ⟨c, hcs, hn⟩
    · exact hs
    · have h0 := (PTree.All.root hw).2.2.2.2.2.2 hs
      exact ih c hcs (PTree.All.child hw hcs) (h0.1 c hcs).1 n hn

theorem foundL_append (lost : T.Link → Bool) (a b : List (PTree T V)) : foundL lost (a ++ b) = foundL lost a ++ foundL lost b := by
  induction a with
  | nil => rfl
  | cons x xs ih => simp [foundL, ih]

theorem foundL_mem (lost : T.Link → Bool) (cs : List (PTree T V)) : ∀ x ∈ foundL lost cs, ∃ c ∈ cs, ∃ n ∈ c.nodes, n.index = x := by
  induction cs with
  | nil => intro x hx; simp [foundL] at hx
  | cons c cs ih =>
    intro x hx
    simp only [foundL, List.mem_append] at hx
    rcases hx with hx | hx
    · obtain ⟨n, hn, e⟩ := found_mem lost c x hx
      exact ⟨c, by simp, n, hn, e⟩
    · obtain ⟨d, hd, h⟩ := ih x hx
      exact ⟨d, by simp [hd], h⟩

theorem found_sealed {lost : T.Link → Bool} {t : PTree T V} (hw : WF E t) (hc : Counts t) (hs : t.index.isSealed = true) :
    ∀ x ∈ t.found lost, x.isSealed = true ∧ x.level ≤ t.index.level := by
  intro x hx
  obtain ⟨n, hn, rfl⟩ := found_mem lost t x hx
  exact ⟨sealed_nodes hw hs n hn, nodes_level hc n hn⟩

theorem packed_noUnpacked {lost : T.Link → Bool} {t : PTree T V} (hp : Packed t) (hw : WF E t) (hc : Counts t) (before : List (Index T))
    (h : ∀ y ∈ before, y.isSealed = false → t.index.level < y.level) : NoUnpacked (expectedReport lost before (t.found lost)) := by
  have single : ∀ (x : Index T) before, (∀ y ∈ before, y.isSealed = false → x.level < y.level) →
      NoUnpacked (if x.lostBy lost then reportEntry before x else []) := by
    intro x before h
    split
    · exact reportEntry_noUnpacked h
    · simp [NoUnpacked]
  induction hp generalizing before with
  | leaf i vs => simpa [found, expectedReport] using single (.leaf i) before h
  | purgedLeaf i => simpa [found, expectedReport] using single (.leaf i) before h
  | purgedBranch i => simpa [found, expectedReport] using single (.branch i) before h
  | closed i cs hs => exact expectedReport_noUnpacked h (found_sealed hw hc hs)
  | unclosed i init last hinit hlast hp ih =>
    simp only [found, expectedReport]
    refine NoUnpacked.append (single (.branch i) before h) ?_
    split
    · simp [expectedReport, NoUnpacked]
    · rw [foundL_append, expectedReport_append]
      have hbefore : ∀ n : Nat, n < i.level → ∀ y ∈ before ++ [Index.branch i], y.isSealed = false → n < y.level := by
        intro n hn y hy hs
        rcases List.mem_append.mp hy with hy | hy
        · exact Nat.lt_trans hn (h y hy hs)
        · simp only [List.mem_singleton] at hy
          subst hy
          exact hn
      have hsl : ∀ x ∈ foundL lost init, x.isSealed = true ∧ x.level ≤ i.level - 1 := by
        intro x hx
        obtain ⟨c, hc1, n, hn, rfl⟩ := foundL_mem lost init x hx
        have hcc : c ∈ init ++ [last] := by simp [hc1]
        have h1 := sealed_nodes (PTree.All.child hw hcc) (hinit c hc1).1 n hn
        have h2 := nodes_level (hc.child hcc) n hn
        have h3 := (hinit c hc1).2
        exact ⟨h1, by omega⟩
      refine NoUnpacked.append (expectedReport_noUnpacked (n := i.level - 1) (hbefore _ (by omega)) hsl) ?_
      have hlm : last ∈ init ++ [last] := by simp
      have := ih (PTree.All.child hw hlm) (hc.child hlm) (before ++ [.branch i] ++ foundL lost init) (by
        intro y hy hs
        rcases List.mem_append.mp hy with hy | hy
        · exact hbefore _ hlast y hy hs
        · rw [(hsl y hy).1] at hs
          cases hs)
      simpa [foundL] using this

end Banyan
