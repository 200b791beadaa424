import Verif.Proofs.Roots
/-
Building a packed tree from roots, and `pack`.
-/
namespace Banyan

variable {T : TreeTypes} {V : Type} {E : Env T V} {cx : Ctx E} {I : NodeInv cx}

open PTree

/-- The invariant of the list of roots while it is simplified. -/
structure RootsOk (I : NodeInv cx) (σ : E.σ) (rs : List (PTree T V)) : Prop where
  good : ∀ r ∈ rs, Good I σ r
  packed : ∀ r ∈ rs, Packed r
  closed : ∀ r ∈ rs.dropLast, r.index.isSealed = true
  sorted : rs.Pairwise (fun a b => a.index.level ≥ b.index.level)

/-- The number of roots plus the number of leaves among them. -/
def rootsMeasure (rs : List (PTree T V)) : Nat := rs.length + (rs.filter fun r => r.index.level == 0).length

theorem rootsMeasure_le (rs : List (PTree T V)) : rootsMeasure rs ≤ 2 * rs.length := by
  unfold rootsMeasure
  have := List.length_filter_le (fun r : PTree T V => r.index.level == 0) rs
  omega

theorem rootsMeasure_append (a b : List (PTree T V)) : rootsMeasure (a ++ b) = rootsMeasure a + rootsMeasure b := by
  unfold rootsMeasure
  simp only [List.length_append, List.filter_append]
  omega

/-! ### find_valid_branch -/

/-- What `find_valid_branch` decides. -/
def FindSpec (cfg : Config) (rs : List (PTree T V)) (lv : Nat) : BranchResult → Prop
  | .sealed n => 1 ≤ n ∧ n ≤ rs.length ∧ n = cfg.maxBranches (lv + 1) ∧ ∀ r ∈ rs.take n, r.index.level = lv
  | .unsealed n => n = rs.length ∧ n ≤ cfg.maxBranches (lv + 1) ∧ ∀ r ∈ rs.dropLast, r.index.level = lv
  | .skip n => 1 ≤ n ∧ n + 2 ≤ rs.length ∧ (∀ r ∈ rs.take n, r.index.level = lv) ∧ ∀ r ∈ rs.drop n, r.index.level < lv

theorem findValidBranch_spec (hv : cx.cfg.Valid) (r0 : PTree T V) (rs : List (PTree T V)) (hlen : 1 < (r0 :: rs).length)
    (hs : (r0 :: rs).Pairwise (fun a b => a.index.level ≥ b.index.level)) :
    ∃ res, findValidBranch cx.cfg ((r0 :: rs).map index) = .ok res ∧ FindSpec cx.cfg (r0 :: rs) r0.index.level res := by
  unfold findValidBranch
  have h1 : decide (((r0 :: rs).map index).length > 1) = true := by simpa using hlen
  rw [h1]
  have h2 : isSorted ((((r0 :: rs).map index).map Index.level).reverse) = true := by
    rw [isSorted_reverse_iff, List.map_map, List.pairwise_map]
    exact hs
  rw [h2]
  simp only [Bool.not_true, Bool.false_eq_true, if_false, List.map_cons]
  have hmax : (if r0.index.level = 0 then cx.cfg.maxKeyBranches else cx.cfg.maxSummaryBranches) =
      cx.cfg.maxBranches (r0.index.level + 1) := by
    unfold Config.maxBranches
    simp only [Nat.add_eq_right]
  rw [hmax]
  have hpos := maxBranches_pos hv (r0.index.level + 1)
  generalize hp : List.findIdx (fun x : Index T => decide (x.level < r0.index.level)) (r0.index :: rs.map index) = pos
  have hl : (r0.index :: rs.map index).length = (r0 :: rs).length := by simp
  have hposle : pos ≤ (r0 :: rs).length := by
    rw [← hl, ← hp]; exact List.findIdx_le_length
  -- all elements before `pos` are at the level of the first one
  have hbefore : ∀ (i : Nat) (hi : i < (r0 :: rs).length), i < pos → (r0 :: rs)[i].index.level = r0.index.level := by
    intro i hi hip
    have hn := List.not_of_lt_findIdx (p := fun x : Index T => decide (x.level < r0.index.level))
      (xs := r0.index :: rs.map index) (i := i) (by rw [hp]; exact hip)
    have he : (r0.index :: rs.map index)[i]'(by rw [hl]; exact hi) = (r0 :: rs)[i].index := by
      have : (r0.index :: rs.map index) = (r0 :: rs).map index := rfl
      simp only [this, List.getElem_map]
    rw [he] at hn
    have hn' : ¬ (r0 :: rs)[i].index.level < r0.index.level := by simpa using hn
    cases i with
    | zero => rfl
    | succ i =>
      have := (List.pairwise_cons.mp hs).1 (rs[i]'(by simpa using hi)) (List.getElem_mem _)
      simp only [List.getElem_cons_succ] at hn' ⊢
      omega
  have htake : ∀ n, n ≤ pos → ∀ r ∈ (r0 :: rs).take n, r.index.level = r0.index.level := by
    intro n hn r hr
    obtain ⟨i, hi, rfl⟩ := List.mem_iff_getElem.mp hr
    have hi' := hi
    rw [List.length_take] at hi'
    rw [List.getElem_take]
    exact hbefore i (by omega) (by omega)
  have hpos1 : 1 ≤ pos := by
    cases pos with
    | succ n => omega
    | zero =>
      exfalso
      have := List.findIdx_getElem (p := fun x : Index T => decide (x.level < r0.index.level))
        (xs := r0.index :: rs.map index) (w := by rw [hp]; simp)
      simp [hp] at this
  by_cases hc1 : pos ≥ cx.cfg.maxBranches (r0.index.level + 1)
  · rw [if_pos hc1]
    exact ⟨_, rfl, hpos, by omega, rfl, htake _ hc1⟩
  · rw [if_neg hc1]
    by_cases hc2 : pos = (r0.index :: rs.map index).length ∨ pos = (r0.index :: rs.map index).length - 1
    · rw [if_pos hc2]
      refine ⟨_, rfl, ?_, ?_, ?_⟩
      · rw [hl] at hc2 ⊢; omega
      · omega
      · intro r hr
        rw [List.dropLast_eq_take] at hr
        refine htake _ ?_ r hr
        rw [hl] at hc2; omega
    · rw [if_neg hc2]
      rw [hl] at hc2
      refine ⟨_, rfl, hpos1, by omega, htake pos (Nat.le_refl _), ?_⟩
      have hlt : pos < (r0 :: rs).length := by omega
      have hat : (r0 :: rs)[pos].index.level < r0.index.level := by
        have := List.findIdx_getElem (p := fun x : Index T => decide (x.level < r0.index.level))
          (xs := r0.index :: rs.map index) (w := by rw [hp, hl]; exact hlt)
        have he : (r0.index :: rs.map index) = (r0 :: rs).map index := rfl
        simp only [he, List.getElem_map, decide_eq_true_eq] at this
        subst hp
        exact this
      intro r hr
      rw [List.drop_eq_getElem_cons hlt] at hr
      rcases List.mem_cons.mp hr with rfl | hr
      · exact hat
      · have hs2 : ((r0 :: rs).drop pos).Pairwise (fun a b => a.index.level ≥ b.index.level) := List.Pairwise.sublist (List.drop_sublist _ _) hs
        rw [List.drop_eq_getElem_cons hlt] at hs2
        have := (List.pairwise_cons.mp hs2).1 r hr
        omega

/-! ### combining a group of roots -/

/-- Replacing a group of roots by a branch keeps the invariant. -/
theorem RootsOk.group (h : E.Lawful) (hv : cx.cfg.Valid) {σ σ' : E.σ} (hle : StoreLe E σ σ') {A init B : List (PTree T V)} {last : PTree T V} {lv : Nat}
    (hr : RootsOk I σ (A ++ (init ++ [last]) ++ B)) {i : BranchIndex T} (hm : BranchMade cx σ' i (init ++ [last]))
    (hinit : ∀ c ∈ init, c.index.level = lv) (hlast : last.index.level ≤ lv) (hone : init = [] → last.index.level = lv)
    (hA : ∀ a ∈ A, lv < a.index.level)
    (hB : B ≠ [] → last.index.level = lv ∧ (init ++ [last]).length = cx.cfg.maxBranches (lv + 1))
    (hlen : (init ++ [last]).length ≤ cx.cfg.maxBranches (lv + 1)) :
    RootsOk I σ' (A ++ [.branch i (init ++ [last])] ++ B) ∧ i.level = lv + 1 := by
  have hsort := hr.sorted
  rw [List.pairwise_append, List.pairwise_append, List.pairwise_append] at hsort
  obtain ⟨⟨sA, ⟨_, _, _⟩, sAg⟩, sB, sgB⟩ := hsort
  have hlevel : i.level = lv + 1 := by
    refine hm.level ?_ ?_
    · intro c hc
      rcases List.mem_append.mp hc with hc | hc
      · have := hinit c hc; omega
      · have : c = last := by simpa using hc
        subst this; omega
    · by_cases hi : init = []
      · subst hi
        exact ⟨last, by simp, by rw [hone rfl]⟩
      · obtain ⟨c, hc⟩ := List.exists_mem_of_ne_nil init hi
        exact ⟨c, by simp [hc], by rw [hinit c hc]⟩
  refine ⟨⟨?_, ?_, ?_, ?_⟩, hlevel⟩
  · intro r hmem
    simp only [List.mem_append, List.mem_singleton] at hmem
    rcases hmem with (hmem | rfl) | hmem
    · exact (hr.good r (by simp [hmem])).mono hle
    · refine good_branch h hv hm (Or.inl (by rw [hlevel]; exact hlen)) fun c hc => (hr.good c ?_).mono hle
      simp only [List.mem_append] at hc ⊢
      exact Or.inl (Or.inr hc)
    · exact (hr.good r (by simp [hmem])).mono hle
  · intro r hmem
    simp only [List.mem_append, List.mem_singleton] at hmem
    rcases hmem with (hmem | rfl) | hmem
    · exact hr.packed r (by simp [hmem])
    · refine .unclosed i init last (fun c hc => ⟨hr.closed c ?_, by rw [hinit c hc, hlevel]⟩) (by omega)
        (hr.packed last (by simp))
      by_cases hBn : B = []
      · subst hBn
        rw [List.append_nil, ← List.append_assoc, List.dropLast_concat]
        simp [hc]
      · rw [List.dropLast_append_of_ne_nil hBn]
        simp [hc]
    · exact hr.packed r (by simp [hmem])
  · intro r hmem
    by_cases hBn : B = []
    · subst hBn
      rw [List.append_nil, List.dropLast_concat] at hmem
      refine hr.closed r ?_
      rw [List.append_nil, ← List.append_assoc, List.dropLast_concat]
      simp [hmem]
    · rw [List.dropLast_append_of_ne_nil hBn] at hmem
      have hcl := hr.closed
      rw [List.dropLast_append_of_ne_nil hBn] at hcl
      simp only [List.mem_append, List.mem_singleton] at hmem
      rcases hmem with (hmem | rfl) | hmem
      · exact hcl r (by simp [hmem])
      · show i.isSealed = true
        obtain ⟨hb1, hb2⟩ := hB hBn
        rw [hm.sealed, branchSealed_iff]
        refine ⟨?_, by rw [hlevel, List.length_map, hb2]; exact Nat.le_refl _⟩
        intro x hx
        obtain ⟨c, hc, rfl⟩ := List.mem_map.mp hx
        refine ⟨hcl c ?_, ?_⟩
        · simp only [List.mem_append] at hc ⊢
          exact Or.inl (Or.inr hc)
        · rcases List.mem_append.mp hc with hc | hc
          · have := hinit c hc; omega
          · have : c = last := by simpa using hc
            subst this; omega
      · exact hcl r (by simp [hmem])
  · rw [List.pairwise_append, List.pairwise_append]
    refine ⟨⟨sA, by simp, ?_⟩, sB, ?_⟩
    · intro a ha b hb
      have : b = .branch i (init ++ [last]) := by simpa using hb
      subst this
      have := hA a ha
      show i.level ≤ a.index.level
      omega
    · intro a ha b hb
      rcases List.mem_append.mp ha with ha | ha
      · exact sgB a (by simp [ha]) b hb
      · have : a = .branch i (init ++ [last]) := by simpa using ha
        subst this
        have := sgB last (by simp) b hb
        show b.index.level ≤ i.level
        omega

/-- One simplification step. -/
structure Simplified (I : NodeInv cx) (σ : E.σ) (rs rs' : List (PTree T V)) : Prop where
  ok : RootsOk I σ rs'
  content : contents rs' = contents rs
  measure : rootsMeasure rs' < rootsMeasure rs
  bound : ∀ B, (∀ r ∈ rs, max 1 r.index.level + rs.length ≤ B) → ∀ r ∈ rs', max 1 r.index.level + rs'.length ≤ B
  ne : rs' ≠ []
  mem : ∀ n r, r ∈ rs → n ∈ r.nodes → ∃ r' ∈ rs', n ∈ r'.nodes
  minRoot : (∀ r ∈ rs, MinRoot r) → ∀ r ∈ rs', MinRoot r

theorem Simplified.of_group (h : E.Lawful) (hv : cx.cfg.Valid) {σ σ' : E.σ} (hle : StoreLe E σ σ') {A init B : List (PTree T V)} {last : PTree T V} {lv : Nat}
    (hr : RootsOk I σ (A ++ (init ++ [last]) ++ B)) {i : BranchIndex T} (hm : BranchMade cx σ' i (init ++ [last]))
    (hinit : ∀ c ∈ init, c.index.level = lv) (hlast : last.index.level ≤ lv) (hone : init = [] → last.index.level = lv)
    (hA : ∀ a ∈ A, lv < a.index.level)
    (hB : B ≠ [] → last.index.level = lv ∧ (init ++ [last]).length = cx.cfg.maxBranches (lv + 1))
    (hB' : B = [] → init = [] → (init ++ [last]).length = cx.cfg.maxBranches (lv + 1))
    (hlen : (init ++ [last]).length ≤ cx.cfg.maxBranches (lv + 1)) :
    Simplified I σ' (A ++ (init ++ [last]) ++ B) (A ++ [.branch i (init ++ [last])] ++ B) := by
  obtain ⟨h1, h2⟩ := RootsOk.group h hv hle hr hm hinit hlast hone hA hB hlen
  -- a group of one can only be a leaf
  have hsingle : init = [] → lv = 0 := by
    intro hi
    have hl : cx.cfg.maxBranches (lv + 1) = 1 := by
      by_cases hb : B = []
      · have := hB' hb hi; rw [hi] at this; simpa using this.symm
      · have := (hB hb).2; rw [hi] at this; simpa using this.symm
    unfold Config.maxBranches at hl
    by_cases h0 : lv + 1 = 1
    · omega
    · rw [if_neg h0] at hl
      have := hv.summary
      omega
  refine ⟨h1, by simp [PTree.content], ?_, ?_, by simp, ?_, ?_⟩
  · rw [rootsMeasure_append, rootsMeasure_append, rootsMeasure_append, rootsMeasure_append, rootsMeasure_append init]
    have e1 : rootsMeasure [PTree.branch i (init ++ [last])] = 1 := by
      unfold rootsMeasure
      have : ((PTree.branch i (init ++ [last])).index.level == 0) = false := by
        simp only [index, Index.level, beq_eq_false_iff_ne, ne_eq]; omega
      simp [this]
    rw [e1]
    by_cases hi : init = []
    · subst hi
      have : rootsMeasure [last] = 2 := by
        unfold rootsMeasure
        have h0 := hone rfl
        have h0' := hsingle rfl
        have : (last.index.level == 0) = true := by simp; omega
        simp [this]
      rw [this]
      simp only [rootsMeasure, List.length_nil, List.filter_nil]
      omega
    · have e2 : 1 ≤ rootsMeasure init := by
        unfold rootsMeasure
        have : 0 < init.length := List.length_pos_iff.mpr hi
        omega
      have e3 : 1 ≤ rootsMeasure [last] := by unfold rootsMeasure; simp
      omega
  · intro b hb r hmem
    simp only [List.length_append, List.length_singleton] at hb ⊢
    simp only [List.mem_append, List.mem_singleton] at hmem
    have hlast' := hb last (by simp)
    rcases hmem with (hmem | rfl) | hmem
    · have := hb r (by simp [hmem]); omega
    · show max 1 i.level + _ ≤ b
      by_cases hi : init = []
      · have := hsingle hi
        omega
      · have hpos : 0 < init.length := List.length_pos_iff.mpr hi
        obtain ⟨c, hc⟩ := List.exists_mem_of_ne_nil init hi
        have := hb c (by simp [hc])
        have := hinit c hc
        omega
    · have := hb r (by simp [hmem]); omega
  · intro n r hmem hn
    simp only [List.mem_append, List.mem_singleton] at hmem
    have hgrp : ∀ c ∈ init ++ [last], n ∈ c.nodes → ∃ r' ∈ A ++ [PTree.branch i (init ++ [last])] ++ B, n ∈ r'.nodes := by
      intro c hc hn
      exact ⟨.branch i (init ++ [last]), by simp, mem_nodes_branch.mpr (Or.inr ⟨c, hc, hn⟩)⟩
    rcases hmem with (hmem | hmem) | hmem
    · exact ⟨r, by simp [hmem], hn⟩
    · refine hgrp r ?_ hn
      simp only [List.mem_append, List.mem_singleton]
      exact hmem
    · exact ⟨r, by simp [hmem], hn⟩
  · intro hm2 r hmem
    simp only [List.mem_append, List.mem_singleton] at hmem
    rcases hmem with (hmem | rfl) | hmem
    · exact hm2 r (by simp [hmem])
    · intro hl2
      by_cases hi : init = []
      · have := hsingle hi
        omega
      · have : 0 < init.length := List.length_pos_iff.mpr hi
        simp only [List.length_append, List.length_singleton]
        omega
    · exact hm2 r (by simp [hmem])

theorem simplifyRoots_spec (h : E.Lawful) (hv : cx.cfg.Valid) {vals : V → Prop} {R : Err → Prop}
    (hR : ∀ e, Allowed E cx.cfg vals e → R e) (fuel : Nat) (A rs : List (PTree T V)) (s : St E)
    (hlen : 2 ≤ rs.length) (hfuel : rs.length < fuel) (hA : ∀ a ∈ A, ∀ b ∈ rs, b.index.level < a.index.level)
    (hok : RootsOk I s.store (A ++ rs)) :
    Post (simplifyRoots cx fuel ((A ++ rs).map index) A.length) s
      (fun r s' => ∃ rs', r = rs'.map index ∧ Simplified I s'.store (A ++ rs) rs') R := by
  induction fuel generalizing A rs s with
  | zero => omega
  | succ fuel ih =>
    unfold simplifyRoots
    refine Post.assertBind (Or.inl (by simp; omega)) fun _ => ?_
    refine Post.assertBind (Or.inl ?_) fun _ => ?_
    · rw [isSorted_reverse_iff, List.map_map, List.pairwise_map]
      exact hok.sorted
    obtain ⟨r0, rs0, rfl⟩ : ∃ r0 rs0, rs = r0 :: rs0 := by
      cases rs with
      | nil => simp at hlen
      | cons a l => exact ⟨a, l, rfl⟩
    have hsortrs : (r0 :: rs0).Pairwise (fun a b => a.index.level ≥ b.index.level) := (List.pairwise_append.mp hok.sorted).2.1
    have hdrop : ((A ++ r0 :: rs0).map index).drop A.length = (r0 :: rs0).map index := by
      rw [List.map_append]
      exact List.drop_left' (by simp)
    have htk : ((A ++ r0 :: rs0).map index).take A.length = A.map index := by
      rw [List.map_append]
      exact List.take_left' (by simp)
    obtain ⟨res, hres, hspec⟩ := findValidBranch_spec (cx := cx) hv r0 rs0 (by omega) hsortrs
    rw [hdrop]
    refine Post.liftBind (fun e he => by rw [hres] at he; cases he) fun a ha => ?_
    rw [hres] at ha
    cases ha
    -- the common part of `Sealed` and `Unsealed`
    have hgroup : ∀ n, 1 ≤ n → n ≤ (r0 :: rs0).length →
        (∀ init last B, (r0 :: rs0) = (init ++ [last]) ++ B → (init ++ [last]).length = n →
          (∀ c ∈ init, c.index.level = r0.index.level) ∧ last.index.level ≤ r0.index.level ∧
          (init = [] → last.index.level = r0.index.level) ∧
          (B ≠ [] → last.index.level = r0.index.level ∧ (init ++ [last]).length = cx.cfg.maxBranches (r0.index.level + 1)) ∧
          (B = [] → init = [] → (init ++ [last]).length = cx.cfg.maxBranches (r0.index.level + 1)) ∧
          (init ++ [last]).length ≤ cx.cfg.maxBranches (r0.index.level + 1)) →
        Post (newBranch cx (((r0 :: rs0).map index).take n) .packed >>= fun node =>
          pure (((A ++ r0 :: rs0).map index).take A.length ++ [Index.branch node] ++ ((A ++ r0 :: rs0).map index).drop (A.length + n))) s
          (fun r s' => ∃ rs', r = rs'.map index ∧ Simplified I s'.store (A ++ r0 :: rs0) rs') R := by
      intro n hn1 hn2 hfacts
      have hgne : (r0 :: rs0).take n ≠ [] := by
        cases n with
        | zero => omega
        | succ n => simp
      obtain ⟨init, last, hg⟩ : ∃ init last, (r0 :: rs0).take n = init ++ [last] :=
        ⟨_, _, (List.dropLast_concat_getLast hgne).symm⟩
      have hsplit : (r0 :: rs0) = (init ++ [last]) ++ (r0 :: rs0).drop n := by
        rw [← hg, List.take_append_drop]
      have hln : (init ++ [last]).length = n := by rw [← hg, List.length_take]; omega
      obtain ⟨f1, f2, f3, f4, f5, f6⟩ := hfacts init last _ hsplit hln
      rw [htk, ← List.map_take, hg]
      have hdr : ((A ++ r0 :: rs0).map index).drop (A.length + n) = ((r0 :: rs0).drop n).map index := by
        rw [← List.map_drop, List.drop_append]
        simp
      rw [hdr]
      refine Post.bind (frame_newBranch h _ _) (fun _ => Frame.pure _)
        (newBranch_spec (cx := cx) h hR (init ++ [last]) .packed (by simp) (fun _ => Or.inl ?_) s) ?_
      · have := hsortrs
        rw [hsplit] at this
        have := (List.pairwise_append.mp this).1
        rw [List.pairwise_map]
        exact this
      · intro i s' hext _ hmade
        refine Post.pure fun _ => ⟨A ++ [.branch i (init ++ [last])] ++ (r0 :: rs0).drop n, by simp [index], ?_⟩
        have hok' := hok
        rw [hsplit, ← List.append_assoc] at hok'
        have := Simplified.of_group (I := I) h hv hext.store hok' hmade f1 f2 f3
          (fun a ha => hA a ha r0 (by simp)) f4 f5 f6
        rw [List.append_assoc A (init ++ [last]), ← hsplit] at this
        exact this
    cases res with
    | «sealed» n =>
      obtain ⟨g1, g2, g3, g4⟩ := hspec
      refine hgroup n g1 g2 ?_
      intro init last B hsplit hln
      have htn : (r0 :: rs0).take n = init ++ [last] := by
        rw [hsplit]; exact List.take_left' hln
      rw [htn] at g4
      refine ⟨fun c hc => g4 c (by simp [hc]), ?_, fun _ => g4 last (by simp), fun _ => ⟨g4 last (by simp), by omega⟩,
        fun _ _ => by omega, by omega⟩
      have := g4 last (by simp)
      omega
    | unsealed n =>
      obtain ⟨g1, g2, g3⟩ := hspec
      refine hgroup n (by omega) (by omega) ?_
      intro init last B hsplit hln
      have hB : B = [] := by
        have := congrArg List.length hsplit
        rw [List.length_append] at this
        exact List.eq_nil_of_length_eq_zero (by omega)
      subst hB
      rw [List.append_nil] at hsplit
      rw [hsplit, List.dropLast_concat] at g3
      have hinit : init ≠ [] := by
        intro hi
        subst hi
        rw [hsplit] at hlen
        simp at hlen
      refine ⟨g3, ?_, fun hi => absurd hi hinit, fun hn => absurd rfl hn, fun _ hi => absurd hi hinit, by omega⟩
      have hmem : last ∈ r0 :: rs0 := by rw [hsplit]; simp
      rcases List.mem_cons.mp hmem with h' | h'
      · rw [h']; exact Nat.le_refl _
      · exact (List.pairwise_cons.mp hsortrs).1 last h'
    | skip n =>
      obtain ⟨g1, g2, g3, g4⟩ := hspec
      simp only
      have hsplit : A ++ r0 :: rs0 = (A ++ (r0 :: rs0).take n) ++ (r0 :: rs0).drop n := by
        rw [List.append_assoc, List.take_append_drop]
      have hlA : A.length + n = (A ++ (r0 :: rs0).take n).length := by
        rw [List.length_append, List.length_take]; omega
      rw [hlA, hsplit]
      rw [hsplit] at hok
      refine ih _ _ s ?_ ?_ ?_ hok
      · rw [List.length_drop]; omega
      · rw [List.length_drop]; omega
      · intro a ha b hb
        rcases List.mem_append.mp ha with ha | ha
        · exact hA a ha b (List.mem_of_mem_drop hb)
        · rw [g3 a ha]; exact g4 b hb

theorem treeFromRootsLoop_spec (h : E.Lawful) (hv : cx.cfg.Valid) {vals : V → Prop} {R : Err → Prop}
    (hR : ∀ e, Allowed E cx.cfg vals e → R e) (fuel : Nat) (rs : List (PTree T V)) (s : St E)
    (hfuel : rootsMeasure rs ≤ fuel) (hok : RootsOk I s.store rs) (B : Nat)
    (hB : ∀ r ∈ rs, max 1 r.index.level + rs.length ≤ B) :
    Post (treeFromRootsLoop cx fuel (rs.map index)) s
      (fun r s' => ∃ rs', r = rs'.map index ∧ RootsOk I s'.store rs' ∧ rs'.length ≤ 1 ∧ contents rs' = contents rs ∧
        (∀ r ∈ rs', max 1 r.index.level + rs'.length ≤ B) ∧ (∀ n r, r ∈ rs → n ∈ r.nodes → ∃ r' ∈ rs', n ∈ r'.nodes) ∧
        ((∀ r ∈ rs, MinRoot r) → ∀ r ∈ rs', MinRoot r)) R := by
  induction fuel generalizing rs s with
  | zero =>
    unfold treeFromRootsLoop
    have : rs.length = 0 := by unfold rootsMeasure at hfuel; omega
    rw [if_neg (by simp; omega)]
    exact Post.pure fun _ => ⟨rs, rfl, hok, by omega, rfl, hB, fun n r hr hn => ⟨r, hr, hn⟩, id⟩
  | succ fuel ih =>
    unfold treeFromRootsLoop
    by_cases hl : (rs.map index).length > 1
    · rw [if_pos hl]
      have hl' : 2 ≤ rs.length := by rw [List.length_map] at hl; exact hl
      have := simplifyRoots_spec (I := I) (cx := cx) h hv hR ((rs.map index).length + 1) [] rs s hl' (by simp) (by simp) hok
      refine Post.bind (frame_simplifyRoots h _ _ _) (fun _ => frame_treeFromRootsLoop h _ _) this ?_
      rintro r s1 hext _ ⟨rs', rfl, hs⟩
      rw [List.nil_append] at hs
      have := ih rs' s1 (by have := hs.measure; omega) hs.ok (hs.bound B hB)
      refine Post.mono (frame_treeFromRootsLoop h _ _) this ?_ (fun _ h => h)
      rintro r s2 hext2 _ ⟨rs2, k1, k2, k3, k4, k5, k6, k7⟩
      refine ⟨rs2, k1, k2, k3, k4.trans hs.content, k5, ?_, fun h => k7 (hs.minRoot h)⟩
      intro n r hr hn
      obtain ⟨r', hr', hn'⟩ := hs.mem n r hr hn
      exact k6 n r' hr' hn'
    · rw [if_neg hl]
      have : rs.length ≤ 1 := by simp at hl; omega
      exact Post.pure fun _ => ⟨rs, rfl, hok, this, rfl, hB, fun n r hr hn => ⟨r, hr, hn⟩, id⟩

/-! ### levels and counts -/

theorem le_sum_of_mem {l : List Nat} {x : Nat} (h : x ∈ l) : x ≤ l.sum := by
  induction l with
  | nil => simp at h
  | cons a l ih =>
    simp only [List.sum_cons]
    rcases List.mem_cons.mp h with rfl | h
    · omega
    · have := ih h; omega

theorem PTree.nodes_trans {t n m : PTree T V} (hn : n ∈ t.nodes) (hm : m ∈ n.nodes) : m ∈ t.nodes := by
  induction t using PTree.induct with
  | leaf i vs => simp only [nodes, List.mem_singleton] at hn; subst hn; exact hm
  | purgedLeaf i => simp only [nodes, List.mem_singleton] at hn; subst hn; exact hm
  | purgedBranch i => simp only [nodes, List.mem_singleton] at hn; subst hn; exact hm
  | branch i cs ih =>
    rcases mem_nodes_branch.mp hn with rfl | ⟨c, hc, hn⟩
    · exact hm
    · exact mem_nodes_branch.mpr (Or.inr ⟨c, hc, ih c hc hn⟩)

theorem PTree.All.child {P : PTree T V → Prop} {i : BranchIndex T} {cs : List (PTree T V)} (h : (PTree.branch i cs).All P)
    {c : PTree T V} (hc : c ∈ cs) : c.All P := PTree.All.children h c hc

theorem sum_pos_of_mem {l : List Nat} (h : ∀ x ∈ l, 0 < x) (hl : l ≠ []) : l.length ≤ l.sum := by
  clear hl
  induction l with
  | nil => simp
  | cons a l ih =>
    have := ih (fun x hx => h x (by simp [hx]))
    have := h a (by simp)
    simp only [List.length_cons, List.sum_cons]
    omega

/-- Every node has an element. -/
theorem Formed.count_pos {t : PTree T V} (h : Formed t) : 0 < t.index.count := by
  induction t using PTree.induct with
  | leaf i vs =>
    obtain ⟨h1, h2⟩ := PTree.All.root h
    show 0 < T.keys.len i.keys
    rw [h1]
    exact List.length_pos_iff.mpr h2
  | purgedLeaf i => exact PTree.All.root h
  | purgedBranch i => exact PTree.All.root h
  | branch i cs ih =>
    obtain ⟨h1, _, h2, _⟩ := PTree.All.root h
    show 0 < i.count
    rw [h2]
    obtain ⟨c, hc⟩ := List.exists_mem_of_ne_nil cs h1
    have h3 := ih c hc (PTree.All.child h hc)
    have h4 := le_sum_of_mem (List.mem_map_of_mem (f := fun c => c.index.count) hc)
    omega

theorem WF.count_pos {t : PTree T V} (h : WF E t) : 0 < t.index.count := h.formed.count_pos

/-- A sealed node has at least as many elements as its level. -/
theorem WF.level_le_count {t : PTree T V} (h : WF E t) (hs : t.index.isSealed = true) :
    t.index.level ≤ t.index.count := by
  induction t using PTree.induct with
  | leaf i vs => exact Nat.zero_le _
  | purgedLeaf i => exact Nat.zero_le _
  | purgedBranch i => exact (PTree.All.root h).2.2.2.1
  | branch i cs ih =>
    have hpos := WF.count_pos h
    obtain ⟨h1, hlt, _, h2, _, _, h3⟩ := PTree.All.root h
    obtain ⟨h4, h5⟩ := h3 hs
    show i.level ≤ i.count
    have hpos' : 0 < i.count := hpos
    by_cases hl : i.level ≤ 1
    · omega
    · have h5 := h5 (by omega)
      obtain ⟨c, d, rest, rfl⟩ : ∃ c d rest, cs = c :: d :: rest := by
        match cs, h5 with
        | [], h5 => simp at h5
        | [_], h5 => simp at h5
        | c :: d :: rest, _ => exact ⟨c, d, rest, rfl⟩
      have k1 := ih c (by simp) (PTree.All.child h (by simp)) (h4 c (by simp)).1
      have k2 := (h4 c (by simp)).2
      have k3 := WF.count_pos (PTree.All.child h (c := d) (by simp))
      rw [h2]
      simp only [List.map_cons, List.sum_cons]
      omega

/-- Values of a tree within the limits fit into a leaf. -/
theorem Within.fits {cfg : Config} {t : PTree T V} (h : Within E cfg t) {k : T.Key} {v : V} (hm : some (k, v) ∈ t.content) :
    (E.encV v).length ≤ cfg.maxUncompressedLeafSize := by
  induction t using PTree.induct with
  | leaf i vs =>
    obtain ⟨_, h4⟩ := PTree.All.root h
    simp only [content, List.mem_map, Option.some.injEq] at hm
    obtain ⟨⟨k', v'⟩, hm, he⟩ := hm
    cases he
    have hv := (List.of_mem_zip hm).2
    have h5 := le_sum_of_mem (List.mem_map_of_mem (f := List.length) (List.mem_map_of_mem (f := E.encV) hv))
    rw [List.length_flatten] at h4
    omega
  | purgedLeaf i => simp [content] at hm
  | purgedBranch i => simp [content] at hm
  | branch i cs ih =>
    simp only [content] at hm
    have : ∃ c ∈ cs, some (k, v) ∈ c.content := by
      clear ih h
      induction cs with
      | nil => simp [contents] at hm
      | cons c cs ih2 =>
        simp only [contents, List.mem_append] at hm
        rcases hm with hm | hm
        · exact ⟨c, by simp, hm⟩
        · obtain ⟨c', h1, h2⟩ := ih2 hm
          exact ⟨c', by simp [h1], h2⟩
    obtain ⟨c, hc, hm⟩ := this
    exact ih c hc (PTree.All.child h hc) hm

theorem Reads.bindPost {sec : Secrets E} {m : M E α} {f : α → M E β} {s : St E} {a : α} {Q : β → St E → Prop} {R : Err → Prop}
    (hm : Reads sec m s a) (hf : ∀ c, Coherent E sec { s with cache := c } → Post (f a) { s with cache := c } Q R) :
    Post (m >>= f) s Q R := by
  obtain ⟨c, h1, h2⟩ := hm
  have := hf c h1
  unfold Post at this ⊢
  rw [bind_apply, h2]
  exact this

/-! ### pack -/

theorem Good.counts {σ : E.σ} {t : PTree T V} (h : Good I σ t) : Counts t := h.wf.counts

theorem Good.mem {σ : E.σ} {t n : PTree T V} (h : Good I σ t) (hn : n ∈ t.nodes) : Good I σ n := by
  intro m hm
  exact h m (nodes_trans hn hm)

/-- The roots of an optional tree. -/
def optRoots : Option (PTree T V) → List (PTree T V)
  | none => []
  | some t => (rootsOf t i32max).2

theorem roots_reads {s : St E} {t : Option (PTree T V)} (hh : HoldsI I s t) {fuel : Nat} (hf : rootLevel s.root < fuel) :
    Reads cx.sec (roots cx fuel) s ((optRoots t).map index) := by
  unfold roots
  have : (getIndex : M E (Option (Index T))) s = .ok s.root s := rfl
  refine Reads.bind (a := s.root) ⟨s.cache, hh.coherent, rfl⟩ fun c hc => ?_
  have hr := hh.root
  cases t with
  | none =>
    rw [hr]
    exact Reads.pure (a := []) (by rw [hr] at hc; exact hc)
  | some t =>
    rw [hh.level] at hf
    rw [hr]
    simp only [Option.map_some, rootsImpl]
    have hg := hh.good t rfl
    refine Reads.bind (roots0_reads fuel t i32max [] _ hg.stored.outlined hg.counts hc hf) fun c2 hc2 => ?_
    simpa [optRoots] using Reads.pure hc2 _

theorem closed_packed {t : PTree T V} (h : t.index.isSealed = true) : Packed t := by
  cases t with
  | leaf i vs => exact .leaf i vs
  | purgedLeaf i => exact .purgedLeaf i
  | purgedBranch i => exact .purgedBranch i
  | branch i cs => exact .closed i cs h

theorem WFAt.minRoot {t : PTree T V} (hw : WFAt E t) (h : t.index.isSealed = true) : MinRoot t := by
  cases t with
  | branch i cs => exact fun hl => (hw.2.2.2.2.2.2 h).2 hl
  | _ => trivial

theorem treeFromRoots_spec (h : E.Lawful) (ht : T.Lawful) (hv : cx.cfg.Valid) {vals : V → Prop} {R : Err → Prop}
    (hR : ∀ e, Allowed E cx.cfg vals e → R e) (rs : List (PTree T V)) (s : St E) (hco : Coherent E cx.sec s)
    (hgood : ∀ r ∈ rs, Good I s.store r) (hcl : ∀ r ∈ rs, r.index.isSealed = true)
    (hsort : rs.Pairwise (fun a b => a.index.level ≥ b.index.level)) :
    Post (treeFromRoots cx (rs.map index)) s (fun _ s' => ∃ t', HoldsI I s' t' ∧ optContent t' = contents rs ∧ OptPacked t' ∧
      (rs ≠ [] → rootLevel s'.root ≤ (contents rs).length) ∧ (∀ r, rs = [r] → t' = some r) ∧ (rs = [] → t' = none) ∧
      (∀ r ∈ rs, OptKeeps (some r) t') ∧ OptMinRoot t') R := by
  unfold treeFromRoots
  refine Post.assertBind (Or.inl ?_) fun _ => ?_
  · simpa using hcl
  refine Post.assertBind (Or.inl ?_) fun _ => ?_
  · rw [isSorted_reverse_iff, List.map_map, List.pairwise_map]
    exact hsort
  have hok : RootsOk I s.store rs :=
    ⟨hgood, fun r hr => closed_packed (hcl r hr), fun r hr => hcl r ((List.dropLast_sublist _).subset hr), hsort⟩
  have hmin : ∀ r ∈ rs, MinRoot r := fun r hr => WFAt.minRoot (PTree.All.root (hgood r hr).wf) (hcl r hr)
  by_cases hone : rs.length ≤ 1
  · have hloop : treeFromRootsLoop cx (2 * (rs.map index).length) (rs.map index) = pure (rs.map index) := by
      unfold treeFromRootsLoop
      rw [if_neg (by simpa using hone)]
    rw [hloop, pure_bind]
    show Small E _ → _
    intro _
    cases rs with
    | nil =>
      exact ⟨none, ⟨rfl, hco, by simp⟩, rfl, trivial, by simp, by simp, by simp, by simp, trivial⟩
    | cons r rs =>
      cases rs with
      | cons a b => simp at hone
      | nil =>
        have hg := hgood r (by simp)
        refine ⟨some r, ⟨rfl, hco, fun t' h' => by cases h'; exact hg⟩, by simp [optContent, contents],
          closed_packed (hcl r (by simp)), ?_, by simp, by simp, ?_, hmin r (by simp)⟩
        · intro _
          show r.index.level ≤ _
          have := WF.level_le_count hg.wf (hcl r (by simp))
          simp only [contents, List.append_nil]
          rw [content_length ht hg.counts]
          exact this
        · intro r' hr'
          simp only [List.mem_singleton] at hr'
          subst hr'
          exact OptKeeps.refl _
  · have hlen : ∀ r ∈ rs, max 1 r.index.level + rs.length ≤ (contents rs).length + 1 := by
      intro r hr
      rw [contents_length ht (fun c hc => (hgood c hc).counts)]
      obtain ⟨a, b, rfl⟩ := List.append_of_mem hr
      simp only [List.length_append, List.length_cons, List.map_append, List.map_cons, List.sum_append, List.sum_cons]
      have k0 := WF.level_le_count (hgood r hr).wf (hcl r hr)
      have k1 := WF.count_pos (hgood r hr).wf
      have k2 : a.length ≤ (a.map fun c => c.index.count).sum := by
        by_cases ha : a = []
        · simp [ha]
        · have := sum_pos_of_mem (l := a.map fun c => c.index.count) (by
            intro x hx
            obtain ⟨c, hc, rfl⟩ := List.mem_map.mp hx
            exact WF.count_pos (hgood c (by simp [hc])).wf) (by simpa using ha)
          simpa using this
      have k3 : b.length ≤ (b.map fun c => c.index.count).sum := by
        by_cases ha : b = []
        · simp [ha]
        · have := sum_pos_of_mem (l := b.map fun c => c.index.count) (by
            intro x hx
            obtain ⟨c, hc, rfl⟩ := List.mem_map.mp hx
            exact WF.count_pos (hgood c (by simp [hc])).wf) (by simpa using ha)
          simpa using this
      omega
    refine Post.bind0 (frame_treeFromRootsLoop h _ _).frame0 (fun _ => frame0_setIndex _)
      (treeFromRootsLoop_spec (I := I) (cx := cx) h hv hR _ rs s (by
        have := rootsMeasure_le rs
        simpa using this) hok _ hlen) ?_
    rintro r s' hext _ ⟨rs', rfl, k1, k2, k3, k4, k5, k6⟩
    show Small E _ → _
    intro _
    have hne : rs ≠ [] := by
      intro hh; subst hh; simp at hone
    obtain ⟨r0, rr, rfl⟩ := List.exists_cons_of_ne_nil hne
    obtain ⟨r', hr', _⟩ := k5 r0 r0 (by simp) (self_mem_nodes r0)
    have hrs' : rs' = [r'] := by
      cases rs' with
      | nil => simp at hr'
      | cons x y =>
        cases y with
        | nil => simp only [List.mem_singleton] at hr'; rw [hr']
        | cons _ _ => simp at k2
    subst hrs'
    refine ⟨some r', ⟨rfl, hext.coherent hco, fun t' h' => by cases h'; exact k1.good r' (by simp)⟩, ?_, k1.packed r' (by simp), ?_, ?_, by simp, ?_, k6 hmin r' (by simp)⟩
    · rw [← k3]; simp [optContent, contents]
    · intro _
      show r'.index.level ≤ _
      have := k4 r' (by simp)
      simp only [List.length_singleton] at this
      omega
    · intro r hr
      rw [hr] at hone; simp at hone
    · intro r hr n hn _
      obtain ⟨r2, hr2, hn2⟩ := k5 n r hr hn
      have : r2 = r' := by simpa using hr2
      subst this
      exact hn2

theorem sequenceOpt_map_some {α : Type} (l : List α) : sequenceOpt (l.map some) = some l := by
  induction l with
  | nil => rfl
  | cons a l ih => simp [sequenceOpt, ih]

theorem rootCount_eq (ht : T.Lawful) {s : St E} {t : Option (PTree T V)} (hh : HoldsI I s t) :
    rootCount s.root = (optContent t).length := by
  rw [hh.root]
  cases t with
  | none => rfl
  | some t => exact (content_length ht (hh.good t rfl).counts).symm

theorem optRoots_content {t : Option (PTree T V)} (hp : OptPurgeOk t) (hl : ∀ t', t = some t' → (t'.index.level : Int) ≤ i32max) :
    ∃ rest : List (T.Key × V), optContent t = contents (optRoots t) ++ rest.map some := by
  cases t with
  | none => exact ⟨[], rfl⟩
  | some t =>
    have hp' : t.PurgeOk i32max := purgeOk_of_le hp (Int.le_refl _) (hl t rfl)
    obtain ⟨rest, h1, _⟩ := rootsOf_content t i32max hp'
    exact ⟨rest, h1⟩

theorem optRoots_info (t : PTree T V) : RootsInfo i32max (rootsOf t i32max).1 (optRoots (some t)) (fun r => r ∈ t.nodes) :=
  rootsOf_info t i32max

theorem OptPacked.purgeOk {s : St E} {t : Option (PTree T V)} (hh : HoldsI I s t) (hp : OptPacked t) : OptPurgeOk t := by
  cases t with
  | none => trivial
  | some t => exact Packed.purgeOk hp (hh.good t rfl).wf.purgedSealed _ (Int.le_refl _)

theorem sequenceOpt_none {α : Type} {l : List (Option α)} (h : none ∈ l) : sequenceOpt l = none := by
  induction l with
  | nil => simp at h
  | cons a l ih =>
    cases a with
    | none => rfl
    | some a =>
      have : none ∈ l := by simpa using h
      simp [sequenceOpt, ih this]

theorem all_some_or_none {α : Type} (l : List (Option α)) : (∃ r : List α, l = r.map some) ∨ none ∈ l := by
  induction l with
  | nil => exact .inl ⟨[], rfl⟩
  | cons a l ih =>
    cases a with
    | none => exact .inr (by simp)
    | some a =>
      rcases ih with ⟨r, rfl⟩ | h
      · exact .inl ⟨a :: r, rfl⟩
      · exact .inr (by simp [h])

theorem optRoots_sublist (t : Option (PTree T V)) : (contents (optRoots t)).Sublist (optContent t) := by
  cases t with
  | none => simp [optRoots, optContent]
  | some t => exact rootsOf_sublist t i32max

/-- What `pack` does to trees that can have purged elements outside of the roots: the elements from the end of the roots on
are taken from the old tree, and none of them may be purged. -/
theorem pack_any_spec (h : E.Lawful) (ht : T.Lawful) (hv : cx.cfg.Valid) (fuel : Nat) (t : Option (PTree T V))
    (s : St E) (hh : HoldsI I s t) (hfuel : rootLevel s.root < fuel) (hcount : (optContent t).length + 1 < u32max) :
    Post (pack cx fuel) s (fun _ s' => ∃ t', HoldsI I s' t' ∧ OptPacked t' ∧
      optContent t' = contents (optRoots t) ++ (optContent t).drop (contents (optRoots t)).length ∧
      none ∉ (optContent t).drop (contents (optRoots t)).length)
      (fun e => Allowed E cx.cfg (fun v => ∃ k, some (k, v) ∈ optContent t) e ∨
        (e = .fail "found purged data" ∧ none ∈ (optContent t).drop (contents (optRoots t)).length)) := by
  have hpk : pack cx fuel s = (roots cx fuel >>= fun rs => treeFromRoots cx rs >>= fun _ => getIndex >>= fun root =>
    Tree.collectFrom fuel (snapshot cx s) (rootCount root) >>= fun items =>
      match sequenceOpt items with
      | none => throw (.fail "found purged data")
      | some remainder => extend cx (fuel + rootLevel root) remainder) s := rfl
  unfold Post
  rw [hpk]
  change Post _ s _ _
  refine Reads.bindPost (roots_reads hh hfuel) fun c hc => ?_
  have hinfo : (∀ r ∈ optRoots t, Good I s.store r) ∧ (∀ r ∈ optRoots t, r.index.isSealed = true) ∧
      (optRoots t).Pairwise (fun a b => a.index.level ≥ b.index.level) := by
    cases t with
    | none => simp [optRoots]
    | some t =>
      have := optRoots_info t
      exact ⟨fun r hr => (hh.good t rfl).mem (this.mem r hr), this.sealed, this.sorted⟩
  have hR' : ∀ e, Allowed E cx.cfg (fun v => ∃ k, some (k, v) ∈ optContent t) e →
      Allowed E cx.cfg (fun v => ∃ k, some (k, v) ∈ optContent t) e ∨
        (e = .fail "found purged data" ∧ none ∈ (optContent t).drop (contents (optRoots t)).length) := fun _ => .inl
  have hfr2 : ∀ (items : List (Option (T.Key × V))) (root : Option (Index T)), Frame0 cx (match sequenceOpt items with
      | none => throw (.fail "found purged data")
      | some remainder => extend cx (fuel + rootLevel root) remainder : M E Unit) := by
    intro items root
    cases sequenceOpt items with
    | none => exact (Frame.throw _).frame0
    | some r => exact frame0_extend h _ _
  refine Post.bind0 (frame0_treeFromRoots h _) (fun _ => Frame0.bind frame_getIndex.frame0 fun _ =>
    Frame0.bind (frame_treeCollectFrom h _ _ _).frame0 fun items => hfr2 _ _)
    (treeFromRoots_spec (I := I) h ht hv hR' (optRoots t) { s with cache := c } hc hinfo.1 hinfo.2.1 hinfo.2.2) ?_
  rintro _ s2 hx2 _ ⟨t1, hh1, hcont1, hpk1, hlev1, hone, hnil, hkeep, hmin1⟩
  refine Post.getIndexBind ?_
  have hcount1 := rootCount_eq ht hh1
  have hcol : Reads cx.sec (Tree.collectFrom fuel (snapshot cx s) (rootCount s2.root) : M E (List (Option (T.Key × V)))) s2
      ((optContent t).drop (contents (optRoots t)).length) := by
    rw [← hcont1, ← hcount1]
    unfold Tree.collectFrom snapshot
    rw [hh.root]
    cases t with
    | none => simpa [optContent] using Reads.pure hh1.coherent []
    | some t =>
      have hg := (hh.good t rfl).mono hx2.store
      have := collect0_reads h ht fuel t (rootCount s2.root) [] s2 hg.stored hg.counts hh1.coherent (by rw [hh.level] at hfuel; exact hfuel)
      simpa [optContent] using this
  refine Reads.bindPost hcol fun c3 hc3 => ?_
  rcases (all_some_or_none ((optContent t).drop (contents (optRoots t)).length)).symm with hnone | ⟨rest, hrest⟩
  · rw [sequenceOpt_none hnone]
    intro _
    exact .inr ⟨rfl, hnone⟩
  rw [hrest, sequenceOpt_map_some]
  have hh3 : HoldsI I { s2 with cache := c3 } t1 := ⟨hh1.root, hc3, hh1.good⟩
  have hlen : (optContent t).length = (contents (optRoots t)).length + rest.length := by
    have h1 := (optRoots_sublist t).length_le
    have h2 := congrArg List.length hrest
    rw [List.length_drop, List.length_map] at h2
    omega
  have hfit : ∀ kv ∈ rest, ∃ k, some (k, kv.2) ∈ optContent t := by
    rintro ⟨k, v⟩ hkv
    refine ⟨k, List.mem_of_mem_drop (i := (contents (optRoots t)).length) ?_⟩
    rw [hrest]
    exact List.mem_map_of_mem hkv
  have hlev : rootLevel s2.root ≤ (contents (optRoots t)).length := by
    by_cases hr : optRoots t = []
    · have := hnil hr
      subst this
      rw [hh1.root]
      exact Nat.zero_le _
    · exact hlev1 hr
  have hnn : none ∉ rest.map some := by simp
  by_cases hrn : rest = []
  · subst hrn
    have h6 : extend cx (fuel + rootLevel s2.root) ([] : List (T.Key × V)) = (pure () : M E Unit) := rfl
    simp only [h6]
    show Small E _ → _
    intro _
    exact ⟨t1, hh3, hpk1, by rw [hcont1]; simp, hnn⟩
  have := extend_spec (I := I) h ht hv hR' (fuel + rootLevel s2.root) rest t1 { s2 with cache := c3 } hh3 hfit
    (by show rootLevel s2.root < _; omega) (by show max 1 (rootLevel s2.root) + _ < _; omega) (Or.inl hpk1)
  refine Post.mono0 (frame0_extend h _ _) this ?_ (fun _ h => by rwa [hrest] at h)
  rintro _ s4 _ _ ⟨t4, k1, k2, k3, _, k5, _, k7⟩
  exact ⟨t4, k1, k3 hpk1, by rw [k2, hcont1], hnn⟩

/-- The specification of `pack`. -/
theorem pack_spec (h : E.Lawful) (ht : T.Lawful) (hv : cx.cfg.Valid) {R : Err → Prop}
    (fuel : Nat) (t : Option (PTree T V)) (hR : ∀ e, Allowed E cx.cfg (fun v => ∃ k, some (k, v) ∈ optContent t) e → R e)
    (s : St E) (hh : HoldsI I s t) (hp : OptPurgeOk t) (hfuel : rootLevel s.root < fuel)
    (hlevel : (rootLevel s.root : Int) ≤ i32max) (hcount : (optContent t).length + 1 < u32max) :
    Post (pack cx fuel) s (fun _ s' => ∃ t', HoldsI I s' t' ∧ optContent t' = optContent t ∧ OptPacked t' ∧
      rootLevel s'.root ≤ (optContent t).length + 1 ∧ (∀ r ∈ optRoots t, OptKeeps (some r) t') ∧
      (∀ t0, t = some t0 → t0.index.isSealed = true → t' = t) ∧ OptMinRoot t') R := by
  have hpk : pack cx fuel s = (roots cx fuel >>= fun rs => treeFromRoots cx rs >>= fun _ => getIndex >>= fun root =>
    Tree.collectFrom fuel (snapshot cx s) (rootCount root) >>= fun items =>
      match sequenceOpt items with
      | none => throw (.fail "found purged data")
      | some remainder => extend cx (fuel + rootLevel root) remainder) s := rfl
  unfold Post
  rw [hpk]
  change Post _ s _ R
  refine Reads.bindPost (roots_reads hh hfuel) fun c hc => ?_
  have hinfo : (∀ r ∈ optRoots t, Good I s.store r) ∧ (∀ r ∈ optRoots t, r.index.isSealed = true) ∧
      (optRoots t).Pairwise (fun a b => a.index.level ≥ b.index.level) := by
    cases t with
    | none => simp [optRoots]
    | some t =>
      have := optRoots_info t
      exact ⟨fun r hr => (hh.good t rfl).mem (this.mem r hr), this.sealed, this.sorted⟩
  have hlv : ∀ t', t = some t' → (t'.index.level : Int) ≤ i32max := by
    intro t' ht'
    subst ht'
    rw [hh.level] at hlevel
    exact hlevel
  obtain ⟨rest, hrest⟩ := optRoots_content hp hlv
  have hfr2 : ∀ (items : List (Option (T.Key × V))) (root : Option (Index T)), Frame0 cx (match sequenceOpt items with
      | none => throw (.fail "found purged data")
      | some remainder => extend cx (fuel + rootLevel root) remainder : M E Unit) := by
    intro items root
    cases sequenceOpt items with
    | none => exact (Frame.throw _).frame0
    | some r => exact frame0_extend h _ _
  refine Post.bind0 (frame0_treeFromRoots h _) (fun _ => Frame0.bind frame_getIndex.frame0 fun _ =>
    Frame0.bind (frame_treeCollectFrom h _ _ _).frame0 fun items => hfr2 _ _)
    (treeFromRoots_spec (I := I) h ht hv hR (optRoots t) { s with cache := c } hc hinfo.1 hinfo.2.1 hinfo.2.2) ?_
  rintro _ s2 hx2 _ ⟨t1, hh1, hcont1, hpk1, hlev1, hone, hnil, hkeep, hmin1⟩
  refine Post.getIndexBind ?_
  have hcount1 := rootCount_eq ht hh1
  have hcol : Reads cx.sec (Tree.collectFrom fuel (snapshot cx s) (rootCount s2.root) : M E (List (Option (T.Key × V)))) s2 (rest.map some) := by
    have hd : rest.map some = (optContent t).drop (rootCount s2.root) := by
      rw [hcount1, hcont1, hrest, List.drop_left]
    rw [hd]
    unfold Tree.collectFrom snapshot
    rw [hh.root]
    cases t with
    | none => simpa [optContent] using Reads.pure hh1.coherent []
    | some t =>
      have hg := (hh.good t rfl).mono hx2.store
      have := collect0_reads h ht fuel t (rootCount s2.root) [] s2 hg.stored hg.counts hh1.coherent (by rw [hh.level] at hfuel; exact hfuel)
      simpa [optContent] using this
  refine Reads.bindPost hcol fun c3 hc3 => ?_
  rw [sequenceOpt_map_some]
  have hh3 : HoldsI I { s2 with cache := c3 } t1 := ⟨hh1.root, hc3, hh1.good⟩
  have hlen : (optContent t).length = (contents (optRoots t)).length + rest.length := by
    rw [hrest, List.length_append, List.length_map]
  have hfit : ∀ kv ∈ rest, ∃ k, some (k, kv.2) ∈ optContent t := by
    rintro ⟨k, v⟩ hkv
    exact ⟨k, by rw [hrest]; exact List.mem_append_right _ (List.mem_map_of_mem hkv)⟩
  have hlev : rootLevel s2.root ≤ (contents (optRoots t)).length := by
    by_cases hr : optRoots t = []
    · have := hnil hr
      subst this
      rw [hh1.root]
      exact Nat.zero_le _
    · exact hlev1 hr
  have hlev3 : max 1 (rootLevel s2.root) + rest.length ≤ (optContent t).length + 1 := by omega
  have hsealed : ∀ t0, t = some t0 → t0.index.isSealed = true → rest = [] ∧ t1 = t := by
    intro t0 ht0 hs0
    subst ht0
    have hrs : optRoots (some t0) = [t0] := by
      show (rootsOf t0 i32max).2 = _
      rw [rootsOf_closed hs0 (hlv t0 rfl)]
    refine ⟨?_, hone t0 hrs⟩
    rw [hrs] at hrest
    have h5 : t0.content = t0.content ++ rest.map some := by simpa [optContent, contents] using hrest
    exact List.map_eq_nil_iff.mp (List.self_eq_append_right.mp h5)
  by_cases hrn : rest = []
  · subst hrn
    have h6 : extend cx (fuel + rootLevel s2.root) ([] : List (T.Key × V)) = (pure () : M E Unit) := rfl
    simp only [h6]
    show Small E _ → _
    intro _
    refine ⟨t1, hh3, by rw [hcont1, hrest]; simp, hpk1, ?_, hkeep, fun t0 h1 h2 => (hsealed t0 h1 h2).2, hmin1⟩
    show rootLevel s2.root ≤ _
    omega
  have := extend_spec (I := I) h ht hv hR (fuel + rootLevel s2.root) rest t1 { s2 with cache := c3 } hh3 hfit
    (by show rootLevel s2.root < _; omega) (by show max 1 (rootLevel s2.root) + _ < _; omega) (Or.inl hpk1)
  refine Post.mono0 (frame0_extend h _ _) this ?_ (fun _ h => h)
  rintro _ s4 _ _ ⟨t4, k1, k2, k3, _, k5, _, k7, k8⟩
  refine ⟨t4, k1, by rw [k2, hcont1, hrest], k3 hpk1, ?_, fun r hr => (hkeep r hr).trans k5, ?_, k8 hmin1⟩
  · have : rootLevel s4.root ≤ max 1 (rootLevel s2.root) + rest.length := k7
    omega
  · intro t0 ht0 hs0
    exact absurd (hsealed t0 ht0 hs0).1 hrn

end Banyan
