import Verif.Spec.Check
import Verif.Proofs.Read
/-
The messages of the invariant checker.
-/
set_option autoImplicit false
namespace Banyan

open PTree

variable {T : TreeTypes} {V : Type} {E : Env T V}

mutual
/-- The number of nodes on the longest path. -/
def PTree.height : PTree T V → Nat
  | .leaf _ _ => 1
  | .purgedLeaf _ => 1
  | .purgedBranch _ => 1
  | .branch _ cs => heightL cs + 1
def PTree.heightL : List (PTree T V) → Nat
  | [] => 0
  | c :: cs => max (height c) (heightL cs)
end

theorem PTree.height_le {cs : List (PTree T V)} {c : PTree T V} (h : c ∈ cs) : c.height ≤ heightL cs := by
  induction cs with
  | nil => cases h
  | cons d ds ih =>
    unfold heightL
    rcases List.mem_cons.mp h with rfl | h
    · omega
    · have := ih h; omega

/-- The messages for one node. -/
def found (cfg : Config) : PTree T V → List InvMsg
  | .leaf i vs => checkMsg (vs.length == T.keys.len i.keys) .valueCount []
  | .branch i cs =>
    checkMsg ((cs.map index).length == T.sums.len i.summaries) .branchCount [] ++ (checkLevels i (cs.map index) [] ++
      (checkSummaries ((cs.map index).zip (T.sums.toVec i.summaries)) [] ++
        checkMsg (i.isSealed == cfg.branchSealed (cs.map index) i.level) .sealedFlag []))
  | _ => []

theorem checkMsg_append (b : Bool) (m : InvMsg) (msgs : List InvMsg) : checkMsg b m msgs = msgs ++ checkMsg b m [] := by
  unfold checkMsg
  split <;> simp

theorem checkLevels_append (i : BranchIndex T) (cs : List (Index T)) (msgs : List InvMsg) :
    checkLevels i cs msgs = msgs ++ checkLevels i cs [] := by
  induction cs generalizing msgs with
  | nil => simp [checkLevels]
  | cons c cs ih =>
    unfold checkLevels
    split
    · rw [ih, ih (checkMsg _ _ []), checkMsg_append _ _ msgs, List.append_assoc]
    · rw [ih, ih (checkMsg _ _ []), checkMsg_append _ _ msgs, List.append_assoc]

theorem checkSummaries_append (l : List (Index T × T.Summary)) (msgs : List InvMsg) :
    checkSummaries l msgs = msgs ++ checkSummaries l [] := by
  induction l generalizing msgs with
  | nil => simp [checkSummaries]
  | cons c cs ih =>
    obtain ⟨c, y⟩ := c
    unfold checkSummaries
    rw [ih, ih (checkMsg _ _ []), checkMsg_append _ _ msgs, List.append_assoc]

theorem mem_checkMsg {b : Bool} {m x : InvMsg} : x ∈ checkMsg b m [] ↔ b = false ∧ x = m := by
  unfold checkMsg
  cases b <;> simp

theorem mem_checkLevels {i : BranchIndex T} {cs : List (Index T)} {x : InvMsg} :
    x ∈ checkLevels i cs [] ↔ (i.isSealed = true ∧ x = .childLevelSealed ∧ ∃ c ∈ cs, ¬ c.level = i.level - 1) ∨
      (i.isSealed = false ∧ x = .childLevel ∧ ∃ c ∈ cs, i.level ≤ c.level) := by
  induction cs with
  | nil => simp [checkLevels]
  | cons c cs ih =>
    unfold checkLevels
    rw [checkLevels_append, List.mem_append, ih]
    cases i.isSealed with
    | true =>
      simp only [if_true, mem_checkMsg, beq_eq_false_iff_ne, List.mem_cons, exists_eq_or_imp]
      grind
    | false =>
      simp only [Bool.false_eq_true, if_false, mem_checkMsg, decide_eq_false_iff_not, List.mem_cons, exists_eq_or_imp, Nat.not_lt]
      grind

theorem mem_checkSummaries {l : List (Index T × T.Summary)} {x : InvMsg} :
    x ∈ checkSummaries l [] ↔ x = .childSummary ∧ ∃ p ∈ l, p.1.summarize ≠ p.2 := by
  induction l with
  | nil => simp [checkSummaries]
  | cons p l ih =>
    obtain ⟨c, y⟩ := p
    unfold checkSummaries
    rw [checkSummaries_append, List.mem_append, ih, mem_checkMsg]
    simp only [beq_eq_false_iff_ne, List.mem_cons, exists_eq_or_imp]
    grind

/-- The messages for a node are about what is wrong with it. -/
theorem mem_found {cfg : Config} {n : PTree T V} (hl : ∀ i cs, n = .branch i cs → 0 < i.level) {m : InvMsg} : m ∈ found cfg n ↔ Violates cfg n m := by
  cases n with
  | leaf i vs =>
    unfold found
    rw [mem_checkMsg]
    cases m <;> simp [Violates]
  | purgedLeaf i => simp [found, Violates]
  | purgedBranch i => simp [found, Violates]
  | branch i cs =>
    have hpos := hl i cs rfl
    unfold found
    rw [List.mem_append, List.mem_append, List.mem_append, mem_checkMsg, mem_checkMsg, mem_checkLevels, mem_checkSummaries]
    have hlev : ∀ a, a = i.level - 1 ↔ a + 1 = i.level := fun a => by omega
    cases m with
    | valueCount => simp [Violates]
    | branchCount => simp [Violates]
    | childLevelSealed => simp only [Violates, hlev, List.mem_map]; grind
    | childLevel => simp only [Violates, List.mem_map]; grind
    | childSummary =>
      simp only [Violates, reduceCtorEq, and_false, false_and, or_false, false_or, true_and]
      constructor
      · rintro ⟨⟨c, y⟩, h1, h2⟩
        obtain ⟨j, hj⟩ := List.mem_iff_getElem?.mp h1
        rw [List.getElem?_zip_eq_some, List.getElem?_map] at hj
        obtain ⟨h3, h4⟩ := hj
        cases hc : cs[j]? with
        | none => rw [hc] at h3; cases h3
        | some d =>
          rw [hc] at h3
          cases h3
          exact ⟨j, d, y, hc, h4, h2⟩
      · rintro ⟨j, c, y, h1, h2, h3⟩
        refine ⟨(c.index, y), List.mem_iff_getElem?.mpr ⟨j, ?_⟩, h3⟩
        rw [List.getElem?_zip_eq_some, List.getElem?_map, h1]
        exact ⟨rfl, h2⟩
    | sealedFlag =>
      simp only [Violates, reduceCtorEq, and_false, false_and, or_false, false_or, and_true]
      rw [beq_eq_false_iff_ne, ne_eq, Bool.eq_iff_iff, branchSealed_iff, List.length_map]
      simp only [List.mem_map, forall_exists_index, and_imp, forall_apply_eq_imp_iff₂, hlev]
      rfl

theorem checkInvariantsLoop_found {P : St E → Prop} {s : St E} (hco : P s) {cfg : Config}
    {rec : Index T → Int → List InvMsg → M E (Int × List InvMsg)} (cs : List (PTree T V)) (level : Int) (msgs : List InvMsg)
    (hrec : ∀ c ∈ cs, ∀ level msgs s', s'.store = s.store → P s' →
      ∃ level', ReadsP P (rec c.index level msgs) s' (level', msgs ++ c.nodes.flatMap (found cfg))) :
    ∃ level', ReadsP P (checkInvariantsLoop rec (cs.map index) level msgs) s (level', msgs ++ (nodesL cs).flatMap (found cfg)) := by
  induction cs generalizing level s msgs with
  | nil => exact ⟨level, by simpa [nodesL, checkInvariantsLoop] using ReadsP.pure hco (level, msgs)⟩
  | cons c cs ih =>
    obtain ⟨l1, c1, hc1, hm1⟩ := hrec c (by simp) level msgs s rfl hco
    obtain ⟨l2, c2, hc2, hm2⟩ := ih hc1 l1 (msgs ++ c.nodes.flatMap (found cfg)) (fun c hc level msgs s' hs => hrec c (by simp [hc]) level msgs s' hs)
    refine ⟨l2, c2, hc2, ?_⟩
    simp only [List.map_cons, checkInvariantsLoop]
    rw [bind_apply, hm1]
    simp only
    rw [hm2]
    simp [nodesL, List.flatMap_append]

/-- The checker reports the messages of all nodes, in pre-order. -/
theorem checkInvariants0_found (h : E.Lawful) {sec : Secrets E} {P : St E → Prop} (hP : Serves sec P) {cfg : Config} (fuel : Nat) (t : PTree T V)
    (level : Int) (msgs : List InvMsg) (s : St E) (hs : Stored E sec s.store t) (hl : t.All fun n => ∀ i cs, n = .branch i cs → 0 < i.level) (hco : P s)
    (hf : t.height ≤ fuel) :
    ∃ level', ReadsP P (checkInvariants0 sec cfg fuel t.index level msgs) s (level', msgs ++ t.nodes.flatMap (found cfg)) := by
  induction fuel generalizing t level msgs s with
  | zero => cases t <;> simp [height] at hf
  | succ fuel ih =>
    unfold checkInvariants0
    generalize (if (!t.index.isSealed) = true then min level ((t.index.level : Int) - 1) else level) = level1
    cases t with
    | purgedLeaf i =>
      have : i.link = none := PTree.All.root hs
      simp only [PTree.index, this]
      exact ⟨level1, by simpa [nodes, found] using ReadsP.pure hco (level1, msgs)⟩
    | purgedBranch i =>
      have : i.link = none := PTree.All.root hs
      simp only [PTree.index, this]
      exact ⟨level1, by simpa [nodes, found] using ReadsP.pure hco (level1, msgs)⟩
    | leaf i vs =>
      obtain ⟨l, z, r, h1, h2, h3, h4⟩ := PTree.All.root hs
      simp only [PTree.index, h1]
      refine ⟨level1, ReadsP.bind (ReadsP.loadLeafM hco h2) fun c hc => ?_⟩
      refine ReadsP.bind (ReadsP.lift hc (ZSeq.count_of_decompress h h4)) fun c hc => ?_
      rw [checkMsg_append]
      simpa [nodes, found] using ReadsP.pure hc (level1, msgs ++ checkMsg (vs.length == T.keys.len i.keys) .valueCount [])
    | branch i cs =>
      obtain ⟨l, r, h1, h2⟩ := PTree.All.root hs
      simp only [PTree.index, h1]
      have hlev : i.level > 0 := PTree.All.root hl i cs rfl
      obtain ⟨c1, hc1, hm1⟩ := hP _ _ _ hco h2
      obtain ⟨l2, c2, hc2, hm2⟩ := checkInvariantsLoop_found (rec := checkInvariants0 sec cfg fuel) (cfg := cfg) hc1 cs level1
        (msgs ++ found cfg (.branch i cs)) (by
        intro c hc level msgs s' hst hco'
        refine ih c level msgs s' ?_ (PTree.All.children hl c hc) hco' ?_
        · rw [hst]; exact PTree.All.children hs c hc
        · have := height_le hc
          unfold height at hf; omega)
      refine ⟨l2, c2, hc2, ?_⟩
      rw [bind_apply, hm1]
      simp only
      rw [bind_apply]
      unfold M.assert
      simp only [hlev, decide_true, if_true]
      rw [checkMsg_append _ _ (checkSummaries _ _), checkSummaries_append, checkLevels_append, checkMsg_append _ _ msgs]
      simp only [found, List.append_assoc] at hm2 ⊢
      simp only [nodes, List.flatMap_cons, found, List.append_assoc]
      exact hm2

end Banyan
