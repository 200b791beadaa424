import Verif.Model.Prog
import Verif.Proofs.Basic
/-
The programs of Model/Prog.lean are the operations of Model/Read.lean, Model/Iter.lean and Model/Builder.lean.
-/
set_option autoImplicit false
namespace Banyan.Prog

variable {T : TreeTypes} {V : Type} {E : Env T V} {X : Type} {α β : Type} {sec : Secrets E}

theorem run_bind (p : Prog T α) (f : α → Prog T β) : (p >>= f).run sec = p.run sec >>= fun a => (f a).run sec := by
  induction p with
  | ret a => rfl
  | stop e => rfl
  | branch l k ih =>
    show Banyan.loadBranchCached sec l >>= (fun b => ((k b).bind f).run sec) = (Banyan.loadBranchCached sec l >>= fun b => (k b).run sec) >>= _
    rw [bind_assoc]
    congr 1
    funext b
    exact ih b
  | leaf l k ih =>
    show Banyan.loadLeafM sec l >>= (fun b => ((k b).bind f).run sec) = (Banyan.loadLeafM sec l >>= fun b => (k b).run sec) >>= _
    rw [bind_assoc]
    congr 1
    funext b
    exact ih b

theorem run_pure (a : α) : (pure a : Prog T α).run sec = pure a := rfl
theorem run_stop (e : Err) : (.stop e : Prog T α).run sec = throw e := rfl

theorem run_lift (x : Except Err α) : (lift x : Prog T α).run sec = M.lift x := by
  cases x <;> rfl

theorem run_loadBranchCached (l : T.Link) : (loadBranchCached l).run sec = Banyan.loadBranchCached sec l := by
  show Banyan.loadBranchCached sec l >>= pure = _
  exact bind_pure _

theorem run_loadLeafM (l : T.Link) : (loadLeafM l).run sec = Banyan.loadLeafM sec l := by
  show Banyan.loadLeafM sec l >>= pure = _
  exact bind_pure _

theorem run_get0Loop {rec : Index T → Nat → Prog T (Option (T.Key × V))} {rec' : Index T → Nat → M E (Option (T.Key × V))}
    (h : ∀ i o, (rec i o).run sec = rec' i o) (cs : List (Index T)) (o : Nat) :
    (get0Loop rec cs o).run sec = Banyan.get0Loop rec' cs o := by
  induction cs generalizing o with
  | nil => rfl
  | cons c cs ih =>
    unfold get0Loop Banyan.get0Loop
    split
    · exact h c o
    · exact ih _

theorem run_get0 (fuel : Nat) (index : Index T) (o : Nat) : (get0 E fuel index o).run sec = Banyan.get0 sec fuel index o := by
  induction fuel generalizing index o with
  | zero => rfl
  | succ fuel ih =>
    unfold get0 Banyan.get0
    split
    · rfl
    · cases index with
      | branch b =>
        rcases hl : b.link with _ | link <;> simp only [hl]
        · rfl
        · rw [run_bind, run_loadBranchCached]
          congr 1
          funext node
          exact run_get0Loop ih _ _
      | leaf l =>
        rcases hl : l.link with _ | link <;> simp only [hl]
        · rfl
        · rcases hk : T.keys.get l.keys o with _ | k <;> simp only
          · rfl
          · rw [run_bind, run_loadLeafM]
            congr 1
            funext leaf
            rw [run_bind, run_lift]
            rfl

theorem run_collect0Loop {rec : Index T → Nat → List (Option (T.Key × V)) → Prog T (List (Option (T.Key × V)))}
    {rec' : Index T → Nat → List (Option (T.Key × V)) → M E (List (Option (T.Key × V)))}
    (h : ∀ i o into, (rec i o into).run sec = rec' i o into) (cs : List (Index T)) (o : Nat) (into : List (Option (T.Key × V))) :
    (collect0Loop rec cs o into).run sec = Banyan.collect0Loop rec' cs o into := by
  induction cs generalizing o into with
  | nil => rfl
  | cons c cs ih =>
    unfold collect0Loop Banyan.collect0Loop
    split
    · rw [run_bind, h]
      congr 1
      funext into
      exact ih _ _
    · exact ih _ _

theorem run_collect0 (fuel : Nat) (index : Index T) (o : Nat) (into : List (Option (T.Key × V))) :
    (collect0 E fuel index o into).run sec = Banyan.collect0 sec fuel index o into := by
  induction fuel generalizing index o into with
  | zero => rfl
  | succ fuel ih =>
    unfold collect0 Banyan.collect0
    split
    · rfl
    · cases index with
      | branch b =>
        rcases hl : b.link with _ | link <;> simp only [hl]
        · rfl
        · rw [run_bind, run_loadBranchCached]
          congr 1
          funext node
          exact run_collect0Loop ih _ _ _
      | leaf l =>
        rcases hl : l.link with _ | link <;> simp only [hl]
        · rfl
        · rw [run_bind, run_loadLeafM]
          congr 1
          funext leaf
          rw [run_bind, run_lift]
          rfl

theorem run_isPacked0 (fuel : Nat) (index : Index T) : (isPacked0 fuel index).run sec = Banyan.isPacked0 sec fuel index := by
  induction fuel generalizing index with
  | zero => rfl
  | succ fuel ih =>
    unfold isPacked0 Banyan.isPacked0
    cases index with
    | leaf l => rfl
    | branch b =>
      rcases hl : b.link with _ | link <;> simp only [hl]
      · rfl
      · split
        · rfl
        · rw [run_bind, run_loadBranchCached]
          congr 1
          funext node
          cases node.children.getLast? with
          | none => rfl
          | some last =>
            simp only
            rw [run_bind, ih]
            rfl

theorem run_moveOffset (mode : Mode) (o n : Nat) : (moveOffset mode o n : Prog T Nat).run sec = Banyan.moveOffset mode o n := by
  cases mode with
  | forward => rfl
  | backward =>
    unfold moveOffset Banyan.moveOffset
    simp only
    split <;> rfl

theorem run_visitLeaf (mkExtra : Index T → X) (range : Nat × Nat) (index : LeafIndex T) (link : T.Link) (ms : List Bool) :
    (visitLeaf E mkExtra range index link ms).run sec = Banyan.visitLeaf sec mkExtra range index link ms := by
  unfold visitLeaf Banyan.visitLeaf
  rw [run_bind]
  have h : (visitLeafData E range.1 index link ms).run sec = Banyan.visitLeafData sec range.1 index link ms := by
    unfold visitLeafData Banyan.visitLeafData
    split
    · rw [run_bind, run_loadLeafM]
      congr 1
      funext leaf
      simp only
      rw [run_bind, run_lift]
      rfl
    · rfl
  rw [h]
  rfl

theorem run_skipTop (mode : Mode) (mkExtra : Index T → X) (offset : Nat) (top : TraverseState T) (rest : List (TraverseState T))
    (range : Nat × Nat) : (skipTop mode mkExtra offset top rest range : Prog T (StepRes T (Chunk T V X))).run sec =
      Banyan.skipTop mode mkExtra offset top rest range := by
  unfold skipTop Banyan.skipTop
  rw [run_bind, run_moveOffset]
  rfl

theorem run_branchStep (mode : Mode) (mkExtra : Index T → X) (offset : Nat) (head : TraverseState T) (rest : List (TraverseState T))
    (link : T.Link) : (branchStep mode mkExtra offset head rest link : Prog T (StepRes T (Chunk T V X))).run sec =
      Banyan.branchStep sec mode mkExtra offset head rest link := by
  unfold branchStep Banyan.branchStep
  rw [run_bind, run_loadBranchCached]
  congr 1
  funext branch
  simp only
  split
  · rename_i h1 h2
    rw [h1, h2]
    rfl
  · rename_i h1 h2
    rw [h1, h2]
    simp only
    rw [run_bind, run_moveOffset]
    rfl
  · rename_i h1 h2
    split
    · rename_i h3 h4; exact absurd h4 (h1 _ h3)
    · rename_i h3 h4; exact absurd h4 (h2 _ h3)
    · rfl

theorem run_iterStep (query : Query T) (mode : Mode) (mkExtra : Index T → X) (s : IterState T) :
    (iterStep E query mode mkExtra s).run sec = Banyan.iterStep sec query mode mkExtra s := by
  unfold iterStep Banyan.iterStep
  rcases hs : s.stack with _ | ⟨head, rest⟩ <;> simp only
  · rfl
  · split
    · rfl
    · rcases hi : head.index with l | b <;> simp only
      rotate_left
      · rcases hl : b.link with _ | link <;> simp only
        · exact run_skipTop ..
        · split
          · split
            · exact run_skipTop ..
            · exact run_branchStep ..
          · exact run_branchStep ..
      · rcases hl : l.link with _ | link <;> simp only
        · exact run_skipTop ..
        · rw [run_bind, run_visitLeaf]
          congr 1
          funext r
          rw [run_bind, run_moveOffset]
          rfl

theorem run_nextFallible (query : Query T) (mode : Mode) (mkExtra : Index T → X) (fuel : Nat) (s : IterState T) :
    (nextFallible E query mode mkExtra fuel s).run sec = Banyan.nextFallible sec query mode mkExtra fuel s := by
  induction fuel generalizing s with
  | zero => rfl
  | succ fuel ih =>
    unfold nextFallible Banyan.nextFallible
    rw [run_bind, run_iterStep]
    congr 1
    funext r
    cases r with
    | done => rfl
    | cont s => exact ih s
    | item a s => rfl

/-- The operations on trees, which use the secrets of the tree. -/
theorem run_get (fuel : Nat) (index : Index T) (offset o : Nat) :
    (get fuel (some (index, sec, offset)) o).run sec = Tree.get fuel (some (index, sec, offset)) o := run_get0 fuel index o

theorem run_collectFrom (fuel : Nat) (index : Index T) (offset o : Nat) :
    (collectFrom fuel (some (index, sec, offset)) o).run sec = Tree.collectFrom fuel (some (index, sec, offset)) o :=
  run_collect0 fuel index o []

theorem run_isPacked (fuel : Nat) (index : Index T) (offset : Nat) :
    (isPacked fuel (some (index, sec, offset))).run sec = Tree.isPacked fuel (some (index, sec, offset)) := run_isPacked0 fuel index

end Banyan.Prog
