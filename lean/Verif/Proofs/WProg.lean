import Verif.Model.WProg
import Verif.Proofs.Prog
import Verif.Proofs.Hoare
/-
The programs of Model/WProg.lean are the operations of Model/Write.lean and Model/Builder.lean.
-/
set_option autoImplicit false
namespace Banyan.WProg

variable {T : TreeTypes} {V : Type} {E : Env T V} {α β : Type} {sec : Secrets E} {cx : Ctx E}

theorem run_bind (p : WProg T α) (f : α → WProg T β) : (p >>= f).run sec = p.run sec >>= fun a => (f a).run sec := by
  show (p.bind f).run sec = _
  induction p with
  | ret a => rfl
  | stop e => rfl
  | branch l k ih => simp only [bind, run, bind_assoc]; congr 1; funext b; exact ih b
  | read l k ih => simp only [bind, run, bind_assoc]; congr 1; funext b; exact ih b
  | leaf l k ih => simp only [bind, run, bind_assoc]; congr 1; funext b; exact ih b
  | put l k ih => simp only [bind, run, bind_assoc]; congr 1; funext b; exact ih b
  | reserve l k ih => simp only [bind, run, bind_assoc]; congr 1; funext b; exact ih b
  | log l k ih => simp only [bind, run, bind_assoc]; congr 1; funext b; exact ih
  | getIndex k ih => simp only [bind, run, bind_assoc]; congr 1; funext b; exact ih b
  | setIndex l k ih => simp only [bind, run, bind_assoc]; congr 1; funext b; exact ih

theorem run_pure (a : α) : (pure a : WProg T α).run sec = pure a := rfl
theorem run_ret (a : α) : (.ret a : WProg T α).run sec = pure a := rfl
theorem run_stop (e : Err) : (.stop e : WProg T α).run sec = throw e := rfl

theorem run_ofProg (p : Prog T α) : (ofProg p).run sec = p.run sec := by
  induction p with
  | ret a => rfl
  | stop e => rfl
  | branch l k ih => simp only [ofProg, run, Prog.run]; congr 1; funext b; exact ih b
  | leaf l k ih => simp only [ofProg, run, Prog.run]; congr 1; funext b; exact ih b

theorem run_lift (x : Except Err α) : (lift x : WProg T α).run sec = M.lift x := by
  cases x <;> rfl

theorem run_assert (b : Bool) (m : String) : (assert b m : WProg T Unit).run sec = M.assert b m := by
  cases b <;> rfl

theorem run_ensure (b : Bool) (m : String) : (ensure b m : WProg T Unit).run sec = M.ensure b m := by
  cases b <;> rfl

theorem run_intoEncrypted (z : ZSeq) (key : E.CKey) : (intoEncrypted E z key).run sec = Banyan.intoEncrypted z key := rfl

theorem run_extendLeaf (c : Bytes) (keys : Option T.KeySeq) (xs : List (T.Key × V)) :
    (extendLeaf cx c keys xs).run cx.sec = Banyan.extendLeaf cx c keys xs := by
  unfold extendLeaf Banyan.extendLeaf
  rw [run_bind, run_assert]
  congr 1; funext _
  rw [run_bind, run_lift]
  congr 1; funext x
  simp only
  rw [run_bind, run_intoEncrypted]
  rfl

theorem run_leafFromIter (xs : List (T.Key × V)) : (leafFromIter cx xs).run cx.sec = Banyan.leafFromIter cx xs := by
  unfold leafFromIter Banyan.leafFromIter
  rw [run_bind, run_assert]
  congr 1; funext _
  exact run_extendLeaf _ _ _

theorem run_persistBranch (items : List (Index T)) : (persistBranch cx items).run cx.sec = Banyan.persistBranch cx items := by
  unfold persistBranch Banyan.persistBranch serializeCompressed
  simp only [run]
  congr 1; funext _
  rw [run_bind, run_lift, bind_assoc]
  congr 1; funext z
  rw [run_bind, run_intoEncrypted]
  rfl

theorem run_newBranch (cs : List (Index T)) (mode : CreateMode) : (newBranch cx cs mode).run cx.sec = Banyan.newBranch cx cs mode := by
  unfold newBranch Banyan.newBranch
  rw [run_bind, run_assert]
  congr 1; funext _
  rw [run_bind, run_assert]
  congr 1; funext _
  cases maxLevel cs with
  | none => rfl
  | some m =>
    simp only
    rw [run_bind, run_persistBranch]
    rfl

theorem run_extendBranchLoop {fc : List (T.Key × V) → WProg T (Index T × List (T.Key × V))}
    {fc' : List (T.Key × V) → M E (Index T × List (T.Key × V))} (h : ∀ xs, (fc xs).run sec = fc' xs) (n : Nat) (cs : List (Index T))
    (xs : List (T.Key × V)) : (extendBranchLoop fc n cs xs).run sec = Banyan.extendBranchLoop fc' n cs xs := by
  induction n generalizing cs xs with
  | zero => rfl
  | succ n ih =>
    unfold extendBranchLoop Banyan.extendBranchLoop
    split
    · rfl
    · rw [run_bind, h]
      congr 1; funext x
      exact ih _ _

theorem run_extendBranchWith {fc : List (T.Key × V) → WProg T (Index T × List (T.Key × V))}
    {fc' : List (T.Key × V) → M E (Index T × List (T.Key × V))} (h : ∀ xs, (fc xs).run cx.sec = fc' xs) (cs : List (Index T)) (level : Nat)
    (xs : List (T.Key × V)) (mode : CreateMode) :
    (extendBranchWith cx fc cs level xs mode).run cx.sec = Banyan.extendBranchWith cx fc' cs level xs mode := by
  unfold extendBranchWith Banyan.extendBranchWith
  rw [run_bind, run_assert]
  congr 1; funext _
  rw [run_bind, run_assert]
  congr 1; funext _
  simp only
  rw [run_bind, run_extendBranchLoop h]
  congr 1; funext x
  rw [run_bind, run_newBranch]
  congr 1; funext i
  rw [run_bind, run_assert]
  rfl

theorem run_fillNode (level : Nat) (xs : List (T.Key × V)) : (fillNode cx level xs).run cx.sec = Banyan.fillNode cx level xs := by
  induction level generalizing xs with
  | zero =>
    unfold fillNode Banyan.fillNode
    rw [run_bind, run_assert]
    congr 1; funext _
    rw [run_bind, run_leafFromIter]
    rfl
  | succ level ih =>
    unfold fillNode Banyan.fillNode
    rw [run_bind, run_assert]
    congr 1; funext _
    rw [run_bind, run_extendBranchWith ih]
    rfl

theorem run_extendBranch (cs : List (Index T)) (level : Nat) (xs : List (T.Key × V)) (mode : CreateMode) :
    (extendBranch cx cs level xs mode).run cx.sec = Banyan.extendBranch cx cs level xs mode := by
  cases level with
  | zero => rfl
  | succ l => exact run_extendBranchWith (run_fillNode l) _ _ _ _

theorem run_extendAboveLoop (level fuel : Nat) (node : Index T) (xs : List (T.Key × V)) :
    (extendAboveLoop cx level fuel node xs).run cx.sec = Banyan.extendAboveLoop cx level fuel node xs := by
  induction fuel generalizing node xs with
  | zero =>
    unfold extendAboveLoop Banyan.extendAboveLoop
    split <;> rfl
  | succ fuel ih =>
    unfold extendAboveLoop Banyan.extendAboveLoop
    split
    · rw [run_bind, run_extendBranch]
      congr 1; funext x
      exact ih _ _
    · rfl

section Above
variable {ext0 : Index T → List (T.Key × V) → WProg T (Index T × List (T.Key × V))}
  {ext0' : Index T → List (T.Key × V) → M E (Index T × List (T.Key × V))}

theorem run_extendStart (h : ∀ i xs, (ext0 i xs).run cx.sec = ext0' i xs) (node : Option (Index T)) (xs : List (T.Key × V)) :
    (extendStart cx ext0 node xs).run cx.sec = Banyan.extendStart cx ext0' node xs := by
  cases node with
  | none =>
    unfold extendStart Banyan.extendStart
    rw [run_bind, run_leafFromIter]
    rfl
  | some n => exact h _ _

theorem run_extendAboveWith (h : ∀ i xs, (ext0 i xs).run cx.sec = ext0' i xs) (node : Option (Index T)) (level : Nat)
    (xs : List (T.Key × V)) : (extendAboveWith cx ext0 node level xs).run cx.sec = Banyan.extendAboveWith cx ext0' node level xs := by
  unfold extendAboveWith Banyan.extendAboveWith
  rw [run_bind, run_ensure]
  congr 1; funext _
  rw [run_bind, run_assert]
  congr 1; funext _
  rw [run_bind, run_extendStart h]
  congr 1; funext x
  simp only
  rw [run_bind, run_extendAboveLoop]
  congr 1; funext x
  rw [run_bind, run_assert]
  rfl
end Above

theorem run_extendLast {above : Option (Index T) → List (T.Key × V) → WProg T (Index T × List (T.Key × V))}
    {above' : Option (Index T) → List (T.Key × V) → M E (Index T × List (T.Key × V))} (h : ∀ i xs, (above i xs).run sec = above' i xs)
    (cs : List (Index T)) (xs : List (T.Key × V)) : (extendLast above cs xs).run sec = Banyan.extendLast above' cs xs := by
  unfold extendLast Banyan.extendLast
  cases cs.getLast? with
  | none => rfl
  | some last =>
    simp only
    rw [run_bind, h]
    rfl

theorem run_extend0 (fuel : Nat) (index : Index T) (xs : List (T.Key × V)) :
    (extend0 cx fuel index xs).run cx.sec = Banyan.extend0 cx fuel index xs := by
  induction fuel generalizing index xs with
  | zero => rfl
  | succ fuel ih =>
    unfold extend0 Banyan.extend0
    split
    · rfl
    · cases index with
      | leaf l =>
        simp only
        cases l.link with
        | none => rfl
        | some link =>
          simp only [run]
          congr 1; funext leaf
          rw [run_bind, run_extendLeaf]
          rfl
      | branch b =>
        simp only
        cases b.link with
        | none => rfl
        | some link =>
          simp only [run]
          congr 1; funext branch
          rw [run_bind, run_extendLast (above' := fun node xs => Banyan.extendAboveWith cx (Banyan.extend0 cx fuel) node (b.level - 1) xs)
            (fun i xs => run_extendAboveWith ih _ _ _)]
          congr 1; funext x
          rw [run_bind, run_extendBranch]
          rfl

theorem run_extendAbove (fuel : Nat) (node : Option (Index T)) (level : Nat) (xs : List (T.Key × V)) :
    (extendAbove cx fuel node level xs).run cx.sec = Banyan.extendAbove cx fuel node level xs :=
  run_extendAboveWith (run_extend0 fuel) _ _ _

theorem run_extendUnpacked0 (fuel : Nat) (index : Option (Index T)) (xs : List (T.Key × V)) :
    (extendUnpacked0 cx fuel index xs).run cx.sec = Banyan.extendUnpacked0 cx fuel index xs := by
  unfold extendUnpacked0 Banyan.extendUnpacked0
  split
  · rfl
  · rw [run_bind, run_extendAbove]
    congr 1; funext x
    cases index with
    | none => rfl
    | some a =>
      simp only
      rw [run_bind, run_extendBranch]
      rfl

theorem run_simplifyRoots (fuel : Nat) (rs : List (Index T)) (n : Nat) :
    (simplifyRoots cx fuel rs n).run cx.sec = Banyan.simplifyRoots cx fuel rs n := by
  induction fuel generalizing rs n with
  | zero => rfl
  | succ fuel ih =>
    unfold simplifyRoots Banyan.simplifyRoots
    rw [run_bind, run_assert]
    congr 1; funext _
    rw [run_bind, run_assert]
    congr 1; funext _
    rw [run_bind, run_lift]
    congr 1; funext r
    cases r with
    | «sealed» c => simp only; rw [run_bind, run_newBranch]; rfl
    | unsealed c => simp only; rw [run_bind, run_newBranch]; rfl
    | skip c => exact ih _ _

theorem run_retainLoop {rec : Nat → Index T → Int → WProg T (Index T × Int)} {rec' : Nat → Index T → Int → M E (Index T × Int)}
    (h : ∀ o i l, (rec o i l).run sec = rec' o i l) (cs : List (Index T)) (o : Nat) (l : Int) :
    (retainLoop rec cs o l).run sec = Banyan.retainLoop rec' cs o l := by
  induction cs generalizing o l with
  | nil => rfl
  | cons c cs ih =>
    unfold retainLoop Banyan.retainLoop
    rw [run_bind, h]
    congr 1; funext x
    simp only
    rw [run_bind, ih]
    congr 1; funext y
    split <;> rfl

theorem run_loadBranchOpt (i : BranchIndex T) : (loadBranchOpt i).run sec = Banyan.loadBranchOpt sec i := by
  unfold loadBranchOpt
  funext s
  unfold Banyan.loadBranchOpt loadBranch
  cases i.link with
  | none => rfl
  | some l =>
    simp only [run]
    rw [bind_apply]
    unfold loadBranchM
    cases loadBranchFromLink E sec s.store l <;> rfl

theorem run_retain0 (q : Query T) (fuel o : Nat) (index : Index T) (l : Int) :
    (retain0 cx q fuel o index l).run cx.sec = Banyan.retain0 cx q fuel o index l := by
  induction fuel generalizing o index l with
  | zero => rfl
  | succ fuel ih =>
    unfold retain0 Banyan.retain0
    cases index with
    | branch b =>
      simp only
      rw [run_bind, run_loadBranchOpt]
      congr 1; funext node
      cases node with
      | none => rfl
      | some node =>
        simp only
        rw [run_bind, run_retainLoop ih]
        congr 1; funext x
        split
        · rw [run_bind, run_persistBranch]
          rfl
        · rfl
    | leaf i =>
      simp only
      split
      · split <;> rfl
      · rfl

theorem run_roots0Loop {rec : Index T → Int → List (Index T) → WProg T (Int × List (Index T))}
    {rec' : Index T → Int → List (Index T) → M E (Int × List (Index T))} (h : ∀ i l r, (rec i l r).run sec = rec' i l r)
    (cs : List (Index T)) (l : Int) (r : List (Index T)) : (roots0Loop rec cs l r).run sec = Banyan.roots0Loop rec' cs l r := by
  induction cs generalizing l r with
  | nil => rfl
  | cons c cs ih =>
    unfold roots0Loop Banyan.roots0Loop
    rw [run_bind, h]
    congr 1; funext x
    exact ih _ _

theorem run_roots0 (fuel : Nat) (index : Index T) (l : Int) (r : List (Index T)) :
    (roots0 fuel index l r).run sec = Banyan.roots0 sec fuel index l r := by
  induction fuel generalizing index l r with
  | zero => rfl
  | succ fuel ih =>
    unfold roots0 Banyan.roots0
    split
    · rfl
    · cases index with
      | leaf i => rfl
      | branch b =>
        simp only
        cases b.link with
        | none => rfl
        | some link =>
          simp only [run]
          congr 1; funext branch
          exact run_roots0Loop ih _ _ _

theorem run_roots (fuel : Nat) : (roots fuel).run cx.sec = Banyan.roots cx fuel := by
  unfold roots Banyan.roots
  simp only [run]
  congr 1; funext index
  cases index with
  | none => rfl
  | some i =>
    simp only
    rw [run_bind, run_roots0]
    rfl

theorem run_treeFromRootsLoop (fuel : Nat) (rs : List (Index T)) :
    (treeFromRootsLoop cx fuel rs).run cx.sec = Banyan.treeFromRootsLoop cx fuel rs := by
  induction fuel generalizing rs with
  | zero =>
    unfold treeFromRootsLoop Banyan.treeFromRootsLoop
    split <;> rfl
  | succ fuel ih =>
    unfold treeFromRootsLoop Banyan.treeFromRootsLoop
    split
    · rw [run_bind, run_simplifyRoots]
      congr 1; funext x
      exact ih _
    · rfl

theorem run_treeFromRoots (rs : List (Index T)) : (treeFromRoots cx rs).run cx.sec = Banyan.treeFromRoots cx rs := by
  unfold treeFromRoots Banyan.treeFromRoots
  rw [run_bind, run_assert]
  congr 1; funext _
  rw [run_bind, run_assert]
  congr 1; funext _
  rw [run_bind, run_treeFromRootsLoop]
  rfl

theorem run_extend (fuel : Nat) (xs : List (T.Key × V)) : (extend cx fuel xs).run cx.sec = Banyan.extend cx fuel xs := by
  unfold extend Banyan.extend
  split
  · rfl
  · simp only [run]
    congr 1; funext index
    rw [run_bind, run_extendAbove]
    rfl

theorem run_extendUnpacked (fuel : Nat) (xs : List (T.Key × V)) :
    (extendUnpacked cx fuel xs).run cx.sec = Banyan.extendUnpacked cx fuel xs := by
  unfold extendUnpacked Banyan.extendUnpacked
  simp only [run]
  congr 1; funext index
  rw [run_bind, run_extendUnpacked0]
  rfl

theorem run_retain (fuel : Nat) (q : Query T) : (retain cx fuel q).run cx.sec = Banyan.retain cx fuel q := by
  unfold retain Banyan.retain
  simp only [run]
  congr 1; funext index
  cases index with
  | none => rfl
  | some i =>
    simp only
    rw [run_bind, run_retain0]
    rfl

theorem run_pack (fuel : Nat) : (pack cx fuel).run cx.sec = Banyan.pack cx fuel := by
  funext s
  have hp : Banyan.pack cx fuel s = (Banyan.roots cx fuel >>= fun rs => Banyan.treeFromRoots cx rs >>= fun _ => Banyan.getIndex >>= fun root =>
    Tree.collectFrom fuel (snapshot cx s) (rootCount root) >>= fun items =>
      match sequenceOpt items with
      | none => throw (.fail "found purged data")
      | some remainder => Banyan.extend cx (fuel + rootLevel root) remainder : M E Unit) s := rfl
  have hq : (pack cx fuel).run cx.sec s = (roots fuel >>= fun rs => treeFromRoots cx rs >>= fun _ => .getIndex fun root =>
    collectFrom E fuel s.root (rootCount root) >>= fun items =>
      match sequenceOpt items with
      | none => .stop (.fail "found purged data")
      | some remainder => extend cx (fuel + rootLevel root) remainder : WProg T Unit).run cx.sec s := rfl
  rw [hp, hq]
  refine congrArg (fun m : M E Unit => m s) ?_
  rw [run_bind, run_roots]
  congr 1; funext rs
  rw [run_bind, run_treeFromRoots]
  congr 1; funext _
  simp only [run]
  congr 1; funext root
  rw [run_bind]
  have hc : (collectFrom E fuel s.root (rootCount root)).run cx.sec = Tree.collectFrom fuel (snapshot cx s) (rootCount root) := by
    unfold collectFrom snapshot
    cases s.root with
    | none => rfl
    | some i =>
      simp only
      rw [run_ofProg, Prog.run_collect0]
      rfl
  rw [hc]
  congr 1; funext items
  cases sequenceOpt items with
  | none => rfl
  | some r => exact run_extend _ _

end Banyan.WProg
