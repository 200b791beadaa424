import Verif.Spec.Cache
import Verif.Proofs.FrameOps
import Verif.Model.IndexIter
import Verif.Model.Stream
/-
No operation depends on the branch cache.
-/
set_option autoImplicit false
namespace Banyan

variable {T : TreeTypes} {V : Type} {E : Env T V} {cx : Ctx E} {sec : Secrets E} {α β X : Type}

namespace CacheIndependent

theorem pure (a : α) : CacheIndependent sec (Pure.pure a : M E α) := fun _ _ h => ⟨⟨rfl, h⟩, StoreLe.refl _⟩
theorem throw (e : Err) : CacheIndependent sec (MonadExcept.throw e : M E α) := fun _ _ h => ⟨⟨rfl, h⟩, StoreLe.refl _⟩

theorem bind {m : M E α} {f : α → M E β} (hm : CacheIndependent sec m) (hf : ∀ a, CacheIndependent sec (f a)) :
    CacheIndependent sec (m >>= f) := by
  intro s s' h
  obtain ⟨h1, hg⟩ := hm s s' h
  unfold endState at hg ⊢
  rw [bind_apply, bind_apply]
  cases h2 : m s with
  | ok a s1 =>
    rw [h2] at hg
    cases h3 : m s' with
    | ok a' s1' =>
      rw [h2, h3] at h1
      obtain ⟨rfl, h1⟩ := h1
      obtain ⟨k1, k2⟩ := hf _ s1 s1' h1
      exact ⟨k1, fun l b hb => k2 l b (hg l b hb)⟩
    | error e s1' => rw [h2, h3] at h1; exact h1.elim
  | error e s1 =>
    rw [h2] at hg
    cases h3 : m s' with
    | ok a' s1' => rw [h2, h3] at h1; exact h1.elim
    | error e s1' => rw [h2, h3] at h1; exact ⟨h1, hg⟩

theorem lift (x : Except Err α) : CacheIndependent sec (M.lift x : M E α) := by
  intro s s' h
  unfold M.lift
  cases x <;> exact ⟨⟨rfl, h⟩, StoreLe.refl _⟩

theorem assert (b : Bool) (msg : String) : CacheIndependent sec (M.assert b msg : M E Unit) := by
  intro s s' h
  unfold M.assert
  cases b <;> exact ⟨⟨rfl, h⟩, StoreLe.refl _⟩

theorem ensure (b : Bool) (msg : String) : CacheIndependent sec (M.ensure b msg : M E Unit) := by
  intro s s' h
  unfold M.ensure
  cases b <;> exact ⟨⟨rfl, h⟩, StoreLe.refl _⟩

theorem tryFail {m : M E α} (hm : CacheIndependent sec m) : CacheIndependent sec (M.tryFail m) := by
  intro s s' h
  obtain ⟨h1, hg⟩ := hm s s' h
  unfold endState at hg ⊢
  unfold M.tryFail
  cases h2 : m s with
  | ok a s1 =>
    rw [h2] at hg
    cases h3 : m s' with
    | ok a' s1' => rw [h2, h3] at h1; exact ⟨⟨by rw [h1.1], h1.2⟩, hg⟩
    | error e s1' => rw [h2, h3] at h1; exact h1.elim
  | error e s1 =>
    rw [h2] at hg
    cases h3 : m s' with
    | ok a' s1' => rw [h2, h3] at h1; exact h1.elim
    | error e' s1' =>
      rw [h2, h3] at h1
      obtain ⟨rfl, h1⟩ := h1
      cases e' <;> exact ⟨⟨rfl, h1⟩, hg⟩

/-- a computation that reads only the store -/
theorem reader {m : M E α} (f : E.σ → Except Err α) (hm : ∀ s, m s = match f s.store with | .error e => .error e s | .ok a => .ok a s) :
    CacheIndependent sec m := by
  intro s s' h
  unfold endState
  rw [hm, hm, h.store]
  cases f s.store <;> exact ⟨⟨rfl, h⟩, StoreLe.refl _⟩

theorem loadLeafM (sec' : Secrets E) (l : T.Link) : CacheIndependent sec (Banyan.loadLeafM sec' l) := by
  refine reader (fun σ => loadLeafFromLink E sec' σ l) fun s => ?_
  unfold Banyan.loadLeafM
  cases loadLeafFromLink E sec' s.store l <;> rfl

theorem loadBranchM (sec' : Secrets E) (l : T.Link) : CacheIndependent sec (Banyan.loadBranchM sec' l) := by
  refine reader (fun σ => loadBranchFromLink E sec' σ l) fun s => ?_
  unfold Banyan.loadBranchM
  cases loadBranchFromLink E sec' s.store l <;> rfl

theorem loadBranchOpt (sec' : Secrets E) (i : BranchIndex T) : CacheIndependent sec (Banyan.loadBranchOpt sec' i) := by
  refine reader (fun σ => loadBranch E sec' σ i) fun s => ?_
  unfold Banyan.loadBranchOpt
  cases loadBranch E sec' s.store i <;> rfl

theorem sbc {s s' : St E} (hs : SameButCache sec s s') : s' = { s with cache := s'.cache } := by
  obtain ⟨_, _, h1, h2, h3, h4, h5⟩ := hs
  obtain ⟨_, _, _, _, _, _⟩ := s'
  simp only at h1 h2 h3 h4 h5
  subst h1 h2 h3 h4 h5
  rfl

theorem loadBranchCached (h : E.Lawful) (l : T.Link) : CacheIndependent sec (Banyan.loadBranchCached sec l) := by
  intro s s' hs
  obtain ⟨c, h1, h2⟩ := loadBranchCached_exact h hs.left l
  obtain ⟨c', h1', h2'⟩ := loadBranchCached_exact h hs.right l
  unfold endState
  rw [h2, h2']
  obtain ⟨_, _, h3, h4, h5, h6, h7⟩ := hs
  rw [h3]
  cases loadBranchFromLink E sec s.store l with
  | ok b => exact ⟨⟨rfl, h1, by rw [h3] at h1'; exact h1', rfl, h4, h5, h6, h7⟩, StoreLe.refl _⟩
  | error e => exact ⟨⟨rfl, h1, by rw [h3] at h1'; exact h1', rfl, h4, h5, h6, h7⟩, StoreLe.refl _⟩

theorem putBlock (h : E.Lawful) (d : Bytes) : CacheIndependent sec (Banyan.putBlock d : M E T.Link) := by
  intro s s' hs
  unfold endState Banyan.putBlock
  rw [hs.store]
  have hmono : StoreLe E s.store (E.put s.store d).2 := fun l b hg => h.put_mono _ _ _ _ hg
  cases hp : E.put s.store d with
  | mk r st =>
    rw [hp] at hmono
    have h1 : Exact E sec { s with store := st, puts := s.puts ++ [d] } := Exact.mono (s := s) hmono rfl hs.left
    have h2 : Exact E sec { s' with store := st, puts := s'.puts ++ [d] } :=
      Exact.mono (s := s') (by rw [hs.store]; exact hmono) rfl hs.right
    have hpp : s'.puts ++ [d] = s.puts ++ [d] := by rw [hs.puts]
    cases r with
    | ok l => exact ⟨⟨rfl, h1, h2, rfl, hs.offset, hs.root, hpp, hs.written⟩, hmono⟩
    | error m => exact ⟨⟨rfl, h1, h2, rfl, hs.offset, hs.root, hpp, hs.written⟩, hmono⟩

theorem reserve (n : Nat) : CacheIndependent sec (Banyan.reserve n : M E Nat) := by
  intro s s' hs
  unfold endState Banyan.reserve
  rw [hs.offset]
  split
  · exact ⟨⟨rfl, hs.left, hs.right, hs.store, rfl, hs.root, hs.puts, hs.written⟩, StoreLe.refl _⟩
  · exact ⟨⟨rfl, hs⟩, StoreLe.refl _⟩

theorem logBranch (items : List (Index T)) : CacheIndependent sec (Banyan.logBranch items : M E Unit) := by
  intro s s' hs
  exact ⟨⟨rfl, hs.left, hs.right, hs.store, hs.offset, hs.root, hs.puts, by simp [hs.written]⟩, StoreLe.refl _⟩

theorem setIndex (i : Option (Index T)) : CacheIndependent sec (Banyan.setIndex i : M E Unit) := by
  intro s s' hs
  exact ⟨⟨rfl, hs.left, hs.right, hs.store, hs.offset, rfl, hs.puts, hs.written⟩, StoreLe.refl _⟩

theorem getIndex : CacheIndependent sec (Banyan.getIndex : M E (Option (Index T))) := by
  intro s s' hs
  exact ⟨⟨hs.root, hs⟩, StoreLe.refl _⟩

theorem intoEncrypted (z : ZSeq) (key : E.CKey) : CacheIndependent sec (Banyan.intoEncrypted z key : M E Bytes) :=
  (reserve _).bind fun _ => pure _

/-! ### writing -/

theorem extendLeaf (h : E.Lawful) (compressed : Bytes) (keys : Option T.KeySeq) (from_ : List (T.Key × V)) :
    CacheIndependent sec (Banyan.extendLeaf cx compressed keys from_) :=
  (assert _ _).bind fun _ => (lift _).bind fun _ => (intoEncrypted _ _).bind fun _ => (putBlock h _).bind fun _ => pure _

theorem leafFromIter (h : E.Lawful) (from_ : List (T.Key × V)) : CacheIndependent sec (Banyan.leafFromIter cx from_) :=
  (assert _ _).bind fun _ => extendLeaf h _ _ _

theorem persistBranch (h : E.Lawful) (items : List (Index T)) : CacheIndependent sec (Banyan.persistBranch cx items) :=
  (logBranch _).bind fun _ => ((lift _).bind fun _ => intoEncrypted _ _).bind fun _ => (putBlock h _).bind fun _ => pure _

theorem newBranch (h : E.Lawful) (children : List (Index T)) (mode : CreateMode) :
    CacheIndependent sec (Banyan.newBranch cx children mode) := by
  refine (assert _ _).bind fun _ => (assert _ _).bind fun _ => ?_
  cases maxLevel children with
  | none => exact throw _
  | some m => exact (persistBranch h _).bind fun _ => pure _

theorem extendBranchLoop {fillChild : List (T.Key × V) → M E (Index T × List (T.Key × V))}
    (hf : ∀ x, CacheIndependent sec (fillChild x)) (n : Nat) (children : List (Index T)) (from_ : List (T.Key × V)) :
    CacheIndependent sec (Banyan.extendBranchLoop fillChild n children from_) := by
  induction n generalizing children from_ with
  | zero => exact pure _
  | succ n ih =>
    unfold Banyan.extendBranchLoop
    split
    · exact pure _
    · exact (hf _).bind fun _ => ih _ _

theorem extendBranchWith (h : E.Lawful) {fillChild : List (T.Key × V) → M E (Index T × List (T.Key × V))}
    (hf : ∀ x, CacheIndependent sec (fillChild x)) (children : List (Index T)) (level : Nat) (from_ : List (T.Key × V))
    (mode : CreateMode) : CacheIndependent sec (Banyan.extendBranchWith cx fillChild children level from_ mode) :=
  (assert _ _).bind fun _ => (assert _ _).bind fun _ => (extendBranchLoop hf _ _ _).bind fun _ =>
    (newBranch h _ _).bind fun _ => (assert _ _).bind fun _ => pure _

theorem fillNode (h : E.Lawful) (level : Nat) (from_ : List (T.Key × V)) : CacheIndependent sec (Banyan.fillNode cx level from_) := by
  induction level generalizing from_ with
  | zero => exact (assert _ _).bind fun _ => (leafFromIter h _).bind fun _ => pure _
  | succ level ih => exact (assert _ _).bind fun _ => (extendBranchWith h (fun x => ih x) _ _ _ _).bind fun _ => pure _

theorem extendBranch (h : E.Lawful) (children : List (Index T)) (level : Nat) (from_ : List (T.Key × V))
    (mode : CreateMode) : CacheIndependent sec (Banyan.extendBranch cx children level from_ mode) := by
  unfold Banyan.extendBranch
  cases level with
  | zero => exact throw _
  | succ l => exact extendBranchWith h (fun x => fillNode h _ x) _ _ _ _

theorem extendAboveLoop (h : E.Lawful) (level fuel : Nat) (node : Index T) (from_ : List (T.Key × V)) :
    CacheIndependent sec (Banyan.extendAboveLoop cx level fuel node from_) := by
  induction fuel generalizing node from_ with
  | zero => unfold Banyan.extendAboveLoop; split <;> first | exact throw _ | exact pure _
  | succ fuel ih =>
    unfold Banyan.extendAboveLoop
    split
    · exact (extendBranch h _ _ _ _).bind fun _ => ih _ _
    · exact pure _

theorem extendAboveWith (h : E.Lawful) {ext0 : Index T → List (T.Key × V) → M E (Index T × List (T.Key × V))}
    (he : ∀ i x, CacheIndependent sec (ext0 i x)) (node : Option (Index T)) (level : Nat) (from_ : List (T.Key × V)) :
    CacheIndependent sec (Banyan.extendAboveWith cx ext0 node level from_) := by
  refine (ensure _ _).bind fun _ => (assert _ _).bind fun _ => bind ?_ fun _ => (extendAboveLoop h _ _ _ _).bind fun _ =>
    (assert _ _).bind fun _ => pure _
  unfold extendStart
  cases node with
  | some n => exact he _ _
  | none => exact (leafFromIter h _).bind fun _ => pure _

theorem extend0 (h : E.Lawful) (fuel : Nat) (index : Index T) (from_ : List (T.Key × V)) :
    CacheIndependent cx.sec (Banyan.extend0 cx fuel index from_) := by
  induction fuel generalizing index from_ with
  | zero => exact throw _
  | succ fuel ih =>
    unfold Banyan.extend0
    split
    · exact pure _
    · cases index with
      | leaf l =>
        simp only
        cases l.link with
        | none => exact pure _
        | some link => exact (loadLeafM _ _).bind fun _ => (extendLeaf h _ _ _).bind fun _ => pure _
      | branch b =>
        simp only
        cases b.link with
        | none => exact pure _
        | some link =>
          refine (loadBranchCached h _).bind fun br => bind ?_ fun _ => (extendBranch h _ _ _ _).bind fun _ => pure _
          unfold extendLast
          cases br.children.getLast? with
          | none => exact pure _
          | some last => exact (extendAboveWith h (fun i x => ih i x) _ _ _).bind fun _ => pure _

theorem extendAbove (h : E.Lawful) (fuel : Nat) (node : Option (Index T)) (level : Nat) (from_ : List (T.Key × V)) :
    CacheIndependent cx.sec (Banyan.extendAbove cx fuel node level from_) :=
  extendAboveWith h (fun i x => extend0 h fuel i x) _ _ _

theorem extendUnpacked0 (h : E.Lawful) (fuel : Nat) (index : Option (Index T)) (from_ : List (T.Key × V)) :
    CacheIndependent cx.sec (Banyan.extendUnpacked0 cx fuel index from_) := by
  unfold Banyan.extendUnpacked0
  split
  · exact pure _
  · refine (extendAbove h _ _ _ _).bind fun _ => ?_
    cases index with
    | some a => exact (extendBranch h _ _ _ _).bind fun _ => pure _
    | none => exact pure _

theorem simplifyRoots (h : E.Lawful) (fuel : Nat) (roots : List (Index T)) (from_ : Nat) :
    CacheIndependent sec (Banyan.simplifyRoots cx fuel roots from_) := by
  induction fuel generalizing from_ with
  | zero => exact throw _
  | succ fuel ih =>
    refine (assert _ _).bind fun _ => (assert _ _).bind fun _ => (lift _).bind fun r => ?_
    cases r with
    | «sealed» count => exact (newBranch h _ _).bind fun _ => pure _
    | unsealed count => exact (newBranch h _ _).bind fun _ => pure _
    | skip count => exact ih _

theorem retainLoop {rec : Nat → Index T → Int → M E (Index T × Int)} (hf : ∀ o i l, CacheIndependent sec (rec o i l))
    (cs : List (Index T)) (offset : Nat) (level : Int) : CacheIndependent sec (Banyan.retainLoop rec cs offset level) := by
  induction cs generalizing offset level with
  | nil => exact pure _
  | cons c cs ih =>
    refine (hf _ _ _).bind fun _ => (ih _ _).bind fun _ => ?_
    simp only
    split <;> exact pure _

theorem retain0 (h : E.Lawful) (query : Query T) (fuel offset : Nat) (index : Index T) (level : Int) :
    CacheIndependent sec (Banyan.retain0 cx query fuel offset index level) := by
  induction fuel generalizing offset index level with
  | zero => exact throw _
  | succ fuel ih =>
    unfold Banyan.retain0
    cases index with
    | branch b =>
      simp only
      refine (loadBranchOpt _ _).bind fun node => ?_
      cases node with
      | none => exact pure _
      | some node =>
        refine (retainLoop (fun o i l => ih o i l) _ _ _).bind fun r => ?_
        obtain ⟨children, changed, level⟩ := r
        simp only
        split
        · exact (persistBranch h _).bind fun _ => pure _
        · exact pure _
    | leaf l =>
      simp only
      split
      · split <;> exact pure _
      · exact pure _

theorem repairLoop {rec : Index T → List (RepairMsg T) → Int → M E (Index T × List (RepairMsg T) × Int)}
    (hf : ∀ i r l, CacheIndependent sec (rec i r l)) (cs : List (Index T)) (report : List (RepairMsg T)) (level : Int) :
    CacheIndependent sec (Banyan.repairLoop rec cs report level) := by
  induction cs generalizing report level with
  | nil => exact pure _
  | cons c cs ih =>
    refine (hf _ _ _).bind fun _ => (ih _ _).bind fun _ => ?_
    simp only
    split <;> exact pure _

theorem repair0 (h : E.Lawful) (fuel : Nat) (index : Index T) (report : List (RepairMsg T)) (level : Int) :
    CacheIndependent sec (Banyan.repair0 cx fuel index report level) := by
  induction fuel generalizing index report level with
  | zero => exact throw _
  | succ fuel ih =>
    intro s s' hs
    unfold endState Banyan.repair0
    cases index with
    | branch b =>
      simp only
      rw [hs.store]
      cases loadBranch E cx.sec s.store b with
      | error e => cases e <;> exact ⟨⟨rfl, hs⟩, StoreLe.refl _⟩
      | ok node =>
        cases node with
        | none => exact ⟨⟨rfl, hs⟩, StoreLe.refl _⟩
        | some node =>
          simp only
          refine bind (repairLoop (fun i r l => ih i r l) _ _ _) ?_ s s' hs
          intro r
          obtain ⟨children, changed, report, level⟩ := r
          simp only
          split
          · exact (persistBranch h _).bind fun _ => pure _
          · exact pure _
    | leaf l =>
      simp only
      rw [hs.store]
      cases loadLeaf E cx.sec s.store l with
      | error e => cases e <;> exact ⟨⟨rfl, hs⟩, StoreLe.refl _⟩
      | ok node => exact ⟨⟨rfl, hs⟩, StoreLe.refl _⟩

/-! ### reading -/

theorem get0Loop {rec : Index T → Nat → M E (Option (T.Key × V))} (hf : ∀ i o, CacheIndependent sec (rec i o))
    (cs : List (Index T)) (o : Nat) : CacheIndependent sec (Banyan.get0Loop rec cs o) := by
  induction cs generalizing o with
  | nil => exact throw _
  | cons c cs ih =>
    unfold Banyan.get0Loop
    split
    · exact hf _ _
    · exact ih _

theorem get0 (h : E.Lawful) (fuel : Nat) (index : Index T) (o : Nat) : CacheIndependent sec (Banyan.get0 (E := E) sec fuel index o) := by
  induction fuel generalizing index o with
  | zero => exact throw _
  | succ fuel ih =>
    unfold Banyan.get0
    split
    · exact pure _
    · cases index with
      | branch b =>
        simp only
        cases b.link with
        | none => exact pure _
        | some link => exact (loadBranchCached h _).bind fun _ => get0Loop (fun i o => ih i o) _ _
      | leaf l =>
        simp only
        cases l.link with
        | none => exact pure _
        | some link =>
          simp only
          cases T.keys.get l.keys o with
          | none => exact throw _
          | some k => exact (loadLeafM _ _).bind fun _ => (lift _).bind fun _ => pure _

theorem collect0Loop {rec : Index T → Nat → List (Option (T.Key × V)) → M E (List (Option (T.Key × V)))}
    (hf : ∀ i o x, CacheIndependent sec (rec i o x)) (cs : List (Index T)) (o : Nat) (into : List (Option (T.Key × V))) :
    CacheIndependent sec (Banyan.collect0Loop rec cs o into) := by
  induction cs generalizing o into with
  | nil => exact pure _
  | cons c cs ih =>
    unfold Banyan.collect0Loop
    split
    · exact (hf _ _ _).bind fun _ => ih _ _
    · exact ih _ _

theorem collect0 (h : E.Lawful) (fuel : Nat) (index : Index T) (o : Nat) (into : List (Option (T.Key × V))) :
    CacheIndependent sec (Banyan.collect0 (E := E) sec fuel index o into) := by
  induction fuel generalizing index o into with
  | zero => exact throw _
  | succ fuel ih =>
    unfold Banyan.collect0
    split
    · exact pure _
    · cases index with
      | branch b =>
        simp only
        cases b.link with
        | none => exact pure _
        | some link => exact (loadBranchCached h _).bind fun _ => collect0Loop (fun i o x => ih i o x) _ _ _
      | leaf l =>
        simp only
        cases l.link with
        | none => exact pure _
        | some link => exact (loadLeafM _ _).bind fun _ => (lift _).bind fun _ => pure _

theorem roots0 (fuel : Nat) (index : Index T) (level : Int) (res : List (Index T)) :
    CacheIndependent sec (Banyan.roots0 (E := E) sec fuel index level res) := by
  induction fuel generalizing index level res with
  | zero => exact throw _
  | succ fuel ih =>
    unfold Banyan.roots0
    split
    · exact pure _
    · cases index with
      | leaf l => exact pure _
      | branch b =>
        simp only
        cases b.link with
        | none => exact pure _
        | some link =>
          refine (loadBranchM _ _).bind fun br => ?_
          have key : ∀ (cs : List (Index T)) (lv : Int) (res : List (Index T)),
              CacheIndependent sec (roots0Loop (Banyan.roots0 (E := E) sec fuel) cs lv res) := by
            intro cs
            induction cs with
            | nil => exact fun _ _ => pure _
            | cons c cs ih2 => exact fun _ _ => (ih _ _ _).bind fun _ => ih2 _ _
          exact key _ _ _

theorem rootsImpl (fuel : Nat) (index : Index T) : CacheIndependent sec (Banyan.rootsImpl (E := E) sec fuel index) :=
  (roots0 _ _ _ _).bind fun _ => pure _

theorem checkInvariants0 (h : E.Lawful) (cfg : Config) (fuel : Nat) (index : Index T) (level : Int) (msgs : List InvMsg) :
    CacheIndependent sec (Banyan.checkInvariants0 (E := E) sec cfg fuel index level msgs) := by
  induction fuel generalizing index level msgs with
  | zero => exact throw _
  | succ fuel ih =>
    unfold Banyan.checkInvariants0
    cases index with
    | leaf l =>
      simp only
      cases l.link with
      | none => exact pure _
      | some link => exact (loadLeafM _ _).bind fun _ => (lift _).bind fun _ => pure _
    | branch b =>
      simp only
      cases b.link with
      | none => exact pure _
      | some link =>
        refine (loadBranchCached h _).bind fun br => (assert _ _).bind fun _ => ?_
        have key : ∀ (cs : List (Index T)) (lv : Int) (ms : List InvMsg),
            CacheIndependent sec (checkInvariantsLoop (Banyan.checkInvariants0 (E := E) sec cfg fuel) cs lv ms) := by
          intro cs
          induction cs with
          | nil => exact fun _ _ => pure _
          | cons c cs ih2 => exact fun _ _ => (ih _ _ _).bind fun _ => ih2 _ _
        exact key _ _ _

theorem isPacked0 (h : E.Lawful) (fuel : Nat) (index : Index T) : CacheIndependent sec (Banyan.isPacked0 (E := E) sec fuel index) := by
  induction fuel generalizing index with
  | zero => exact throw _
  | succ fuel ih =>
    unfold Banyan.isPacked0
    cases index with
    | leaf l => exact pure _
    | branch b =>
      simp only
      cases b.link with
      | none => exact pure _
      | some link =>
        simp only
        split
        · exact pure _
        · refine (loadBranchCached h _).bind fun br => ?_
          cases br.children.getLast? with
          | none => exact pure _
          | some last => exact (ih _).bind fun _ => pure _

theorem leftRoots0 (h : E.Lawful) (fuel : Nat) (index : Index T) : CacheIndependent sec (Banyan.leftRoots0 (E := E) sec fuel index) := by
  induction fuel generalizing index with
  | zero => exact throw _
  | succ fuel ih =>
    unfold Banyan.leftRoots0
    cases index with
    | leaf l => exact pure _
    | branch b =>
      simp only
      cases b.link with
      | none => exact pure _
      | some link =>
        refine (loadBranchCached h _).bind fun br => ?_
        cases br.children with
        | nil => exact throw _
        | cons c cs => exact (ih _).bind fun _ => pure _

theorem dumpGraph0 (h : E.Lawful) (fuel : Nat) (parent : Option Nat) (nextId : Nat) (index : Index T) :
    CacheIndependent sec (Banyan.dumpGraph0 (E := E) sec fuel parent nextId index) := by
  induction fuel generalizing parent nextId index with
  | zero => exact throw _
  | succ fuel ih =>
    unfold Banyan.dumpGraph0
    cases index with
    | leaf l => exact pure _
    | branch b =>
      simp only
      cases b.link with
      | none => exact pure _
      | some link =>
        refine (loadBranchCached h _).bind fun br => ?_
        have key : ∀ (cs : List (Index T)) (cur : Nat) (edges : List (Nat × Nat)) (nodes : List (Nat × Index T)),
            CacheIndependent sec (dumpGraphLoop (Banyan.dumpGraph0 (E := E) sec fuel (some nextId)) cs cur edges nodes) := by
          intro cs
          induction cs with
          | nil => exact fun _ _ _ => pure _
          | cons c cs ih2 => exact fun _ _ _ => (ih _ _ _).bind fun _ => ih2 _ _ _
        exact key _ _ _ _

/-! ### iterators -/

theorem moveOffset (mode : Mode) (offset count : Nat) : CacheIndependent sec (Banyan.moveOffset (E := E) mode offset count) := by
  unfold Banyan.moveOffset
  cases mode with
  | forward => exact pure _
  | backward => simp only; split <;> first | exact pure _ | exact throw _

theorem visitLeaf (mkExtra : Index T → X) (range : Nat × Nat) (index : LeafIndex T) (link : T.Link) (matching : List Bool) :
    CacheIndependent sec (Banyan.visitLeaf (E := E) sec mkExtra range index link matching) := by
  unfold Banyan.visitLeaf
  refine bind ?_ fun _ => pure _
  unfold visitLeafData
  split
  · exact (loadLeafM _ _).bind fun _ => (lift _).bind fun _ => pure _
  · exact pure _

theorem skipTop (mode : Mode) (mkExtra : Index T → X) (offset : Nat) (top : TraverseState T)
    (rest : List (TraverseState T)) (range : Nat × Nat) :
    CacheIndependent sec (Banyan.skipTop (E := E) mode mkExtra offset top rest range) :=
  (moveOffset _ _ _).bind fun _ => pure _

theorem branchStep (h : E.Lawful) (mode : Mode) (mkExtra : Index T → X) (offset : Nat) (head : TraverseState T)
    (rest : List (TraverseState T)) (link : T.Link) :
    CacheIndependent sec (Banyan.branchStep (E := E) sec mode mkExtra offset head rest link) := by
  refine (loadBranchCached h _).bind fun br => ?_
  simp only
  split
  · exact pure _
  · exact (moveOffset _ _ _).bind fun _ => pure _
  · exact throw _

theorem iterStep (h : E.Lawful) (query : Query T) (mode : Mode) (mkExtra : Index T → X) (s : IterState T) :
    CacheIndependent sec (Banyan.iterStep (E := E) sec query mode mkExtra s) := by
  unfold Banyan.iterStep
  cases s.stack with
  | nil => exact pure _
  | cons head rest =>
    simp only
    split
    · exact pure _
    · cases head.index with
      | branch b =>
        simp only
        cases b.link with
        | none => exact skipTop _ _ _ _ _ _
        | some link =>
          simp only
          split
          · split
            · exact skipTop _ _ _ _ _ _
            · exact branchStep h _ _ _ _ _ _
          · exact branchStep h _ _ _ _ _ _
      | leaf l =>
        simp only
        cases l.link with
        | none => exact skipTop _ _ _ _ _ _
        | some link => exact (visitLeaf _ _ _ _ _).bind fun _ => (moveOffset _ _ _).bind fun _ => pure _

theorem nextFallible (h : E.Lawful) (query : Query T) (mode : Mode) (mkExtra : Index T → X) (fuel : Nat) (s : IterState T) :
    CacheIndependent sec (Banyan.nextFallible (E := E) sec query mode mkExtra fuel s) := by
  induction fuel generalizing s with
  | zero => exact throw _
  | succ fuel ih =>
    refine (iterStep h _ _ _ _).bind fun r => ?_
    cases r with
    | done => exact pure _
    | cont s => exact ih _
    | item a s => exact pure _

theorem iterNext (h : E.Lawful) (query : Query T) (mode : Mode) (mkExtra : Index T → X) (fuel : Nat) (s : IterState T) :
    CacheIndependent sec (Banyan.iterNext (E := E) sec query mode mkExtra fuel s) := by
  refine (tryFail (nextFallible h _ _ _ _ _)).bind fun r => ?_
  cases r with
  | error m => exact pure _
  | ok r =>
    obtain ⟨o, s⟩ := r
    cases o <;> exact pure _

theorem iterTake (h : E.Lawful) (query : Query T) (mode : Mode) (mkExtra : Index T → X) (fuel : Nat)
    {between : Nat → St E → St E} (hb : ∀ n, CacheIndependent sec (modify (between n) : M E Unit)) (n : Nat) (s : IterState T) :
    CacheIndependent sec (Banyan.iterTake (E := E) sec query mode mkExtra fuel between n s) := by
  induction n generalizing s with
  | zero => exact pure _
  | succ n ih =>
    refine (iterNext h _ _ _ _ _).bind fun r => ?_
    obtain ⟨o, s⟩ := r
    cases o with
    | none => exact pure _
    | some a => exact (hb n).bind fun _ => (ih _).bind fun _ => pure _

theorem indexBranchStep (mode : Mode) (offset : Nat) (head : TraverseState T) (rest : List (TraverseState T))
    (branch : Branch T) : CacheIndependent sec (Banyan.indexBranchStep (E := E) mode offset head rest branch) := by
  unfold Banyan.indexBranchStep
  simp only
  split
  · exact pure _
  · exact (moveOffset _ _ _).bind fun _ => pure _
  · exact throw _

theorem indexStep (h : E.Lawful) (query : Query T) (mode : Mode) (s : IterState T) :
    CacheIndependent sec (Banyan.indexStep (E := E) sec query mode s) := by
  unfold Banyan.indexStep
  cases s.stack with
  | nil => exact pure _
  | cons head rest =>
    simp only
    split
    · exact pure _
    · cases head.index with
      | branch b =>
        simp only
        cases b.link with
        | none => exact (moveOffset _ _ _).bind fun _ => pure _
        | some link =>
          refine (loadBranchCached h _).bind fun br => ?_
          split
          · refine bind ?_ fun _ => pure _
            unfold startOffsetOf
            cases mode with
            | forward => exact pure _
            | backward => exact moveOffset _ _ _
          · exact indexBranchStep _ _ _ _ _
      | leaf l => exact (moveOffset _ _ _).bind fun _ => pure _

theorem indexNext (h : E.Lawful) (query : Query T) (mode : Mode) (fuel : Nat) (s : IterState T) :
    CacheIndependent sec (Banyan.indexNext (E := E) sec query mode fuel s) := by
  induction fuel generalizing s with
  | zero => exact throw _
  | succ fuel ih =>
    refine (tryFail (indexStep h _ _ _)).bind fun r => ?_
    cases r with
    | error m => exact pure _
    | ok r =>
      cases r with
      | done => exact pure _
      | cont s => exact ih _
      | item a s => exact pure _

theorem indexTake (h : E.Lawful) (query : Query T) (mode : Mode) (fuel : Nat)
    {between : Nat → St E → St E} (hb : ∀ n, CacheIndependent sec (modify (between n) : M E Unit)) (n : Nat) (s : IterState T) :
    CacheIndependent sec (Banyan.indexTake (E := E) sec query mode fuel between n s) := by
  induction n generalizing s with
  | zero => exact pure _
  | succ n ih =>
    refine (indexNext h _ _ _ _).bind fun r => ?_
    obtain ⟨o, s⟩ := r
    cases o with
    | none => exact pure _
    | some a => exact (hb n).bind fun _ => (ih _).bind fun _ => pure _

/-! ### streams -/

theorem streamTree (h : E.Lawful) {world : Nat → St E → St E} (hb : ∀ n, CacheIndependent sec (modify (world n) : M E Unit)) (query : Query T) (mkExtra : Index T → X) (fuel end_ n : Nat) (it : IterState T) (start : Nat) :
    CacheIndependent sec (Banyan.streamTree (E := E) world sec query mkExtra fuel end_ n it start) := by
  induction n generalizing it start with
  | zero => exact throw _
  | succ n ih =>
    refine (hb n).bind fun _ => (iterNext h _ _ _ _ _).bind fun r => ?_
    obtain ⟨o, s⟩ := r
    cases o with
    | none => exact pure _
    | some a =>
      cases a with
      | error m => exact pure _
      | ok chunk =>
        simp only
        split
        · exact pure _
        · exact (ih _ _).bind fun _ => pure _

theorem streamTreeRev (h : E.Lawful) {world : Nat → St E → St E} (hb : ∀ n, CacheIndependent sec (modify (world n) : M E Unit)) (query : Query T) (mkExtra : Index T → X) (fuel start n : Nat) (it : IterState T) (end_ : Nat) :
    CacheIndependent sec (Banyan.streamTreeRev (E := E) world sec query mkExtra fuel start n it end_) := by
  induction n generalizing it end_ with
  | zero => exact throw _
  | succ n ih =>
    refine (hb n).bind fun _ => (iterNext h _ _ _ _ _).bind fun r => ?_
    obtain ⟨o, s⟩ := r
    cases o with
    | none => exact pure _
    | some a =>
      cases a with
      | error m => exact pure _
      | ok chunk =>
        simp only
        split
        · exact pure _
        · exact (ih _ _).bind fun _ => pure _

theorem streamTreeThreaded (h : E.Lawful) {world : Nat → St E → St E} (hb : ∀ n, CacheIndependent sec (modify (world n) : M E Unit)) (query : Query T) (mkExtra : Index T → X) (fuel n : Nat) (it : IterState T) (o : Nat) :
    CacheIndependent sec (Banyan.streamTreeThreaded (E := E) world sec query mkExtra fuel n it o) := by
  induction n generalizing it o with
  | zero => exact throw _
  | succ n ih =>
    refine (hb n).bind fun _ => (iterNext h _ _ _ _ _).bind fun r => ?_
    obtain ⟨o, s⟩ := r
    cases o with
    | none => exact pure _
    | some a =>
      cases a with
      | error m => exact pure _
      | ok chunk => exact (ih _ _).bind fun _ => pure _

theorem streamTreesChunked (h : E.Lawful) (query : Query T) (mkExtra : Index T → X) (fuel n end_ : Nat)
    (trees : List (Arrival E)) (ht : ∀ x ∈ trees, (∀ y, x.2 = some y → y.2.1 = sec) ∧ ∀ n, CacheIndependent sec (modify (x.1 n) : M E Unit)) (start : Nat) :
    CacheIndependent sec (Banyan.streamTreesChunked (E := E) query mkExtra fuel n end_ trees start) := by
  induction trees generalizing start with
  | nil => exact pure _
  | cons x trees ih =>
    have ih := ih fun x hx => ht x (List.mem_cons_of_mem _ hx)
    obtain ⟨world, x⟩ := x
    cases x with
    | none => exact ih _
    | some x =>
      obtain ⟨index, sec', o⟩ := x
      obtain ⟨this, hw⟩ := ht _ (List.mem_cons_self ..)
      have : sec' = sec := this _ rfl
      subst this
      refine (streamTree h hw _ _ _ _ _ _ _).bind fun r => ?_
      obtain ⟨chunks, start, e⟩ := r
      cases e with
      | stop => exact pure _
      | next => exact (ih _).bind fun _ => pure _

theorem streamTreesChunkedReverse (h : E.Lawful) (query : Query T) (mkExtra : Index T → X) (fuel n start : Nat)
    (trees : List (Arrival E)) (ht : ∀ x ∈ trees, (∀ y, x.2 = some y → y.2.1 = sec) ∧ ∀ n, CacheIndependent sec (modify (x.1 n) : M E Unit)) (end_ : Nat) :
    CacheIndependent sec (Banyan.streamTreesChunkedReverse (E := E) query mkExtra fuel n start trees end_) := by
  induction trees generalizing end_ with
  | nil => exact pure _
  | cons x trees ih =>
    have ih := ih fun x hx => ht x (List.mem_cons_of_mem _ hx)
    obtain ⟨world, x⟩ := x
    cases x with
    | none => exact ih _
    | some x =>
      obtain ⟨index, sec', o⟩ := x
      obtain ⟨this, hw⟩ := ht _ (List.mem_cons_self ..)
      have : sec' = sec := this _ rfl
      subst this
      refine (streamTreeRev h hw _ _ _ _ _ _ _).bind fun r => ?_
      obtain ⟨chunks, start, e⟩ := r
      cases e with
      | stop => exact pure _
      | next => exact (ih _).bind fun _ => pure _

theorem streamTreesThreaded (h : E.Lawful) (query : Query T) (mkExtra : Index T → X) (fuel n end_ : Nat)
    (trees : List (Arrival E)) (ht : ∀ x ∈ trees, (∀ y, x.2 = some y → y.2.1 = sec) ∧ ∀ n, CacheIndependent sec (modify (x.1 n) : M E Unit)) (start : Nat) :
    CacheIndependent sec (Banyan.streamTreesThreaded (E := E) query mkExtra fuel n end_ trees start) := by
  induction trees generalizing start with
  | nil => exact pure _
  | cons x trees ih =>
    have ih := ih fun x hx => ht x (List.mem_cons_of_mem _ hx)
    obtain ⟨world, x⟩ := x
    cases x with
    | none => exact ih _
    | some x =>
      obtain ⟨index, sec', o⟩ := x
      obtain ⟨this, hw⟩ := ht _ (List.mem_cons_self ..)
      have : sec' = sec := this _ rfl
      subst this
      exact (streamTreeThreaded h hw _ _ _ _ _ _).bind fun _ => (ih _).bind fun _ => pure _

/-! ### the operations of the builder -/

theorem extend (h : E.Lawful) (fuel : Nat) (from_ : List (T.Key × V)) : CacheIndependent cx.sec (Banyan.extend cx fuel from_) := by
  unfold Banyan.extend
  split
  · exact pure _
  · exact getIndex.bind fun _ => (extendAbove h _ _ _ _).bind fun _ => setIndex _

theorem extendUnpacked (h : E.Lawful) (fuel : Nat) (from_ : List (T.Key × V)) :
    CacheIndependent cx.sec (Banyan.extendUnpacked cx fuel from_) :=
  getIndex.bind fun _ => (extendUnpacked0 h _ _ _).bind fun _ => setIndex _

theorem treeGet (h : E.Lawful) (fuel : Nat) (t : Tree E) (ht : ∀ y, t = some y → y.2.1 = sec) (o : Nat) :
    CacheIndependent sec (Tree.get fuel t o) := by
  cases t with
  | none => exact pure _
  | some x =>
    obtain ⟨index, sec', _⟩ := x
    have : sec' = sec := ht _ rfl
    subst this
    exact get0 h _ _ _

theorem treeCollectFrom (h : E.Lawful) (fuel : Nat) (t : Tree E) (ht : ∀ y, t = some y → y.2.1 = sec) (o : Nat) :
    CacheIndependent sec (Tree.collectFrom fuel t o) := by
  cases t with
  | none => exact pure _
  | some x =>
    obtain ⟨index, sec', _⟩ := x
    have : sec' = sec := ht _ rfl
    subst this
    exact collect0 h _ _ _ _

theorem treeIsPacked (h : E.Lawful) (fuel : Nat) (t : Tree E) (ht : ∀ y, t = some y → y.2.1 = sec) :
    CacheIndependent sec (Tree.isPacked fuel t) := by
  cases t with
  | none => exact pure _
  | some x =>
    obtain ⟨index, sec', _⟩ := x
    have : sec' = sec := ht _ rfl
    subst this
    exact isPacked0 h _ _

theorem treeLeftRoots (h : E.Lawful) (fuel : Nat) (t : Tree E) (ht : ∀ y, t = some y → y.2.1 = sec) :
    CacheIndependent sec (Tree.leftRoots fuel t) := by
  cases t with
  | none => exact pure _
  | some x =>
    obtain ⟨index, sec', _⟩ := x
    have : sec' = sec := ht _ rfl
    subst this
    exact (leftRoots0 h _ _).bind fun _ => pure _

theorem treeDumpGraph (h : E.Lawful) (fuel : Nat) (t : Tree E) (ht : ∀ y, t = some y → y.2.1 = sec) :
    CacheIndependent sec (Tree.dumpGraph fuel t) := by
  cases t with
  | none => exact throw _
  | some x =>
    obtain ⟨index, sec', _⟩ := x
    have : sec' = sec := ht _ rfl
    subst this
    exact dumpGraph0 h _ _ _ _

theorem snapshot_sec (s : St E) : ∀ y, snapshot cx s = some y → y.2.1 = cx.sec := by
  intro y hy
  unfold snapshot at hy
  cases hr : s.root with
  | none => rw [hr] at hy; cases hy
  | some r => rw [hr] at hy; cases hy; rfl

theorem snapshot_eq {s s' : St E} (h : SameButCache sec s s') : snapshot cx s' = snapshot cx s := by
  unfold snapshot
  rw [h.root, h.offset]

theorem roots (fuel : Nat) : CacheIndependent cx.sec (Banyan.roots cx fuel) := by
  refine getIndex.bind fun i => ?_
  cases i with
  | none => exact pure _
  | some i => exact rootsImpl _ _

theorem checkInvariants (h : E.Lawful) (fuel : Nat) : CacheIndependent cx.sec (Banyan.checkInvariants cx fuel) := by
  refine getIndex.bind fun i => ?_
  cases i with
  | none => exact pure _
  | some i => exact (checkInvariants0 h _ _ _ _ _).bind fun _ => pure _

theorem treeFromRootsLoop (h : E.Lawful) (fuel : Nat) (rs : List (Index T)) :
    CacheIndependent sec (Banyan.treeFromRootsLoop cx fuel rs) := by
  induction fuel generalizing rs with
  | zero => unfold Banyan.treeFromRootsLoop; split <;> first | exact throw _ | exact pure _
  | succ fuel ih =>
    unfold Banyan.treeFromRootsLoop
    split
    · exact (simplifyRoots h _ _ _).bind fun _ => ih _
    · exact pure _

theorem treeFromRoots (h : E.Lawful) (rs : List (Index T)) : CacheIndependent sec (Banyan.treeFromRoots cx rs) :=
  (assert _ _).bind fun _ => (assert _ _).bind fun _ => (treeFromRootsLoop h _ _).bind fun _ => setIndex _

theorem pack_apply (fuel : Nat) (s : St E) :
    Banyan.pack cx fuel s = (do
      let rs ← Banyan.roots cx fuel
      Banyan.treeFromRoots cx rs
      let root ← Banyan.getIndex
      let items ← Tree.collectFrom fuel (snapshot cx s) (rootCount root)
      match sequenceOpt items with
      | none => MonadExcept.throw (.fail "found purged data")
      | some remainder => Banyan.extend cx (fuel + rootLevel root) remainder : M E Unit) s := by
  rfl

theorem pack (h : E.Lawful) (fuel : Nat) : CacheIndependent cx.sec (Banyan.pack cx fuel) := by
  intro s s' hs
  unfold endState
  rw [pack_apply, pack_apply, snapshot_eq (cx := cx) hs]
  refine bind (roots fuel) ?_ s s' hs
  intro rs
  refine (treeFromRoots h _).bind fun _ => getIndex.bind fun root =>
    (treeCollectFrom h _ _ (snapshot_sec s) _).bind fun items => ?_
  cases sequenceOpt items with
  | none => exact throw _
  | some rem => exact extend h _ _

theorem retain (h : E.Lawful) (fuel : Nat) (q : Query T) : CacheIndependent cx.sec (Banyan.retain cx fuel q) := by
  refine getIndex.bind fun i => ?_
  cases i with
  | none => exact pure _
  | some i => exact (retain0 h _ _ _ _ _).bind fun _ => setIndex _

theorem repair (h : E.Lawful) (fuel : Nat) : CacheIndependent cx.sec (Banyan.repair cx fuel) := by
  refine getIndex.bind fun i => ?_
  cases i with
  | none => exact pure _
  | some i => exact (repair0 h _ _ _ _).bind fun _ => (setIndex _).bind fun _ => pure _

end CacheIndependent

end Banyan
