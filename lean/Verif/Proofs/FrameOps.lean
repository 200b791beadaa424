import Verif.Proofs.Node
/-
Every operation extends the state, whatever happens.
-/
namespace Banyan

variable {T : TreeTypes} {V : Type} {E : Env T V} {cx : Ctx E}

theorem frame_logBranch (items : List (Index T)) : Frame cx (logBranch items : M E Unit) := fun s =>
  ⟨StoreLe.refl _, .refl rfl, rfl, ⟨[], by simp [endState, logBranch], Nat.le_refl _⟩, ⟨[items], rfl⟩⟩

theorem frame_extendLeaf (h : E.Lawful) (compressed : Bytes) (keys : Option T.KeySeq) (from_ : List (T.Key × V)) :
    Frame cx (extendLeaf cx compressed keys from_) := by
  unfold extendLeaf
  refine Frame.bind (Frame.assert _ _) fun _ => Frame.bind (Frame.lift _) fun r => ?_
  obtain ⟨a, b, c, d⟩ := r
  exact Frame.encryptPut h _ _ _ fun _ _ => Frame.pure _

theorem frame_leafFromIter (h : E.Lawful) (from_ : List (T.Key × V)) : Frame cx (leafFromIter cx from_) := by
  unfold leafFromIter
  exact Frame.bind (Frame.assert _ _) fun _ => frame_extendLeaf h _ _ _

theorem frame_persistBranch (h : E.Lawful) (items : List (Index T)) : Frame cx (persistBranch cx items) := by
  unfold persistBranch serializeCompressed
  refine Frame.bind (frame_logBranch _) fun _ => ?_
  rw [bind_assoc]
  exact Frame.bind (Frame.lift _) fun z => Frame.encryptPut h _ _ _ fun _ _ => Frame.pure _

theorem frame_newBranch (h : E.Lawful) (children : List (Index T)) (mode : CreateMode) :
    Frame cx (newBranch cx children mode) := by
  unfold newBranch
  refine Frame.bind (Frame.assert _ _) fun _ => Frame.bind (Frame.assert _ _) fun _ => ?_
  split
  · exact Frame.throw _
  · exact Frame.bind (frame_persistBranch h _) fun _ => Frame.pure _

theorem frame_extendBranchLoop {fillChild : List (T.Key × V) → M E (Index T × List (T.Key × V))}
    (hf : ∀ from_, Frame cx (fillChild from_)) (n : Nat) (children : List (Index T)) (from_ : List (T.Key × V)) :
    Frame cx (extendBranchLoop fillChild n children from_) := by
  induction n generalizing children from_ with
  | zero => exact Frame.pure _
  | succ n ih =>
    unfold extendBranchLoop
    split
    · exact Frame.pure _
    · exact Frame.bind (hf _) fun r => ih _ _

theorem frame_extendBranchWith (h : E.Lawful) {fillChild : List (T.Key × V) → M E (Index T × List (T.Key × V))}
    (hf : ∀ from_, Frame cx (fillChild from_)) (children : List (Index T)) (level : Nat) (from_ : List (T.Key × V))
    (mode : CreateMode) : Frame cx (extendBranchWith cx fillChild children level from_ mode) := by
  unfold extendBranchWith
  refine Frame.bind (Frame.assert _ _) fun _ => Frame.bind (Frame.assert _ _) fun _ =>
    Frame.bind (frame_extendBranchLoop hf _ _ _) fun r => Frame.bind (frame_newBranch h _ _) fun _ =>
      Frame.bind (Frame.assert _ _) fun _ => Frame.pure _

theorem frame_fillNode (h : E.Lawful) (level : Nat) (from_ : List (T.Key × V)) : Frame cx (fillNode cx level from_) := by
  induction level generalizing from_ with
  | zero =>
    unfold fillNode
    exact Frame.bind (Frame.assert _ _) fun _ => Frame.bind (frame_leafFromIter h _) fun _ => Frame.pure _
  | succ l ih =>
    unfold fillNode
    exact Frame.bind (Frame.assert _ _) fun _ => Frame.bind (frame_extendBranchWith h ih _ _ _ _) fun _ => Frame.pure _

theorem frame_extendBranch (h : E.Lawful) (children : List (Index T)) (level : Nat) (from_ : List (T.Key × V))
    (mode : CreateMode) : Frame cx (extendBranch cx children level from_ mode) := by
  unfold extendBranch
  split
  · exact Frame.throw _
  · exact frame_extendBranchWith h (frame_fillNode h _) _ _ _ _

theorem frame_extendAboveLoop (h : E.Lawful) (level fuel : Nat) (node : Index T) (from_ : List (T.Key × V)) :
    Frame cx (extendAboveLoop cx level fuel node from_) := by
  induction fuel generalizing node from_ with
  | zero =>
    unfold extendAboveLoop
    split
    · exact Frame.throw _
    · exact Frame.pure _
  | succ fuel ih =>
    unfold extendAboveLoop
    split
    · exact Frame.bind (frame_extendBranch h _ _ _ _) fun r => ih _ _
    · exact Frame.pure _

theorem frame_extendAboveWith (h : E.Lawful) {ext0 : Index T → List (T.Key × V) → M E (Index T × List (T.Key × V))}
    (hf : ∀ i from_, Frame cx (ext0 i from_)) (node : Option (Index T)) (level : Nat) (from_ : List (T.Key × V)) :
    Frame cx (extendAboveWith cx ext0 node level from_) := by
  unfold extendAboveWith
  refine Frame.bind (Frame.ensure _ _) fun _ => Frame.bind (Frame.assert _ _) fun _ => ?_
  refine Frame.bind ?_ fun r => ?_
  · unfold extendStart
    cases node with
    | some n => exact hf _ _
    | none => exact Frame.bind (frame_leafFromIter h _) fun _ => Frame.pure _
  · exact Frame.bind (frame_extendAboveLoop h _ _ _ _) fun r => Frame.bind (Frame.assert _ _) fun _ => Frame.pure _

/-! ### reading -/

theorem ext_cache {s : St E} {c : E.γ} (hc : CacheAdds E cx.sec s { s with cache := c }) :
    Ext cx s { s with cache := c } :=
  ⟨StoreLe.refl _, hc, rfl, ⟨[], by simp, Nat.le_refl _⟩, ⟨[], by simp⟩⟩

/-- Loading through the cache keeps the cache coherent. -/
theorem loadBranchCached_coherent (h : E.Lawful) {sec : Secrets E} {s : St E} (hc : Coherent E sec s) (l : T.Link) :
    ∃ c, Coherent E sec { s with cache := c } ∧ ((∃ b, loadBranchCached sec l s = .ok b { s with cache := c } ∧
        ∀ b', loadBranchFromLink E sec s.store l = .ok b' → b' = b) ∨
      ∃ e, loadBranchCached sec l s = .error e { s with cache := c } ∧ loadBranchFromLink E sec s.store l = .error e) := by
  unfold loadBranchCached
  cases hg : E.cacheGet s.cache l with
  | mk r c =>
    have hsub : Coherent E sec { s with cache := c } := by
      intro l' b hb
      simp only at hb ⊢
      have := h.cacheGet_sub s.cache l l' b (by rw [hg]; exact hb)
      exact hc l' b this
    cases r with
    | some b =>
      exact ⟨c, hsub, .inl ⟨b, rfl, (hc l b (by rw [hg])).2⟩⟩
    | none =>
      cases hl : loadBranchFromLink E sec s.store l with
      | error e => exact ⟨c, hsub, .inr ⟨e, by simp, rfl⟩⟩
      | ok b =>
        refine ⟨E.cachePut c l b, ?_, .inl ⟨b, by simp, fun b' hb' => by injection hb' with hb'; exact hb'.symm⟩⟩
        intro l' b' hb
        simp only at hb ⊢
        rcases h.cachePut_sub c l b l' b' hb with ⟨rfl, rfl⟩ | h1
        · exact ⟨loadBranchFromLink_get hl, fun b2 h2 => by rw [hl] at h2; injection h2 with h2; exact h2.symm⟩
        · exact hsub l' b' h1

/-- Loading through an exact cache is loading from the store. -/
theorem loadBranchCached_exact (h : E.Lawful) {sec : Secrets E} {s : St E} (hc : Exact E sec s) (l : T.Link) :
    ∃ c, Exact E sec { s with cache := c } ∧
      loadBranchCached sec l s = match loadBranchFromLink E sec s.store l with
        | .ok b => .ok b { s with cache := c }
        | .error e => .error e { s with cache := c } := by
  unfold loadBranchCached
  cases hg : E.cacheGet s.cache l with
  | mk r c =>
    have hsub : Exact E sec { s with cache := c } := by
      intro l' b hb
      simp only at hb ⊢
      have := h.cacheGet_sub s.cache l l' b (by rw [hg]; exact hb)
      exact hc l' b this
    cases r with
    | some b =>
      have := hc l b (by rw [hg])
      rw [this]
      exact ⟨c, hsub, rfl⟩
    | none =>
      cases hl : loadBranchFromLink E sec s.store l with
      | error e => exact ⟨c, hsub, by simp⟩
      | ok b =>
        refine ⟨E.cachePut c l b, ?_, by simp⟩
        intro l' b' hb
        simp only at hb ⊢
        rcases h.cachePut_sub c l b l' b' hb with ⟨rfl, rfl⟩ | h1
        · exact hl
        · exact hsub l' b' h1

theorem frame_loadBranchCached (h : E.Lawful) (l : T.Link) : Frame cx (loadBranchCached cx.sec l) := by
  intro s
  unfold endState loadBranchCached
  cases hg : E.cacheGet s.cache l with
  | mk r c =>
    have hsub : ∀ l' b, (E.cacheGet c l').1 = some b → (E.cacheGet s.cache l').1 = some b := by
      intro l' b hb
      exact h.cacheGet_sub s.cache l l' b (by rw [hg]; exact hb)
    cases r with
    | some b => exact ext_cache fun l' b hb => .inl (hsub l' b hb)
    | none =>
      simp only
      cases hl : loadBranchFromLink E cx.sec s.store l with
      | error e => exact ext_cache fun l' b hb => .inl (hsub l' b hb)
      | ok b =>
        refine ext_cache fun l' b' hb => ?_
        rcases h.cachePut_sub c l b l' b' hb with ⟨rfl, rfl⟩ | h1
        · exact .inr hl
        · exact .inl (hsub l' b' h1)

theorem frame_loadLeafM (sec : Secrets E) (l : T.Link) : Frame cx (loadLeafM sec l) := by
  intro s
  unfold endState loadLeafM
  cases loadLeafFromLink E sec s.store l <;> exact Ext.refl s

theorem frame_loadBranchM (sec : Secrets E) (l : T.Link) : Frame cx (loadBranchM sec l) := by
  intro s
  unfold endState loadBranchM
  cases loadBranchFromLink E sec s.store l <;> exact Ext.refl s

theorem frame_loadBranchOpt (sec : Secrets E) (i : BranchIndex T) : Frame cx (loadBranchOpt sec i) := by
  intro s
  unfold endState loadBranchOpt
  cases loadBranch E sec s.store i <;> exact Ext.refl s

theorem frame_extend0 (h : E.Lawful) (fuel : Nat) (index : Index T) (from_ : List (T.Key × V)) :
    Frame cx (extend0 cx fuel index from_) := by
  induction fuel generalizing index from_ with
  | zero => exact Frame.throw _
  | succ fuel ih =>
    unfold extend0
    split
    · exact Frame.pure _
    · split
      · split
        · exact Frame.pure _
        · exact Frame.bind (frame_loadLeafM _ _) fun _ => Frame.bind (frame_extendLeaf h _ _ _) fun _ => Frame.pure _
      · split
        · exact Frame.pure _
        · refine Frame.bind (frame_loadBranchCached h _) fun b => Frame.bind ?_ fun r =>
            Frame.bind (frame_extendBranch h _ _ _ _) fun _ => Frame.pure _
          unfold extendLast
          split
          · exact Frame.pure _
          · exact Frame.bind (frame_extendAboveWith h ih _ _ _) fun _ => Frame.pure _

theorem frame_extendAbove (h : E.Lawful) (fuel : Nat) (node : Option (Index T)) (level : Nat) (from_ : List (T.Key × V)) :
    Frame cx (extendAbove cx fuel node level from_) := frame_extendAboveWith h (frame_extend0 h fuel) _ _ _

theorem frame_extendUnpacked0 (h : E.Lawful) (fuel : Nat) (index : Option (Index T)) (from_ : List (T.Key × V)) :
    Frame cx (extendUnpacked0 cx fuel index from_) := by
  unfold extendUnpacked0
  split
  · exact Frame.pure _
  · refine Frame.bind (frame_extendAbove h _ _ _ _) fun r => ?_
    obtain ⟨b, rest⟩ := r
    cases index with
    | none => exact Frame.pure _
    | some a => exact Frame.bind (frame_extendBranch h _ _ _ _) fun _ => Frame.pure _

theorem frame_simplifyRoots (h : E.Lawful) (fuel : Nat) (roots : List (Index T)) (from_ : Nat) :
    Frame cx (simplifyRoots cx fuel roots from_) := by
  induction fuel generalizing roots from_ with
  | zero => exact Frame.throw _
  | succ fuel ih =>
    unfold simplifyRoots
    refine Frame.bind (Frame.assert _ _) fun _ => Frame.bind (Frame.assert _ _) fun _ =>
      Frame.bind (Frame.lift _) fun r => ?_
    cases r with
    | «sealed» n => exact Frame.bind (frame_newBranch h _ _) fun _ => Frame.pure _
    | unsealed n => exact Frame.bind (frame_newBranch h _ _) fun _ => Frame.pure _
    | skip n => exact ih _ _

theorem frame_treeFromRootsLoop (h : E.Lawful) (fuel : Nat) (roots : List (Index T)) :
    Frame cx (treeFromRootsLoop cx fuel roots) := by
  induction fuel generalizing roots with
  | zero =>
    unfold treeFromRootsLoop
    split
    · exact Frame.throw _
    · exact Frame.pure _
  | succ fuel ih =>
    unfold treeFromRootsLoop
    split
    · exact Frame.bind (frame_simplifyRoots h _ _ _) fun _ => ih _
    · exact Frame.pure _

theorem frame_retainLoop {rec : Nat → Index T → Int → M E (Index T × Int)} (hf : ∀ o i l, Frame cx (rec o i l))
    (cs : List (Index T)) (offset : Nat) (level : Int) : Frame cx (retainLoop rec cs offset level) := by
  induction cs generalizing offset level with
  | nil => exact Frame.pure _
  | cons c cs ih =>
    unfold retainLoop
    refine Frame.bind (hf _ _ _) fun r => Frame.bind (ih _ _) fun r' => ?_
    obtain ⟨a, b, c⟩ := r'
    simp only
    split <;> exact Frame.pure _

theorem frame_retain0 (h : E.Lawful) (query : Query T) (fuel offset : Nat) (index : Index T) (level : Int) :
    Frame cx (retain0 cx query fuel offset index level) := by
  induction fuel generalizing offset index level with
  | zero => exact Frame.throw _
  | succ fuel ih =>
    unfold retain0
    simp only
    split
    · refine Frame.bind (frame_loadBranchOpt _ _) fun r => ?_
      split
      · exact Frame.pure _
      · refine Frame.bind (frame_retainLoop ih _ _ _) fun r => ?_
        obtain ⟨a, b, c⟩ := r
        simp only
        split
        · exact Frame.bind (frame_persistBranch h _) fun _ => Frame.pure _
        · exact Frame.pure _
    · split
      · split <;> exact Frame.pure _
      · exact Frame.pure _

theorem frame_repairLoop {rec : Index T → List (RepairMsg T) → Int → M E (Index T × List (RepairMsg T) × Int)}
    (hf : ∀ i r l, Frame cx (rec i r l)) (cs : List (Index T)) (report : List (RepairMsg T)) (level : Int) :
    Frame cx (repairLoop rec cs report level) := by
  induction cs generalizing report level with
  | nil => exact Frame.pure _
  | cons c cs ih =>
    unfold repairLoop
    refine Frame.bind (hf _ _ _) fun r => Frame.bind (ih _ _) fun r' => ?_
    obtain ⟨a, b, c⟩ := r'
    simp only
    split <;> exact Frame.pure _

theorem frame_repair0 (h : E.Lawful) (fuel : Nat) (index : Index T) (report : List (RepairMsg T)) (level : Int) :
    Frame cx (repair0 cx fuel index report level) := by
  induction fuel generalizing index report level with
  | zero => exact Frame.throw _
  | succ fuel ih =>
    intro s
    unfold repair0 endState
    simp only
    cases index with
    | branch b =>
      simp only
      cases hl : loadBranch E cx.sec s.store b with
      | error e => cases e <;> exact Ext.refl s
      | ok o =>
        cases o with
        | none => exact Ext.refl s
        | some node =>
          simp only
          refine Frame.bind (cx := cx) (frame_repairLoop ih _ _ _) (fun r => ?_) s
          obtain ⟨a, b, c, d⟩ := r
          simp only
          split
          · exact Frame.bind (frame_persistBranch h _) fun _ => Frame.pure _
          · exact Frame.pure _
    | leaf l =>
      simp only
      cases hl : loadLeaf E cx.sec s.store l with
      | error e => cases e <;> exact Ext.refl s
      | ok o => exact Ext.refl s

end Banyan
