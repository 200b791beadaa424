import Verif.Proofs.FrameOps
/-
Frames of the public operations, which may change the root of the builder.
-/
namespace Banyan

variable {T : TreeTypes} {V : Type} {E : Env T V} {cx : Ctx E} {α β : Type}

/-- Like `Ext`, without the root. -/
structure Ext0 (cx : Ctx E) (s s' : St E) : Prop where
  store : StoreLe E s.store s'.store
  coherent : Coherent E cx.sec s → Coherent E cx.sec s'
  puts : ∃ new, s'.puts = s.puts ++ new ∧ Chain E s.offset new s'.offset
  written : ∃ new, s'.written = s.written ++ new

theorem Ext.ext0 {s s' : St E} (h : Ext cx s s') : Ext0 cx s s' := ⟨h.store, h.coherent, h.puts, h.written⟩

theorem Ext0.refl (s : St E) : Ext0 cx s s := (Ext.refl s).ext0

theorem Ext0.trans {a b c : St E} (h1 : Ext0 cx a b) (h2 : Ext0 cx b c) : Ext0 cx a c := by
  obtain ⟨p1, hp1, hc1⟩ := h1.puts
  obtain ⟨p2, hp2, hc2⟩ := h2.puts
  obtain ⟨w1, hw1⟩ := h1.written
  obtain ⟨w2, hw2⟩ := h2.written
  exact ⟨h1.store.trans h2.store, fun h => h2.coherent (h1.coherent h),
    ⟨p1 ++ p2, by simp [hp2, hp1], hc1.append hc2⟩, ⟨w1 ++ w2, by simp [hw2, hw1]⟩⟩

theorem Ext0.setRoot (s : St E) (r : Option (Index T)) : Ext0 cx s { s with root := r } :=
  ⟨StoreLe.refl _, fun h => h, ⟨[], by simp, Nat.le_refl _⟩, ⟨[], by simp⟩⟩

theorem Ext0.small {a b : St E} (h : Ext0 cx a b) (hs : Small E b) : Small E a := by
  obtain ⟨w, hw⟩ := h.written
  intro cs hcs
  exact hs cs (by rw [hw]; simp [hcs])

/-- Like `Frame`, without the root. -/
def Frame0 (cx : Ctx E) (m : M E α) : Prop := ∀ s, Ext0 cx s (endState m s) ∧ CacheAdds E cx.sec s (endState m s)

theorem Frame.frame0 {m : M E α} (h : Frame cx m) : Frame0 cx m := fun s => ⟨(h s).ext0, (h s).cache⟩

theorem Frame0.ok {m : M E α} (h : Frame0 cx m) {s s' : St E} {a : α} (hm : m s = .ok a s') : Ext0 cx s s' := by
  have := h s; unfold endState at this; rw [hm] at this; exact this.1

theorem Frame0.err {m : M E α} (h : Frame0 cx m) {s s' : St E} {e : Err} (hm : m s = .error e s') : Ext0 cx s s' := by
  have := h s; unfold endState at this; rw [hm] at this; exact this.1

theorem Frame0.adds {m : M E α} (h : Frame0 cx m) (s : St E) : CacheAdds E cx.sec s (endState m s) := (h s).2

theorem Frame0.exact {m : M E α} (h : Frame0 cx m) {s s' : St E} {a : α} (hm : m s = .ok a s') (hs : Exact E cx.sec s) : Exact E cx.sec s' := by
  have := h s
  unfold endState at this
  rw [hm] at this
  exact this.2.exact this.1.store hs

theorem Frame0.bind {m : M E α} {f : α → M E β} (hm : Frame0 cx m) (hf : ∀ a, Frame0 cx (f a)) :
    Frame0 cx (m >>= f) := by
  intro s
  have h1 := hm s
  unfold endState at h1 ⊢
  rw [bind_apply]
  cases hms : m s with
  | error e s1 => rw [hms] at h1; exact h1
  | ok a s1 =>
    rw [hms] at h1
    have h2 := hf a s1
    unfold endState at h2
    simp only
    cases hfa : f a s1 with
    | ok b s2 => rw [hfa] at h2; exact ⟨h1.1.trans h2.1, h1.2.trans h2.2 h2.1.store⟩
    | error b s2 => rw [hfa] at h2; exact ⟨h1.1.trans h2.1, h1.2.trans h2.2 h2.1.store⟩

theorem frame0_setIndex (r : Option (Index T)) : Frame0 cx (setIndex r : M E Unit) := fun s => ⟨Ext0.setRoot s r, .refl rfl⟩

theorem frame_getIndex : Frame cx (getIndex : M E (Option (Index T))) := fun s => Ext.refl s

theorem Post.bind0 {m : M E α} {f : α → M E β} {s : St E} {Q : α → St E → Prop} {Q' : β → St E → Prop} {R : Err → Prop}
    (hm : Frame0 cx m) (hfr : ∀ a, Frame0 cx (f a)) (h : Post m s Q R)
    (hf : ∀ a s', Ext0 cx s s' → Small E s' → Q a s' → Post (f a) s' Q' R) : Post (m >>= f) s Q' R := by
  unfold Post at h ⊢
  rw [bind_apply]
  cases hms : m s with
  | ok a s1 =>
    rw [hms] at h
    simp only
    have hx := hm.ok hms
    cases hfa : f a s1 with
    | ok b s2 =>
      intro hs2
      have hs1 := ((hfr a).ok hfa).small hs2
      have := hf a s1 hx hs1 (h hs1)
      unfold Post at this; rw [hfa] at this; exact this hs2
    | error e s2 =>
      intro hs2
      have hs1 := ((hfr a).err hfa).small hs2
      have := hf a s1 hx hs1 (h hs1)
      unfold Post at this; rw [hfa] at this; exact this hs2
  | error e s1 => rw [hms] at h; exact h

theorem Post.mono0 {m : M E α} {s : St E} {Q : α → St E → Prop} {R : Err → Prop}
    {Q' : α → St E → Prop} {R' : Err → Prop} (hm : Frame0 cx m) (h : Post m s Q R)
    (hq : ∀ a s', Ext0 cx s s' → Small E s' → Q a s' → Q' a s') (hr : ∀ e, R e → R' e) : Post m s Q' R' := by
  unfold Post at h ⊢
  cases hms : m s with
  | ok a s' => rw [hms] at h; exact fun hs => hq a s' (hm.ok hms) hs (h hs)
  | error e s' => rw [hms] at h; exact fun hs => hr e (h hs)

theorem Post.getIndexBind {s : St E} {Q : β → St E → Prop} {R : Err → Prop} {f : Option (Index T) → M E β}
    (h : Post (f s.root) s Q R) : Post (getIndex >>= f) s Q R := by
  unfold Post at *
  rw [bind_apply]
  exact h

/-! ### reading functions -/

theorem frame_get0Loop {rec : Index T → Nat → M E (Option (T.Key × V))} (hf : ∀ i o, Frame cx (rec i o))
    (cs : List (Index T)) (o : Nat) : Frame cx (get0Loop rec cs o) := by
  induction cs generalizing o with
  | nil => exact Frame.throw _
  | cons c cs ih =>
    unfold get0Loop
    split
    · exact hf _ _
    · exact ih _

theorem frame_get0 (h : E.Lawful) (fuel : Nat) (i : Index T) (o : Nat) : Frame cx (get0 cx.sec fuel i o) := by
  induction fuel generalizing i o with
  | zero => exact Frame.throw _
  | succ fuel ih =>
    unfold get0
    split
    · exact Frame.pure _
    · cases i with
      | branch b =>
        simp only
        split
        · exact Frame.pure _
        · exact Frame.bind (frame_loadBranchCached h _) fun _ => frame_get0Loop ih _ _
      | leaf l =>
        simp only
        split
        · exact Frame.pure _
        · split
          · exact Frame.throw _
          · exact Frame.bind (frame_loadLeafM _ _) fun _ => Frame.bind (Frame.lift _) fun _ => Frame.pure _

theorem frame_collect0Loop {rec : Index T → Nat → List (Option (T.Key × V)) → M E (List (Option (T.Key × V)))}
    (hf : ∀ i o r, Frame cx (rec i o r))
    (cs : List (Index T)) (o : Nat) (r : List (Option (T.Key × V))) : Frame cx (collect0Loop rec cs o r) := by
  induction cs generalizing o r with
  | nil => exact Frame.pure _
  | cons c cs ih =>
    unfold collect0Loop
    split
    · exact Frame.bind (hf _ _ _) fun _ => ih _ _
    · exact ih _ _

theorem frame_collect0 (h : E.Lawful) (fuel : Nat) (i : Index T) (o : Nat) (r : List (Option (T.Key × V))) :
    Frame cx (collect0 cx.sec fuel i o r) := by
  induction fuel generalizing i o r with
  | zero => exact Frame.throw _
  | succ fuel ih =>
    unfold collect0
    split
    · exact Frame.pure _
    · cases i with
      | branch b =>
        simp only
        split
        · exact Frame.pure _
        · exact Frame.bind (frame_loadBranchCached h _) fun _ => frame_collect0Loop ih _ _ _
      | leaf l =>
        simp only
        split
        · exact Frame.pure _
        · exact Frame.bind (frame_loadLeafM _ _) fun _ => Frame.bind (Frame.lift _) fun _ => Frame.pure _

theorem frame_roots0Loop {rec : Index T → Int → List (Index T) → M E (Int × List (Index T))}
    (hf : ∀ i o r, Frame cx (rec i o r)) (cs : List (Index T)) (o : Int) (r : List (Index T)) :
    Frame cx (roots0Loop rec cs o r) := by
  induction cs generalizing o r with
  | nil => exact Frame.pure _
  | cons c cs ih => exact Frame.bind (hf _ _ _) fun _ => ih _ _

theorem frame_roots0 (sec : Secrets E) (fuel : Nat) (i : Index T) (o : Int) (r : List (Index T)) :
    Frame cx (roots0 sec fuel i o r) := by
  induction fuel generalizing i o r with
  | zero => exact Frame.throw _
  | succ fuel ih =>
    unfold roots0
    split
    · exact Frame.pure _
    · cases i with
      | leaf l => exact Frame.pure _
      | branch b =>
        simp only
        split
        · exact Frame.pure _
        · exact Frame.bind (frame_loadBranchM _ _) fun _ => frame_roots0Loop ih _ _ _

theorem frame_rootsImpl (sec : Secrets E) (fuel : Nat) (i : Index T) : Frame cx (rootsImpl sec fuel i) :=
  Frame.bind (frame_roots0 _ _ _ _ _) fun _ => Frame.pure _

theorem frame_roots (fuel : Nat) : Frame cx (roots cx fuel) := by
  refine Frame.bind frame_getIndex fun i => ?_
  cases i with
  | none => exact Frame.pure _
  | some i => exact frame_rootsImpl _ _ _

theorem frame_checkInvariantsLoop {rec : Index T → Int → List InvMsg → M E (Int × List InvMsg)}
    (hf : ∀ i o r, Frame cx (rec i o r)) (cs : List (Index T)) (o : Int) (r : List InvMsg) :
    Frame cx (checkInvariantsLoop rec cs o r) := by
  induction cs generalizing o r with
  | nil => exact Frame.pure _
  | cons c cs ih => exact Frame.bind (hf _ _ _) fun _ => ih _ _

theorem frame_isPacked0 (h : E.Lawful) (fuel : Nat) (i : Index T) : Frame cx (isPacked0 cx.sec fuel i) := by
  induction fuel generalizing i with
  | zero => exact Frame.throw _
  | succ fuel ih =>
    unfold isPacked0
    cases i with
    | leaf l => exact Frame.pure _
    | branch b =>
      simp only
      split
      · exact Frame.pure _
      · split
        · exact Frame.pure _
        · refine Frame.bind (frame_loadBranchCached h _) fun _ => ?_
          split
          · exact Frame.pure _
          · exact Frame.bind (ih _) fun _ => Frame.pure _

theorem frame_treeCollectFrom (h : E.Lawful) (fuel : Nat) (s : St E) (o : Nat) :
    Frame cx (Tree.collectFrom fuel (snapshot cx s) o) := by
  unfold snapshot Tree.collectFrom
  cases s.root with
  | none => exact Frame.pure _
  | some r => exact frame_collect0 h _ _ _ _

/-! ### public operations -/

theorem frame0_extend (h : E.Lawful) (fuel : Nat) (xs : List (T.Key × V)) : Frame0 cx (extend cx fuel xs) := by
  unfold extend
  split
  · exact (Frame.pure _).frame0
  · exact Frame0.bind frame_getIndex.frame0 fun _ => Frame0.bind (frame_extendAbove h _ _ _ _).frame0 fun _ =>
      frame0_setIndex _

theorem frame0_extendUnpacked (h : E.Lawful) (fuel : Nat) (xs : List (T.Key × V)) :
    Frame0 cx (extendUnpacked cx fuel xs) :=
  Frame0.bind frame_getIndex.frame0 fun _ => Frame0.bind (frame_extendUnpacked0 h _ _ _).frame0 fun _ =>
    frame0_setIndex _

theorem frame0_treeFromRoots (h : E.Lawful) (rs : List (Index T)) : Frame0 cx (treeFromRoots cx rs) :=
  Frame0.bind (Frame.assert _ _).frame0 fun _ => Frame0.bind (Frame.assert _ _).frame0 fun _ =>
    Frame0.bind (frame_treeFromRootsLoop h _ _).frame0 fun _ => frame0_setIndex _

theorem frame0_pack (h : E.Lawful) (fuel : Nat) : Frame0 cx (pack cx fuel) := by
  intro s
  have : pack cx fuel s = (roots cx fuel >>= fun rs => treeFromRoots cx rs >>= fun _ => getIndex >>= fun root =>
    Tree.collectFrom fuel (snapshot cx s) (rootCount root) >>= fun items =>
      match sequenceOpt items with
      | none => throw (.fail "found purged data")
      | some remainder => extend cx (fuel + rootLevel root) remainder) s := rfl
  unfold endState
  rw [this]
  refine Frame0.bind (frame_roots _).frame0 (fun _ => Frame0.bind (frame0_treeFromRoots h _) fun _ =>
    Frame0.bind frame_getIndex.frame0 fun _ => Frame0.bind (frame_treeCollectFrom h _ _ _).frame0 fun items => ?_) s
  cases sequenceOpt items with
  | none => exact (Frame.throw _).frame0
  | some r => exact frame0_extend h _ _

theorem frame0_retain (h : E.Lawful) (fuel : Nat) (q : Query T) : Frame0 cx (retain cx fuel q) := by
  refine Frame0.bind frame_getIndex.frame0 fun i => ?_
  cases i with
  | none => exact (Frame.pure _).frame0
  | some i => exact Frame0.bind (frame_retain0 h _ _ _ _ _).frame0 fun _ => frame0_setIndex _

theorem frame0_repair (h : E.Lawful) (fuel : Nat) : Frame0 cx (repair cx fuel) := by
  refine Frame0.bind frame_getIndex.frame0 fun i => ?_
  cases i with
  | none => exact (Frame.pure _).frame0
  | some i => exact Frame0.bind (frame_repair0 h _ _ _ _).frame0 fun _ => Frame0.bind (frame0_setIndex _) fun _ => (Frame.pure _).frame0

theorem frame0_transaction {body : M E Bool} (h : Frame0 cx body) : Frame0 cx (transaction body) := by
  intro s
  have h1 := h s
  unfold endState transaction at *
  cases hb : body s with
  | ok b s' =>
    rw [hb] at h1
    cases b with
    | true => exact h1
    | false => exact ⟨h1.1.trans (Ext0.setRoot _ _), h1.2.trans (.refl rfl) (StoreLe.refl _)⟩
  | error e s' =>
    rw [hb] at h1
    exact ⟨h1.1.trans (Ext0.setRoot _ _), h1.2.trans (.refl rfl) (StoreLe.refl _)⟩

end Banyan
