import Verif.Proofs.Seq
import Verif.Spec.Frame
/-
Hoare style reasoning about the state and error monad of the model, and the primitive operations.
-/
namespace Banyan

variable {T : TreeTypes} {V : Type} {E : Env T V} {cx : Ctx E} {α β : Type}

/-! ### frame -/

theorem StoreLe.refl (a : E.σ) : StoreLe E a a := fun _ _ h => h
theorem StoreLe.trans {a b c : E.σ} (h1 : StoreLe E a b) (h2 : StoreLe E b c) : StoreLe E a c :=
  fun l x h => h2 l x (h1 l x h)

theorem Chain.le {bs : List Bytes} {lo hi : Nat} (h : Chain E lo bs hi) : lo ≤ hi := by
  induction bs generalizing lo with
  | nil => exact h
  | cons b bs ih =>
    obtain ⟨o, links, d, _, h1, h2⟩ := h
    have := ih h2
    omega

theorem Chain.append {a b : List Bytes} {lo mid hi : Nat} (h1 : Chain E lo a mid) (h2 : Chain E mid b hi) :
    Chain E lo (a ++ b) hi := by
  induction a generalizing lo with
  | nil =>
    cases b with
    | nil => exact Nat.le_trans h1 h2
    | cons x xs =>
      obtain ⟨o, links, d, he, h3, h4⟩ := h2
      exact ⟨o, links, d, he, Nat.le_trans h1 h3, h4⟩
  | cons x xs ih =>
    obtain ⟨o, links, d, he, h3, h4⟩ := h1
    exact ⟨o, links, d, he, h3, ih h4⟩

/-! ### loading -/

theorem getBlock_eq {σ : E.σ} {l : T.Link} {b : Bytes} : getBlock E σ l = .ok b ↔ E.get σ l = .ok b := by
  unfold getBlock failE
  cases E.get σ l <;> simp

theorem loadLeafFromLink_mono {sec : Secrets E} {a b : E.σ} (h : StoreLe E a b) {l : T.Link} {x : Leaf}
    (hx : loadLeafFromLink E sec a l = .ok x) : loadLeafFromLink E sec b l = .ok x := by
  unfold loadLeafFromLink at *
  cases hg : getBlock E a l with
  | error e => rw [hg] at hx; simp at hx
  | ok d =>
    rw [hg] at hx
    rw [getBlock_eq.mpr (h _ _ (getBlock_eq.mp hg))]
    exact hx

theorem loadBranchFromLink_mono {sec : Secrets E} {a b : E.σ} (h : StoreLe E a b) {l : T.Link} {x : Branch T}
    (hx : loadBranchFromLink E sec a l = .ok x) : loadBranchFromLink E sec b l = .ok x := by
  unfold loadBranchFromLink at *
  cases hg : getBlock E a l with
  | error e => rw [hg] at hx; simp at hx
  | ok d =>
    rw [hg] at hx
    rw [getBlock_eq.mpr (h _ _ (getBlock_eq.mp hg))]
    exact hx

theorem loadBranchFromLink_get {sec : Secrets E} {a : E.σ} {l : T.Link} {x : Branch T} (hx : loadBranchFromLink E sec a l = .ok x) :
    ∃ d, E.get a l = .ok d := by
  unfold loadBranchFromLink at hx
  cases hg : getBlock E a l with
  | error e => rw [hg] at hx; simp at hx
  | ok d => exact ⟨d, getBlock_eq.mp hg⟩

/-- A block of the store is the same in a larger store. -/
theorem loadBranchFromLink_same {sec : Secrets E} {a b : E.σ} (h : StoreLe E a b) {l : T.Link} (hx : ∃ d, E.get a l = .ok d) :
    loadBranchFromLink E sec b l = loadBranchFromLink E sec a l := by
  obtain ⟨d, hd⟩ := hx
  unfold loadBranchFromLink
  rw [getBlock_eq.mpr hd, getBlock_eq.mpr (h _ _ hd)]

/-! ### the cache -/

theorem Exact.coherent {sec : Secrets E} {s : St E} (h : Exact E sec s) : Coherent E sec s := by
  intro l b hb
  have := h l b hb
  exact ⟨loadBranchFromLink_get this, fun b' hb' => by rw [this] at hb'; injection hb' with hb'; exact hb'.symm⟩

theorem Coherent.mono {sec : Secrets E} {s s' : St E} (h : StoreLe E s.store s'.store) (hc : s'.cache = s.cache)
    (hs : Coherent E sec s) : Coherent E sec s' := by
  intro l b hb
  rw [hc] at hb
  obtain ⟨⟨d, h1⟩, h2⟩ := hs l b hb
  exact ⟨⟨d, h _ _ h1⟩, fun b' hb' => h2 b' (by rw [← loadBranchFromLink_same h ⟨d, h1⟩]; exact hb')⟩

theorem Exact.mono {sec : Secrets E} {s s' : St E} (h : StoreLe E s.store s'.store) (hc : s'.cache = s.cache)
    (hs : Exact E sec s) : Exact E sec s' := by
  intro l b hb
  rw [hc] at hb
  exact loadBranchFromLink_mono h (hs l b hb)

theorem CacheAdds.refl {sec : Secrets E} {s s' : St E} (h : s'.cache = s.cache) : CacheAdds E sec s s' :=
  fun l b hb => .inl (by rw [h] at hb; exact hb)

theorem CacheAdds.trans {sec : Secrets E} {a b c : St E} (h1 : CacheAdds E sec a b) (h2 : CacheAdds E sec b c)
    (h : StoreLe E b.store c.store) : CacheAdds E sec a c := by
  intro l x hx
  rcases h2 l x hx with hx | hx
  · rcases h1 l x hx with hx | hx
    · exact .inl hx
    · exact .inr (loadBranchFromLink_mono h hx)
  · exact .inr hx

theorem CacheAdds.exact {sec : Secrets E} {s s' : St E} (h1 : CacheAdds E sec s s') (h : StoreLe E s.store s'.store) (hs : Exact E sec s) :
    Exact E sec s' := by
  intro l b hb
  rcases h1 l b hb with hb | hb
  · exact loadBranchFromLink_mono h (hs l b hb)
  · exact hb

theorem CacheAdds.coherent {sec : Secrets E} {s s' : St E} (h1 : CacheAdds E sec s s') (h : StoreLe E s.store s'.store) (hs : Coherent E sec s) :
    Coherent E sec s' := by
  intro l b hb
  rcases h1 l b hb with hb | hb
  · exact Coherent.mono (s := s) (s' := { s' with cache := s.cache }) h rfl hs l b hb
  · exact ⟨loadBranchFromLink_get hb, fun b' hb' => by rw [hb] at hb'; injection hb' with hb'; exact hb'.symm⟩

theorem Ext.coherent {s s' : St E} (h : Ext cx s s') (hs : Coherent E cx.sec s) : Coherent E cx.sec s' := h.cache.coherent h.store hs

/-! ### extensions -/

theorem Ext.refl (s : St E) : Ext cx s s :=
  ⟨StoreLe.refl _, .refl rfl, rfl, ⟨[], by simp, Nat.le_refl _⟩, ⟨[], by simp⟩⟩

theorem Ext.trans {a b c : St E} (h1 : Ext cx a b) (h2 : Ext cx b c) : Ext cx a c := by
  obtain ⟨p1, hp1, hc1⟩ := h1.puts
  obtain ⟨p2, hp2, hc2⟩ := h2.puts
  obtain ⟨w1, hw1⟩ := h1.written
  obtain ⟨w2, hw2⟩ := h2.written
  exact ⟨h1.store.trans h2.store, h1.cache.trans h2.cache h2.store, h2.root.trans h1.root,
    ⟨p1 ++ p2, by simp [hp2, hp1], hc1.append hc2⟩, ⟨w1 ++ w2, by simp [hw2, hw1]⟩⟩

theorem Ext.offset_le {a b : St E} (h : Ext cx a b) : a.offset ≤ b.offset := by
  obtain ⟨_, _, hc⟩ := h.puts
  exact hc.le

theorem Ext.small {a b : St E} (h : Ext cx a b) (hs : Small E b) : Small E a := by
  obtain ⟨w, hw⟩ := h.written
  intro cs hcs
  exact hs cs (by rw [hw]; simp [hcs])

/-! ### frames -/

/-- `m` always ends in an extension of the state it started in. -/
def Frame (cx : Ctx E) (m : M E α) : Prop := ∀ s, Ext cx s (endState m s)

theorem Frame.ok {m : M E α} (h : Frame cx m) {s s' : St E} {a : α} (hm : m s = .ok a s') : Ext cx s s' := by
  have := h s; unfold endState at this; rw [hm] at this; exact this

theorem Frame.err {m : M E α} (h : Frame cx m) {s s' : St E} {e : Err} (hm : m s = .error e s') : Ext cx s s' := by
  have := h s; unfold endState at this; rw [hm] at this; exact this

theorem Frame.intro {m : M E α} (h1 : ∀ s a s', m s = .ok a s' → Ext cx s s')
    (h2 : ∀ s e s', m s = .error e s' → Ext cx s s') : Frame cx m := by
  intro s
  unfold endState
  cases hm : m s with
  | ok a s' => exact h1 s a s' hm
  | error e s' => exact h2 s e s' hm

theorem bind_apply (m : M E α) (f : α → M E β) (s : St E) :
    (m >>= f) s = match m s with
      | .ok a s' => f a s'
      | .error e s' => .error e s' := by
  show EStateM.bind m f s = _
  unfold EStateM.bind
  cases m s <;> rfl

theorem Frame.pure (a : α) : Frame cx (Pure.pure a : M E α) := fun s => Ext.refl s
theorem Frame.throw (e : Err) : Frame cx (MonadExcept.throw e : M E α) := fun s => Ext.refl s
theorem Frame.bind {m : M E α} {f : α → M E β} (hm : Frame cx m) (hf : ∀ a, Frame cx (f a)) :
    Frame cx (m >>= f) := by
  refine Frame.intro ?_ ?_
  · intro s b s' h
    rw [bind_apply] at h
    cases hms : m s with
    | ok a s1 => rw [hms] at h; exact (hm.ok hms).trans ((hf a).ok h)
    | error e s1 => rw [hms] at h; cases h
  · intro s b s' h
    rw [bind_apply] at h
    cases hms : m s with
    | ok a s1 => rw [hms] at h; exact (hm.ok hms).trans ((hf a).err h)
    | error e s1 => rw [hms] at h; cases h; exact hm.err hms

theorem Frame.lift (x : Except Err α) : Frame cx (M.lift x : M E α) := by
  intro s; unfold endState M.lift; cases x <;> exact Ext.refl s
theorem Frame.assert (b : Bool) (msg : String) : Frame cx (M.assert b msg : M E Unit) := by
  intro s; unfold endState M.assert; cases b <;> exact Ext.refl s
theorem Frame.ensure (b : Bool) (msg : String) : Frame cx (M.ensure b msg : M E Unit) := by
  intro s; unfold endState M.ensure; cases b <;> exact Ext.refl s

/-! ### triples -/

/-- `m` started in `s`: if no oversized branch has been written then it ends with a result satisfying `Q` or with an
error satisfying `R`. -/
def Post (m : M E α) (s : St E) (Q : α → St E → Prop) (R : Err → Prop) : Prop :=
  match m s with
  | .ok a s' => Small E s' → Q a s'
  | .error e s' => Small E s' → R e

variable {m : M E α} {s : St E} {Q : α → St E → Prop} {R : Err → Prop}

theorem Post.ok (h : Post m s Q R) {a s'} (hm : m s = .ok a s') : Small E s' → Q a s' := by
  unfold Post at h; rw [hm] at h; exact h

theorem Post.err (h : Post m s Q R) {e s'} (hm : m s = .error e s') : Small E s' → R e := by
  unfold Post at h; rw [hm] at h; exact h

theorem Post.pure {a : α} (h : Small E s → Q a s) : Post (Pure.pure a : M E α) s Q R := h

theorem Post.throw {e : Err} (h : Small E s → R e) : Post (MonadExcept.throw e : M E α) s Q R := h

theorem Post.bind {f : α → M E β} {Q' : β → St E → Prop} (hm : Frame cx m) (hfr : ∀ a, Frame cx (f a))
    (h : Post m s Q R)
    (hf : ∀ a s', Ext cx s s' → Small E s' → Q a s' → Post (f a) s' Q' R) : Post (m >>= f) s Q' R := by
  unfold Post at h ⊢
  rw [bind_apply]
  cases hms : m s with
  | ok a s1 =>
    rw [hms] at h
    simp only
    have hx := hm.ok hms
    cases hfa : f a s1 with
    | ok b s2 =>
      intro hs2
      have hs1 := ((hfr a).ok hfa).small hs2
      have := hf a s1 hx hs1 (h hs1)
      unfold Post at this; rw [hfa] at this; exact this hs2
    | error e s2 =>
      intro hs2
      have hs1 := ((hfr a).err hfa).small hs2
      have := hf a s1 hx hs1 (h hs1)
      unfold Post at this; rw [hfa] at this; exact this hs2
  | error e s1 => rw [hms] at h; exact h

theorem Post.mono {Q' : α → St E → Prop} {R' : Err → Prop} (hm : Frame cx m) (h : Post m s Q R)
    (hq : ∀ a s', Ext cx s s' → Small E s' → Q a s' → Q' a s') (hr : ∀ e, R e → R' e) : Post m s Q' R' := by
  unfold Post at h ⊢
  cases hms : m s with
  | ok a s' => rw [hms] at h; exact fun hs => hq a s' (hm.ok hms) hs (h hs)
  | error e s' => rw [hms] at h; exact fun hs => hr e (h hs)

/-- sequencing after an assertion -/
theorem Post.assertBind {b : Bool} {msg : String} {f : Unit → M E β} {Q' : β → St E → Prop}
    (h : b = true ∨ R (.panic msg)) (hf : b = true → Post (f ()) s Q' R) :
    Post (M.assert b msg >>= f) s Q' R := by
  cases b with
  | true => exact hf rfl
  | false =>
    show Small E s → R (.panic msg)
    exact fun hs => by simpa using h

theorem Post.ensureBind {b : Bool} {msg : String} {f : Unit → M E β} {Q' : β → St E → Prop}
    (h : b = true ∨ R (.fail msg)) (hf : b = true → Post (f ()) s Q' R) :
    Post (M.ensure b msg >>= f) s Q' R := by
  cases b with
  | true => exact hf rfl
  | false =>
    show Small E s → R (.fail msg)
    exact fun hs => by simpa using h

/-- sequencing after a pure fallible computation -/
theorem Post.liftBind {x : Except Err α} {f : α → M E β} {Q' : β → St E → Prop}
    (he : ∀ e, x = .error e → R e) (hf : ∀ a, x = .ok a → Post (f a) s Q' R) :
    Post (M.lift x >>= f) s Q' R := by
  cases x with
  | ok a => exact hf a rfl
  | error e => exact fun _ => he e rfl

end Banyan
