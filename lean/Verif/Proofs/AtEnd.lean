import Verif.Proofs.ExtendRoot
/-
The block of the root is the last block an appending operation writes.
-/
set_option autoImplicit false
namespace Banyan

variable {T : TreeTypes} {V : Type} {E : Env T V} {cx : Ctx E} {α β : Type}

/-- The block at `l` ends where the key stream has been used up to. -/
def AtEnd (s : St E) (l : T.Link) : Prop :=
  ∃ o links d, E.get s.store l = .ok (E.encNode (o, links, d)) ∧ o + d.length = s.offset

/-- The block of the node is the last one written. -/
def LastWritten (s : St E) (i : Index T) : Prop := ∃ l, i.link = some l ∧ AtEnd s l

/-- If `m` succeeds in `s`, its result satisfies `Q`. -/
def OkPost (m : M E α) (s : St E) (Q : α → St E → Prop) : Prop := ∀ a s', m s = .ok a s' → Q a s'

theorem OkPost.pure {a : α} {s : St E} {Q : α → St E → Prop} (h : Q a s) : OkPost (Pure.pure a : M E α) s Q := by
  intro b s' hb
  cases hb
  exact h

theorem OkPost.throw {e : Err} {s : St E} {Q : α → St E → Prop} : OkPost (MonadExcept.throw e : M E α) s Q := by
  intro b s' hb
  cases hb

theorem OkPost.bind {m : M E α} {f : α → M E β} {s : St E} {P : α → St E → Prop} {Q : β → St E → Prop}
    (hm : OkPost m s P) (hf : ∀ a s', P a s' → OkPost (f a) s' Q) : OkPost (m >>= f) s Q := by
  intro b s' hb
  rw [bind_apply] at hb
  cases hms : m s with
  | ok a s1 => rw [hms] at hb; exact hf a s1 (hm a s1 hms) b s' hb
  | error e s1 => rw [hms] at hb; cases hb

theorem OkPost.any {m : M E α} {s : St E} : OkPost m s (fun _ _ => True) := fun _ _ _ => trivial

theorem OkPost.assertBind {b : Bool} {msg : String} {f : Unit → M E β} {s : St E} {Q : β → St E → Prop}
    (hf : b = true → OkPost (f ()) s Q) : OkPost (M.assert b msg >>= f) s Q := by
  cases b with
  | true => exact hf rfl
  | false => intro a s' h; cases h

theorem OkPost.ensureBind {b : Bool} {msg : String} {f : Unit → M E β} {s : St E} {Q : β → St E → Prop}
    (hf : b = true → OkPost (f ()) s Q) : OkPost (M.ensure b msg >>= f) s Q := by
  cases b with
  | true => exact hf rfl
  | false => intro a s' h; cases h

theorem OkPost.liftBind {x : Except Err α} {f : α → M E β} {s : St E} {Q : β → St E → Prop}
    (hf : ∀ a, x = .ok a → OkPost (f a) s Q) : OkPost (M.lift x >>= f) s Q := by
  cases x with
  | ok a => exact hf a rfl
  | error e => intro a s' h; cases h

/-- Reserving, encrypting and storing a block. -/
theorem OkPost.encryptPut (h : E.Lawful) {s : St E} {Q : β → St E → Prop} (z : ZSeq) (key : E.CKey)
    (f : Bytes → T.Link → M E β) (hf : ∀ b l s', AtEnd s' l → OkPost (f b l) s' Q) :
    OkPost (intoEncrypted z key >>= fun b => putBlock b >>= f b) s Q := by
  intro a s' hm
  have hb := bind_apply (intoEncrypted z key) (fun b => putBlock b >>= f b) s
  rw [hb] at hm
  by_cases ho : s.offset + z.data.length < 2 ^ 64
  · have hi : intoEncrypted z key s = .ok (E.encNode (s.offset, z.links, applyKeystream E key s.offset z.data))
        { s with offset := s.offset + z.data.length } := by
      unfold intoEncrypted
      have : reserve z.data.length s = .ok s.offset { s with offset := s.offset + z.data.length } := by
        unfold reserve; simp [ho]
      rw [bind_apply, this]
      rfl
    rw [hi] at hm
    simp only at hm
    rw [bind_apply] at hm
    generalize hb : E.encNode (s.offset, z.links, applyKeystream E key s.offset z.data) = blk at hm
    cases hp : E.put s.store blk with
    | mk r st =>
      cases r with
      | ok l =>
        simp [putBlock, hp] at hm
        refine hf blk l _ ?_ a s' hm
        refine ⟨s.offset, z.links, applyKeystream E key s.offset z.data, ?_, ?_⟩
        · have := h.put_ok s.store blk l (by rw [hp])
          rw [hp] at this
          rw [hb]
          exact this
        · simp [applyKeystream_length]
      | error m => simp [putBlock, hp] at hm
  · have hi : intoEncrypted z key s = .error .offsets s := by
      unfold intoEncrypted
      have : reserve z.data.length s = .error .offsets s := by unfold reserve; simp [ho]
      rw [bind_apply, this]
    rw [hi] at hm
    cases hm

theorem extendLeaf_last (h : E.Lawful) (compressed : Bytes) (keys : Option T.KeySeq) (from_ : List (T.Key × V)) (s : St E) :
    OkPost (extendLeaf cx compressed keys from_) s (fun r s' => LastWritten s' (.leaf r.1)) := by
  unfold extendLeaf
  refine OkPost.assertBind fun _ => OkPost.liftBind fun a _ => ?_
  obtain ⟨data, isSealed, keys, from_⟩ := a
  refine OkPost.encryptPut h data cx.sec.valueKey (fun _ link => Pure.pure ((⟨isSealed, some link, T.keys.ofList keys, data.data.length⟩ : LeafIndex T), from_)) ?_
  intro b l s' hl
  exact OkPost.pure ⟨l, rfl, hl⟩

theorem leafFromIter_last (h : E.Lawful) (from_ : List (T.Key × V)) (s : St E) :
    OkPost (leafFromIter cx from_) s (fun r s' => LastWritten s' (.leaf r.1)) :=
  OkPost.assertBind fun _ => extendLeaf_last h _ _ _ _

theorem persistBranch_last (h : E.Lawful) (items : List (Index T)) (s : St E) :
    OkPost (persistBranch cx items) s (fun r s' => AtEnd s' r.1) := by
  unfold persistBranch serializeCompressed
  refine OkPost.bind OkPost.any fun _ s1 _ => ?_
  rw [bind_assoc]
  refine OkPost.liftBind fun z _ => ?_
  exact OkPost.encryptPut h z cx.sec.indexKey (fun b link => Pure.pure (link, b.length)) fun b l s' hl => OkPost.pure hl

theorem newBranch_last (h : E.Lawful) (children : List (Index T)) (mode : CreateMode) (s : St E) :
    OkPost (newBranch cx children mode) s (fun r s' => LastWritten s' (.branch r)) := by
  unfold newBranch
  refine OkPost.assertBind fun _ => OkPost.assertBind fun _ => ?_
  cases maxLevel children with
  | none => exact OkPost.throw
  | some m =>
    refine OkPost.bind (persistBranch_last h children s) fun r s' hr => ?_
    exact OkPost.pure ⟨_, rfl, hr⟩

theorem extendBranch_last (h : E.Lawful) (children : List (Index T)) (level : Nat) (from_ : List (T.Key × V))
    (mode : CreateMode) (s : St E) :
    OkPost (extendBranch cx children level from_ mode) s (fun r s' => LastWritten s' (.branch r.1)) := by
  unfold extendBranch
  cases level with
  | zero => exact OkPost.throw
  | succ l =>
    unfold extendBranchWith
    refine OkPost.assertBind fun _ => OkPost.assertBind fun _ => OkPost.bind OkPost.any fun _ s1 _ => ?_
    refine OkPost.bind (newBranch_last h _ _ s1) fun r s' hr => OkPost.assertBind fun _ => OkPost.pure hr

/-- Either the block of the result is the last one written, or the index is as before. -/
def LastOr (i : Index T) (r : Index T × List (T.Key × V)) (s' : St E) : Prop := LastWritten s' r.1 ∨ r.1 = i

theorem extendAboveLoop_last (h : E.Lawful) (level fuel : Nat) (node : Index T) (from_ : List (T.Key × V)) (s : St E)
    (Q : Index T → Prop) (hs : LastWritten s node ∨ Q node) :
    OkPost (extendAboveLoop cx level fuel node from_) s (fun r s' => LastWritten s' r.1 ∨ Q r.1) := by
  induction fuel generalizing node from_ s with
  | zero =>
    unfold extendAboveLoop
    split
    · exact OkPost.throw
    · exact OkPost.pure hs
  | succ fuel ih =>
    unfold extendAboveLoop
    split
    · exact OkPost.bind (extendBranch_last h _ _ _ _ s) fun r s' hr => ih _ _ _ (.inl hr)
    · exact OkPost.pure hs

theorem extend0_last (h : E.Lawful) (fuel : Nat) (index : Index T) (from_ : List (T.Key × V)) (s : St E) :
    OkPost (extend0 cx fuel index from_) s (LastOr index) := by
  unfold extend0
  cases fuel with
  | zero => exact OkPost.throw
  | succ fuel =>
    simp only
    split
    · exact OkPost.pure (.inr rfl)
    · cases index with
      | leaf l =>
        simp only
        cases hl : l.link with
        | none => exact OkPost.pure (.inr rfl)
        | some link =>
          refine OkPost.bind OkPost.any fun _ s1 _ => ?_
          exact OkPost.bind (extendLeaf_last h _ _ _ s1) fun r s' hr => OkPost.pure (.inl hr)
      | branch b =>
        simp only
        cases hl : b.link with
        | none => exact OkPost.pure (.inr rfl)
        | some link =>
          refine OkPost.bind OkPost.any fun _ s1 _ => OkPost.bind OkPost.any fun _ s2 _ => ?_
          exact OkPost.bind (extendBranch_last h _ _ _ _ s2) fun r s' hr => OkPost.pure (.inl hr)

theorem extendAbove_last (h : E.Lawful) (fuel : Nat) (node : Option (Index T)) (level : Nat) (from_ : List (T.Key × V))
    (s : St E) :
    OkPost (extendAbove cx fuel node level from_) s (fun r s' => LastWritten s' r.1 ∨ node = some r.1) := by
  unfold extendAbove extendAboveWith
  refine OkPost.ensureBind fun _ => OkPost.assertBind fun _ => ?_
  refine OkPost.bind (P := fun r s' => LastWritten s' r.1 ∨ node = some r.1) ?_ fun r s' hr => ?_
  · unfold extendStart
    cases node with
    | some n =>
      intro a s' ha
      rcases extend0_last h fuel n from_ s a s' ha with h1 | h1
      · exact .inl h1
      · exact .inr (by rw [h1])
    | none =>
      exact OkPost.bind (leafFromIter_last h from_ s) fun r s' hr => OkPost.pure (.inl hr)
  · refine OkPost.bind (extendAboveLoop_last h _ _ _ _ s' (fun x => node = some x) hr) fun r2 s2 hr2 => ?_
    exact OkPost.assertBind fun _ => OkPost.pure hr2

/-- After a successful append of at least one element the block of the root is the last block written. -/
theorem extend_last (h : E.Lawful) {fuel : Nat} {from_ : List (T.Key × V)} {s s' : St E} (hne : from_ ≠ [])
    (he : extend cx fuel from_ s = .ok () s') :
    ∃ i, s'.root = some i ∧ (LastWritten s' i ∨ s'.root = s.root) := by
  have : OkPost (extend cx fuel from_) s (fun _ s' => ∃ i, s'.root = some i ∧ (LastWritten s' i ∨ s'.root = s.root)) := by
    unfold extend
    rw [if_neg (by simpa using hne)]
    refine OkPost.bind (P := fun i s1 => i = s.root ∧ s1 = s) ?_ ?_
    · intro a s1 ha
      cases ha
      exact ⟨rfl, rfl⟩
    · rintro i s1 ⟨rfl, rfl⟩
      refine OkPost.bind (extendAbove_last h _ _ _ _ _) fun r s2 hr => ?_
      intro a s3 h3
      cases h3
      refine ⟨r.1, rfl, ?_⟩
      rcases hr with hr | hr
      · exact .inl hr
      · exact .inr hr.symm
  exact this () s' he

theorem extendUnpacked_last (h : E.Lawful) {fuel : Nat} {from_ : List (T.Key × V)} {s s' : St E} (hne : from_ ≠ [])
    (he : extendUnpacked cx fuel from_ s = .ok () s') : ∃ i, s'.root = some i ∧ LastWritten s' i := by
  have : OkPost (extendUnpacked cx fuel from_) s (fun _ s' => ∃ i, s'.root = some i ∧ LastWritten s' i) := by
    unfold extendUnpacked
    refine OkPost.bind OkPost.any fun i s1 _ => ?_
    refine OkPost.bind (P := fun r s2 => ∃ i, r = some i ∧ LastWritten s2 i) ?_ ?_
    · unfold extendUnpacked0
      rw [if_neg (by simpa using hne)]
      refine OkPost.bind (extendAbove_last h _ _ _ _ _) fun r s2 hr => ?_
      cases i with
      | none =>
        rcases hr with hr | hr
        · exact OkPost.pure ⟨_, rfl, hr⟩
        · cases hr
      | some a =>
        exact OkPost.bind (extendBranch_last h _ _ _ _ s2) fun r s' hr => OkPost.pure ⟨_, rfl, hr⟩
    · rintro r s2 ⟨i, rfl, hr⟩
      intro a s3 h3
      cases h3
      exact ⟨i, rfl, hr⟩
  exact this () s' he

end Banyan
