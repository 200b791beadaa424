import Verif.Proofs.AtEnd
/-
Appending with `max_leaf_count = 0`: no element is ever taken from the iterator.
-/
set_option autoImplicit false
namespace Banyan

variable {T : TreeTypes} {V : Type} {E : Env T V} {cx : Ctx E} {α β : Type}

/-- Nothing has been taken from the iterator, and at least `n` blocks have been written. -/
def Stuck (n : Nat) (s : St E) (from_ : List (T.Key × V)) (r : α × List (T.Key × V)) (s' : St E) : Prop :=
  r.2 = from_ ∧ s.puts.length + n ≤ s'.puts.length

theorem fill_stuck {compressed : Bytes} {from_ : List (T.Key × V)} {keys : List T.Key} {zl : Int} {cs us : Nat}
    {r : ZSeq × Bool × List T.Key × List (T.Key × V)} (h : fill E compressed from_ keys zl cs us 0 = .ok r) : r.2.2.2 = from_ := by
  unfold fill at h
  split at h
  · cases h
  · rename_i size ws links _
    cases from_ with
    | nil => simp only [fillLoop] at h; cases h; rfl
    | cons x rest =>
      obtain ⟨k, v⟩ := x
      simp only [fillLoop, ge_iff_le, Nat.zero_le, if_true] at h
      cases h; rfl

theorem intoEncrypted_puts (z : ZSeq) (key : E.CKey) (s : St E) : OkPost (intoEncrypted z key) s (fun _ s' => s'.puts = s.puts) := by
  intro b s' h
  unfold intoEncrypted at h
  rw [bind_apply] at h
  by_cases ho : s.offset + z.data.length < 2 ^ 64
  · have : reserve z.data.length s = .ok s.offset { s with offset := s.offset + z.data.length } := by unfold reserve; simp [ho]
    rw [this] at h
    cases h
    rfl
  · have : reserve z.data.length s = .error .offsets s := by unfold reserve; simp [ho]
    rw [this] at h
    cases h

theorem putBlock_puts (b : Bytes) (s : St E) : OkPost (putBlock b) s (fun _ s' => s'.puts.length = s.puts.length + 1) := by
  intro l s' h
  unfold putBlock at h
  split at h
  · cases h; simp
  · cases h

theorem extendLeaf_stuck (h0 : cx.cfg.maxLeafCount = 0) (compressed : Bytes) (keys : Option T.KeySeq) (from_ : List (T.Key × V))
    (s : St E) : OkPost (extendLeaf cx compressed keys from_) s (Stuck 0 s from_) := by
  unfold extendLeaf
  refine OkPost.assertBind fun _ => OkPost.liftBind fun a ha => ?_
  rw [h0] at ha
  have hf := fill_stuck ha
  obtain ⟨data, isSealed, keys, rest⟩ := a
  refine OkPost.bind (intoEncrypted_puts _ _ _) fun b s1 h1 => OkPost.bind (putBlock_puts _ _) fun l s2 h2 => OkPost.pure ⟨hf, ?_⟩
  rw [h1] at h2
  omega

theorem leafFromIter_stuck (h0 : cx.cfg.maxLeafCount = 0) (from_ : List (T.Key × V)) (s : St E) :
    OkPost (leafFromIter cx from_) s (Stuck 0 s from_) :=
  OkPost.assertBind fun _ => extendLeaf_stuck h0 _ _ _ _

theorem newBranch_puts (children : List (Index T)) (mode : CreateMode) (s : St E) :
    OkPost (newBranch cx children mode) s (fun _ s' => s.puts.length + 1 ≤ s'.puts.length) := by
  unfold newBranch
  refine OkPost.assertBind fun _ => OkPost.assertBind fun _ => ?_
  split
  · exact OkPost.throw
  · refine OkPost.bind (P := fun _ s' => s.puts.length + 1 ≤ s'.puts.length) ?_ fun _ _ h => OkPost.pure h
    unfold persistBranch serializeCompressed
    refine OkPost.bind (P := fun _ s' => s'.puts = s.puts) (fun _ _ h => by cases h; rfl) fun _ s1 h1 => ?_
    rw [bind_assoc]
    refine OkPost.liftBind fun z _ => ?_
    refine OkPost.bind (intoEncrypted_puts _ _ _) fun b s2 h2 => OkPost.bind (putBlock_puts _ _) fun l s3 h3 => OkPost.pure ?_
    rw [h2, h1] at h3
    omega

theorem extendBranchLoop_stuck {fillChild : List (T.Key × V) → M E (Index T × List (T.Key × V))}
    (hfc : ∀ from_ s, OkPost (fillChild from_) s (Stuck 0 s from_)) (n : Nat) (children : List (Index T))
    (from_ : List (T.Key × V)) (s : St E) : OkPost (extendBranchLoop fillChild n children from_) s (Stuck 0 s from_) := by
  induction n generalizing children s with
  | zero => exact OkPost.pure ⟨rfl, Nat.le_refl _⟩
  | succ n ih =>
    unfold extendBranchLoop
    split
    · exact OkPost.pure ⟨rfl, Nat.le_refl _⟩
    · refine OkPost.bind (hfc from_ s) fun a s1 h1 => ?_
      obtain ⟨child, rest⟩ := a
      have : rest = from_ := h1.1
      subst this
      intro r s' hr
      exact ⟨(ih _ _ r s' hr).1, by have := (ih _ _ r s' hr).2; have := h1.2; omega⟩

theorem extendBranchWith_stuck {fillChild : List (T.Key × V) → M E (Index T × List (T.Key × V))}
    (hfc : ∀ from_ s, OkPost (fillChild from_) s (Stuck 0 s from_)) (children : List (Index T)) (level : Nat)
    (from_ : List (T.Key × V)) (mode : CreateMode) (s : St E) (hne : from_ ≠ []) :
    OkPost (extendBranchWith cx fillChild children level from_ mode) s (fun r s' => Stuck 1 s from_ r s' ∧ r.1.level = level) := by
  unfold extendBranchWith
  refine OkPost.assertBind fun _ => OkPost.assertBind fun _ => ?_
  refine OkPost.bind (extendBranchLoop_stuck hfc _ _ _ _) fun a s1 h1 => ?_
  obtain ⟨children, rest⟩ := a
  have : rest = from_ := h1.1
  subst this
  refine OkPost.bind (newBranch_puts _ _ _) fun b s2 h2 => OkPost.assertBind fun hl => OkPost.pure ⟨⟨rfl, ?_⟩, ?_⟩
  · have := h1.2; omega
  · have he : rest.isEmpty = false := by cases rest with
      | nil => exact absurd rfl hne
      | cons => rfl
    simp only [he, Bool.not_false, if_true, Bool.and_eq_true, beq_iff_eq] at hl
    exact hl.1

theorem fillNode_stuck (h0 : cx.cfg.maxLeafCount = 0) (level : Nat) (from_ : List (T.Key × V)) (s : St E) :
    OkPost (fillNode cx level from_) s (Stuck 0 s from_) := by
  induction level generalizing from_ s with
  | zero =>
    unfold fillNode
    refine OkPost.assertBind fun _ => OkPost.bind (leafFromIter_stuck h0 _ _) fun a s1 h1 => OkPost.pure h1
  | succ level ih =>
    unfold fillNode
    refine OkPost.assertBind fun hne => ?_
    have hne : from_ ≠ [] := by intro h; subst h; simp at hne
    refine OkPost.bind (extendBranchWith_stuck ih _ _ _ _ _ hne) fun a s1 h1 => OkPost.pure ⟨h1.1.1, ?_⟩
    have := h1.1.2; omega

theorem extendBranch_stuck (h0 : cx.cfg.maxLeafCount = 0) (children : List (Index T)) (level : Nat)
    (from_ : List (T.Key × V)) (mode : CreateMode) (s : St E) (hne : from_ ≠ []) :
    OkPost (extendBranch cx children level from_ mode) s (fun r s' => Stuck 1 s from_ r s' ∧ r.1.level = level) := by
  unfold extendBranch
  split
  · exact OkPost.throw
  · exact extendBranchWith_stuck (fillNode_stuck h0 _) _ _ _ _ _ hne

theorem extendAboveLoop_stuck (h0 : cx.cfg.maxLeafCount = 0) (level fuel : Nat) (node : Index T)
    (from_ : List (T.Key × V)) (s : St E) (hne : from_ ≠ []) :
    OkPost (extendAboveLoop cx level fuel node from_) s (Stuck (level - node.level) s from_) := by
  induction fuel generalizing node s with
  | zero =>
    unfold extendAboveLoop
    split
    · exact OkPost.throw
    · rename_i hc
      refine OkPost.pure ⟨rfl, ?_⟩
      have : from_.isEmpty = false := by cases from_ with
        | nil => exact absurd rfl hne
        | cons => rfl
      simp only [this, Bool.not_false, Bool.true_or, Bool.true_and, decide_eq_true_eq, Nat.not_lt] at hc
      omega
  | succ fuel ih =>
    unfold extendAboveLoop
    split
    · refine OkPost.bind (extendBranch_stuck h0 _ _ _ _ _ hne) fun a s1 h1 => ?_
      obtain ⟨b, rest⟩ := a
      have : rest = from_ := h1.1.1
      subst this
      have hl : b.level = node.level + 1 := h1.2
      intro r s' hr
      have := ih _ _ r s' hr
      refine ⟨this.1, ?_⟩
      have h2 := this.2
      have h3 := h1.1.2
      rw [show (Index.branch b).level = node.level + 1 from hl] at h2
      omega
    · rename_i hc
      refine OkPost.pure ⟨rfl, ?_⟩
      have : from_.isEmpty = false := by cases from_ with
        | nil => exact absurd rfl hne
        | cons => rfl
      simp only [this, Bool.not_false, Bool.true_or, Bool.true_and, decide_eq_true_eq, Nat.not_lt] at hc
      omega

theorem extendAboveWith_stuck (h0 : cx.cfg.maxLeafCount = 0)
    {ext0 : Index T → List (T.Key × V) → M E (Index T × List (T.Key × V))}
    (he : ∀ n from_ s, OkPost (ext0 n from_) s (Stuck 0 s from_))
    (node : Option (Index T)) (level : Nat) (from_ : List (T.Key × V)) (s : St E) :
    OkPost (extendAboveWith cx ext0 node level from_) s (fun r s' => Stuck 0 s from_ r s' ∧ r.1.level = level ∧
      (node = none → s.puts.length + level ≤ s'.puts.length)) := by
  unfold extendAboveWith
  refine OkPost.ensureBind fun hne => OkPost.assertBind fun _ => ?_
  have hne' : from_ ≠ [] := by intro h; subst h; simp at hne
  have hs : OkPost (extendStart cx ext0 node from_) s (fun r s' => Stuck 0 s from_ r s' ∧ (node = none → r.1.level = 0)) := by
    unfold extendStart
    split
    · intro r s' h; exact ⟨he _ _ _ r s' h, by simp⟩
    · refine OkPost.bind (leafFromIter_stuck h0 _ _) fun a s1 h1 => OkPost.pure ⟨h1, fun _ => rfl⟩
  refine OkPost.bind hs fun a s1 h1 => ?_
  obtain ⟨n1, rest⟩ := a
  have : rest = from_ := h1.1.1
  subst this
  refine OkPost.bind (extendAboveLoop_stuck h0 _ _ _ _ _ hne') fun a s2 h2 => ?_
  obtain ⟨n2, rest2⟩ := a
  have : rest2 = rest := h2.1
  subst this
  refine OkPost.assertBind fun hl => OkPost.pure ⟨⟨rfl, ?_⟩, ?_, ?_⟩
  · have := h1.1.2; have := h2.2; omega
  · rw [hne] at hl
    simp only [if_true, Bool.and_eq_true, beq_iff_eq] at hl
    exact hl.1
  · intro hn
    have h3 := h1.2 hn
    have h4 := h2.2
    have h5 := h1.1.2
    simp only at h3
    rw [h3] at h4
    omega

theorem extend0_stuck (h0 : cx.cfg.maxLeafCount = 0) (fuel : Nat) (index : Index T) (from_ : List (T.Key × V)) (s : St E) :
    OkPost (extend0 cx fuel index from_) s (Stuck 0 s from_) := by
  induction fuel generalizing index from_ s with
  | zero => exact OkPost.throw
  | succ fuel ih =>
    unfold extend0
    split
    · exact OkPost.pure ⟨rfl, Nat.le_refl _⟩
    · rename_i hc
      have hne : from_ ≠ [] := by intro h; subst h; simp at hc
      split
      · split
        · exact OkPost.pure ⟨rfl, Nat.le_refl _⟩
        · refine OkPost.bind (P := fun _ s' => s'.puts = s.puts) ?_ fun leaf s1 h1 => ?_
          · intro a s' h
            unfold loadLeafM at h
            split at h
            · cases h
            · cases h; rfl
          · refine OkPost.bind (extendLeaf_stuck h0 _ _ _ _) fun a s2 h2 => OkPost.pure ?_
            exact ⟨h2.1, by rw [← h1]; exact h2.2⟩
      · rename_i b
        split
        · exact OkPost.pure ⟨rfl, Nat.le_refl _⟩
        · refine OkPost.bind (P := fun _ s' => s'.puts = s.puts) ?_ fun br s1 h1 => ?_
          · intro a s' h
            unfold loadBranchCached at h
            split at h
            · cases h; rfl
            · split at h
              · cases h
              · cases h; rfl
          · refine OkPost.bind (P := Stuck 0 s1 from_) ?_ fun a s2 h2 => ?_
            · unfold extendLast
              split
              · exact OkPost.pure ⟨rfl, Nat.le_refl _⟩
              · refine OkPost.bind (extendAboveWith_stuck h0 (fun n f s => ih n f s) _ _ _ _) fun a s2 h2 => OkPost.pure h2.1
            · obtain ⟨children, rest⟩ := a
              have : rest = from_ := h2.1
              subst this
              refine OkPost.bind (extendBranch_stuck h0 _ _ _ _ _ hne) fun a s3 h3 => OkPost.pure ⟨h3.1.1, ?_⟩
              have := h2.2; have := h3.1.2
              rw [h1] at *
              omega

/-- Appending either fails or ends with a tree of level `u32::MAX`; if the tree was
empty, this takes at least `u32::MAX` blocks. -/
theorem extend_stuck (h0 : cx.cfg.maxLeafCount = 0) (fuel : Nat) (xs : List (T.Key × V)) (hne : xs ≠ [])
    {s s' : St E} (he : extend cx fuel xs s = .ok () s') :
    rootLevel s'.root = u32max ∧ (s.root = none → s.puts.length + u32max ≤ s'.puts.length) := by
  unfold extend at he
  have hemp : xs.isEmpty = false := by cases xs with
    | nil => exact absurd rfl hne
    | cons => rfl
  rw [hemp] at he
  simp only [Bool.false_eq_true, if_false] at he
  revert he
  suffices h : OkPost _ s (fun (_ : Unit) s' => rootLevel s'.root = u32max ∧ (s.root = none → s.puts.length + u32max ≤ s'.puts.length)) from
    fun he => h _ _ he
  refine OkPost.bind (P := fun r s1 => r = s.root ∧ s1 = s) (fun a s1 h => by cases h; exact ⟨rfl, rfl⟩) fun index s1 h1 => ?_
  obtain ⟨rfl, rfl⟩ := h1
  refine OkPost.bind (extendAboveWith_stuck h0 (extend0_stuck h0 fuel) _ _ _ _) fun a s2 h2 => ?_
  intro u s3 h3
  cases h3
  exact ⟨h2.2.1, h2.2.2⟩

theorem extendUnpacked_stuck (h0 : cx.cfg.maxLeafCount = 0) (fuel : Nat) (xs : List (T.Key × V)) (hne : xs ≠ [])
    {s s' : St E} (he : extendUnpacked cx fuel xs s = .ok () s') : s.puts.length + u32max ≤ s'.puts.length := by
  unfold extendUnpacked extendUnpacked0 at he
  have hemp : xs.isEmpty = false := by cases xs with
    | nil => exact absurd rfl hne
    | cons => rfl
  simp only [hemp, Bool.false_eq_true, if_false] at he
  revert he
  suffices h : OkPost _ s (fun (_ : Unit) s' => s.puts.length + u32max ≤ s'.puts.length) from fun he => h _ _ he
  refine OkPost.bind (P := fun r s1 => r = s.root ∧ s1 = s) (fun a s1 h => by cases h; exact ⟨rfl, rfl⟩) fun index s1 h1 => ?_
  obtain ⟨rfl, rfl⟩ := h1
  refine OkPost.bind (P := fun _ s' => s1.puts.length + u32max ≤ s'.puts.length) ?_ fun a s2 h2 => ?_
  · refine OkPost.bind (extendAboveWith_stuck h0 (extend0_stuck h0 fuel) _ _ _ _) fun a s2 h2 => ?_
    obtain ⟨b, rest⟩ := a
    have hrest : rest = xs := h2.1.1
    subst hrest
    split
    · refine OkPost.bind (extendBranch_stuck h0 _ _ _ _ _ hne) fun a s3 h3 => OkPost.pure ?_
      have := h2.2.2 rfl
      have := h3.1.2
      omega
    · exact OkPost.pure (h2.2.2 rfl)
  · intro u s3 h3
    cases h3
    exact h2

end Banyan
