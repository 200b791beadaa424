import Verif.Proofs.RootsSpec
/-
Extending trees.
-/
namespace Banyan

variable {T : TreeTypes} {V : Type} {E : Env T V} {cx : Ctx E} {I : NodeInv cx}

theorem maxBranches_pos (hv : cx.cfg.Valid) (l : Nat) : 1 ≤ cx.cfg.maxBranches l := by
  have := hv.key
  have := hv.summary
  unfold Config.maxBranches
  split <;> omega

theorem pairwise_const {α : Type} (l : List α) (f : α → Nat) (n : Nat) (h : ∀ c ∈ l, f c = n) :
    (l.map f).Pairwise (· ≥ ·) := by
  rw [List.pairwise_map]
  apply List.pairwise_of_forall_mem_list
  intro a ha b hb
  rw [h a ha, h b hb]
  exact Nat.le_refl _

theorem pairwise_const_append {α : Type} (l : List α) (x : α) (f : α → Nat) (n : Nat) (h : ∀ c ∈ l, f c = n)
    (hx : f x ≤ n) : ((l ++ [x]).map f).Pairwise (· ≥ ·) := by
  rw [List.map_append, List.pairwise_append]
  refine ⟨pairwise_const l f n h, by simp, ?_⟩
  intro a ha b hb
  obtain ⟨c, hc, rfl⟩ := List.mem_map.mp ha
  have : b = f x := by simpa using hb
  rw [h c hc, this]; exact hx

/-- The level of a made branch. -/
theorem BranchMade.level {σ : E.σ} {i : BranchIndex T} {cs : List (PTree T V)} (hm : BranchMade cx σ i cs) {l : Nat}
    (h1 : ∀ c ∈ cs, c.index.level < l) (h2 : ∃ c ∈ cs, c.index.level + 1 = l) : i.level = l := by
  obtain ⟨_, _, _, _, _, _, _, _, _, h3, ⟨c, hc, h4⟩, _⟩ := hm
  obtain ⟨c', hc', h5⟩ := h2
  have := h1 c hc
  have := h3 c' hc'
  omega

theorem BranchMade.sealed {σ : E.σ} {i : BranchIndex T} {cs : List (PTree T V)} (hm : BranchMade cx σ i cs) :
    i.isSealed = cx.cfg.branchSealed (cs.map PTree.index) i.level := by
  obtain ⟨_, _, _, _, _, _, _, _, _, _, _, _, _, _, _, h⟩ := hm
  exact h

/-- Making a branch from given children and new ones. -/
theorem extendBranchWith_spec (h : E.Lawful) (hv : cx.cfg.Valid) {vals : V → Prop} {R : Err → Prop}
    (hR : ∀ e, Allowed E cx.cfg vals e → R e) {l : Nat}
    {fillChild : List (T.Key × V) → M E (Index T × List (T.Key × V))} (hfill : FillSpec I vals R l fillChild)
    (hfr : ∀ from_, Frame cx (fillChild from_))
    (cs : List (PTree T V)) (from_ : List (T.Key × V)) (hvals : ∀ kv ∈ from_, vals kv.2) (mode : CreateMode)
    (hlev : ∀ c ∈ cs, c.index.level < l + 1) (hex : cs = [] ∨ ∃ c ∈ cs, c.index.level = l)
    (hne : cs ≠ [] ∨ from_ ≠ [])
    (hunp : mode = .unpacked → from_ = [])
    (hA : mode = .packed → (from_ = [] ∨ ∀ c ∈ cs, c.index.level = l ∧ c.index.isSealed = true) ∨ ∀ m, R (.panic m))
    (hS : mode = .packed → (cs.map fun c => c.index.level).Pairwise (· ≥ ·) ∨ ∀ m, R (.panic m))
    (s : St E) (hgood : ∀ c ∈ cs, Good I s.store c)
    (hlen : cs.length ≤ cx.cfg.maxBranches (l + 1) ∨ ∃ i0 cs0, i0.level = l + 1 ∧ cs0.length = cs.length ∧ I.J s.store (.branch i0 cs0)) :
    Post (extendBranchWith cx fillChild (cs.map PTree.index) (l + 1) from_ mode) s (fun r s' => ∃ new taken,
      BranchMade cx s'.store r.1 (cs ++ new) ∧ r.1.level = l + 1 ∧ Good I s'.store (.branch r.1 (cs ++ new)) ∧
      from_ = taken ++ r.2 ∧ NewChildren I s'.store l new taken r.2 ∧ new.length ≤ taken.length ∧
      (new = [] → taken = []) ∧ (r.2 = [] ∨ r.1.isSealed = true) ∧
      (from_ ≠ [] → cs.length < cx.cfg.maxBranches (l + 1) → new ≠ []) ∧
      (from_ ≠ [] → ∀ c ∈ cs, c.index.level = l ∧ c.index.isSealed = true)) R := by
  unfold extendBranchWith
  refine Post.assertBind (Or.inl (by simpa using hlev)) fun _ => ?_
  refine Post.assertBind ?_ fun has => ?_
  · cases mode with
    | packed =>
      rcases hA rfl with (h1 | h1) | h1
      · subst h1; exact Or.inl (by simp)
      · left
        simp only [if_true, Bool.or_eq_true, List.all_eq_true, List.mem_map]
        right
        rintro x ⟨c, hc, rfl⟩
        have := h1 c hc
        simp [this.1, this.2]
      · exact Or.inr (h1 _)
    | unpacked =>
      left
      rcases hex with h1 | ⟨c, hc, h1⟩
      · subst h1; simp
      · simp only [reduceCtorEq, if_false, Bool.or_eq_true, List.any_eq_true, List.mem_map]
        right
        exact ⟨_, ⟨c, hc, rfl⟩, by simp [h1]⟩
  · -- all given children are closed if something is appended
    have hcl : from_ ≠ [] → ∀ c ∈ cs, c.index.level = l ∧ c.index.isSealed = true := by
      intro hf c hc
      cases mode with
      | packed =>
        simp only [if_true, Bool.or_eq_true, List.all_eq_true, List.mem_map, List.isEmpty_iff] at has
        rcases has with h1 | h1
        · exact absurd h1 hf
        · have := h1 _ ⟨c, hc, rfl⟩
          simp at this
          exact this
      | unpacked => exact absurd (hunp rfl) hf
    simp only
    refine Post.bind (frame_extendBranchLoop hfr _ _ _)
      (fun _ => Frame.bind (frame_newBranch h _ _) fun _ => Frame.bind (Frame.assert _ _) fun _ => Frame.pure _)
      (extendBranchLoop_spec hfill hfr _ cs from_ hvals s) ?_
    rintro ⟨children, rest⟩ s1 hx1 _ ⟨new, taken, hn1, hn2, hn3, hn4, hn5, hn6, hn7⟩
    simp only at hn1 hn2 hn3 hn5 ⊢
    subst hn1
    have hnewne : from_ ≠ [] → cs.length < cx.cfg.maxBranches (l + 1) → new ≠ [] := by
      intro hf hc hnew
      have hr : rest ≠ [] := by
        intro hr
        rw [hn6 hnew, hr] at hn2
        exact hf (by simpa using hn2)
      have := hn5 hr
      simp only [List.length_map] at this
      rw [hnew] at this
      simp at this
      omega
    have hallne : cs ++ new ≠ [] := by
      intro hc
      simp only [List.append_eq_nil_iff] at hc
      rcases hne with h1 | h1
      · exact h1 hc.1
      · have := maxBranches_pos hv (l + 1)
        exact hnewne h1 (by rw [hc.1]; simp; omega) hc.2
    have hnewlen : from_ = [] → new = [] := by
      intro hf
      rw [hf] at hn2
      have : taken = [] := (List.append_eq_nil_iff.mp hn2.symm).1
      rw [this] at hn7
      exact List.eq_nil_of_length_eq_zero (by simpa using hn7)
    have hsort : mode = .packed → ((cs ++ new).map fun c => c.index.level).Pairwise (· ≥ ·) ∨ ∀ m, R (.panic m) := by
      intro hm
      by_cases hf : from_ = []
      · rw [hnewlen hf, List.append_nil]; exact hS hm
      · left
        apply pairwise_const _ _ l
        intro c hc
        rcases List.mem_append.mp hc with hc | hc
        · exact (hcl hf c hc).1
        · exact (hn3.good c hc).2.1
    refine Post.bind (frame_newBranch h _ _) (fun _ => Frame.bind (Frame.assert _ _) fun _ => Frame.pure _)
      (newBranch_spec h hR (cs ++ new) mode hallne hsort s1) ?_
    intro i s2 hx2 _ hmade
    have hlevel : i.level = l + 1 := by
      apply hmade.level
      · intro c hc
        rcases List.mem_append.mp hc with hc | hc
        · exact hlev c hc
        · have := (hn3.good c hc).2.1; omega
      · rcases hex with h1 | ⟨c, hc, h1⟩
        · obtain ⟨c, hc⟩ := List.exists_mem_of_ne_nil _ hallne
          subst h1
          have := (hn3.good c (by simpa using hc)).2.1
          exact ⟨c, hc, by omega⟩
        · exact ⟨c, by simp [hc], by omega⟩
    have hsealed : rest ≠ [] → i.isSealed = true := by
      intro hr
      have hf : from_ ≠ [] := by
        intro hf; rw [hf] at hn2
        exact hr (List.append_eq_nil_iff.mp hn2.symm).2
      rw [hmade.sealed, branchSealed_iff]
      constructor
      · intro x hx
        obtain ⟨c, hc, rfl⟩ := List.mem_map.mp hx
        rcases List.mem_append.mp hc with hc | hc
        · have := hcl hf c hc
          exact ⟨this.2, by omega⟩
        · rcases hn3.last with h1 | h1
          · exact absurd h1 hr
          · have := (hn3.good c hc).2.1
            exact ⟨h1 c hc, by omega⟩
      · have := hn5 hr
        simp only [List.length_map] at this
        rw [hlevel]
        simp only [List.length_map, List.length_append]
        omega
    refine Post.assertBind ?_ fun _ => Post.pure fun _ => ?_
    · left
      by_cases hr : rest = []
      · subst hr; simp [hlevel]
      · have := hsealed hr
        simp [hr, hlevel, this]
    · refine ⟨new, taken, hmade, hlevel, ?_, hn2, ?_, hn7, hn6, ?_, hnewne, hcl⟩
      · refine good_branch h hv hmade ?_ ?_
        · simp only [List.length_map] at hn4
          by_cases hle : cs.length ≤ cx.cfg.maxBranches (l + 1)
          · left
            simp only [List.length_append, hlevel]
            omega
          · right
            obtain ⟨i0, cs0, b1, b2, b3⟩ := hlen.resolve_left hle
            have : new = [] := List.eq_nil_of_length_eq_zero (by omega)
            exact ⟨i0, cs0, by rw [hlevel, b1], by rw [this, List.append_nil, b2], I.mono (hx1.store.trans hx2.store) b3⟩
        · intro c hc
          rcases List.mem_append.mp hc with hc | hc
          · exact (hgood c hc).mono (hx1.store.trans hx2.store)
          · exact (hn3.good c hc).1.mono hx2.store
      · exact ⟨fun c hc => ⟨(hn3.good c hc).1.mono hx2.store, (hn3.good c hc).2⟩, hn3.content, hn3.closed, hn3.last⟩
      · by_cases hr : rest = []
        · exact Or.inl hr
        · exact Or.inr (hsealed hr)

theorem straight_leaf (i : LeafIndex T) (vs : List V) : Straight (.leaf i vs) := by simp [Straight]

theorem straight_branch (i : BranchIndex T) (cs : List (PTree T V)) :
    Straight (.branch i cs) ↔ (∀ c ∈ cs, c.index.level + 1 = i.level) ∧ ∀ c ∈ cs, Straight c := by
  simp [Straight]

/-- A branch with new children is packed. -/
theorem NewChildren.packed {σ : E.σ} {l : Nat} {new cs : List (PTree T V)} {taken rest : List (T.Key × V)}
    {i : BranchIndex T} (hn : NewChildren I σ l new taken rest) (hne : new ≠ []) (hl : i.level = l + 1)
    (hcs : ∀ c ∈ cs, c.index.level = l ∧ c.index.isSealed = true) : Packed (.branch i (cs ++ new)) := by
  have : new = new.dropLast ++ [new.getLast hne] := (List.dropLast_concat_getLast hne).symm
  rw [this, ← List.append_assoc]
  have hg := hn.good _ (List.getLast_mem hne)
  refine .unclosed _ _ _ ?_ (by omega) hg.2.2.1
  intro c hc
  rcases List.mem_append.mp hc with hc | hc
  · have := hcs c hc; exact ⟨this.2, by omega⟩
  · have h1 := hn.good c ((List.dropLast_sublist _).subset hc)
    exact ⟨hn.closed c hc, by omega⟩

theorem leafFromIter_spec (h : E.Lawful) (ht : T.Lawful) (hv : cx.cfg.Valid) {vals : V → Prop} {R : Err → Prop}
    (hR : ∀ e, Allowed E cx.cfg vals e → R e) (from_ : List (T.Key × V)) (hfrom : from_ ≠ [])
    (hvals : ∀ kv ∈ from_, vals kv.2) (s : St E) :
    Post (leafFromIter cx from_) s (fun r s' => ∃ t taken, Index.leaf r.1 = t.index ∧ Good I s'.store t ∧
      t.index.level = 0 ∧ from_ = taken ++ r.2 ∧ taken ≠ [] ∧ t.content = taken.map some ∧ Packed t ∧ Straight t ∧
      (r.2 = [] ∨ t.index.isSealed = true)) R := by
  unfold leafFromIter
  refine Post.assertBind (Or.inl (by simpa using hfrom)) fun _ => ?_
  refine Post.mono (frame_extendLeaf h _ _ _) (extendLeaf_spec h ht hv hR [] none [] from_ hfrom hvals (Or.inl ⟨rfl, rfl, rfl⟩)
    (by simp [encVals]) s) ?_ (fun _ h => h)
  rintro ⟨i, rest⟩ s' _ _ ⟨taken, h1, h2, h2', h3, h4, h5⟩
  simp only [List.nil_append] at h2 h2'
  refine ⟨.leaf i (taken.map Prod.snd), taken, rfl, good_leaf h h2 (Or.inl (h2' (h5 rfl))), rfl, h1, h5 rfl, ?_, .leaf _ _,
    straight_leaf _ _, h4⟩
  simp only [PTree.content, h3, optKeys, List.nil_append]
  congr 1
  have := zip_append_map (α := T.Key) (β := V) [] [] taken rfl
  simpa using this

/-- `fill_node` -/
theorem fillNode_spec (h : E.Lawful) (ht : T.Lawful) (hv : cx.cfg.Valid) {vals : V → Prop} {R : Err → Prop}
    (hR : ∀ e, Allowed E cx.cfg vals e → R e) (l : Nat) : FillSpec I vals R l (fillNode cx l) := by
  induction l with
  | zero =>
    intro from_ hfrom hvals s
    unfold fillNode
    refine Post.assertBind (Or.inl (by simpa using hfrom)) fun _ => ?_
    refine Post.bind (frame_leafFromIter h _) (fun _ => Frame.pure _) (leafFromIter_spec (I := I) h ht hv hR from_ hfrom hvals s) ?_
    rintro ⟨i, rest⟩ s' _ _ hq
    exact Post.pure fun _ => hq
  | succ l ih =>
    intro from_ hfrom hvals s
    unfold fillNode
    refine Post.assertBind (Or.inl (by simpa using hfrom)) fun _ => ?_
    have := extendBranchWith_spec (I := I) h hv hR ih (frame_fillNode h l) [] from_ hvals .packed (by simp) (Or.inl rfl)
      (Or.inr hfrom) (by simp) (by simp) (by simp) s (by simp) (Or.inl (by simp))
    refine Post.bind (frame_extendBranchWith h (frame_fillNode h l) _ _ _ _) (fun _ => Frame.pure _) this ?_
    rintro ⟨i, rest⟩ s' _ _ ⟨new, taken, h1, h2, h3, h4, h5, h6, h7, h8, h9, _⟩
    refine Post.pure fun _ => ⟨.branch i new, taken, rfl, by simpa using h3, h2, h4, ?_, ?_, ?_, ?_, h8⟩
    · have hb := maxBranches_pos hv (l + 1)
      have hn := h9 hfrom (by simp; omega)
      intro htk
      rw [htk] at h6
      exact hn (List.eq_nil_of_length_eq_zero (by simpa using h6))
    · simp only [PTree.content]; exact h5.content
    · have hb := maxBranches_pos hv (l + 1)
      have hn := h9 hfrom (by simp; omega)
      have := h5.packed (cs := []) hn h2 (by simp)
      simpa using this
    · rw [straight_branch]
      exact ⟨fun c hc => by have := (h5.good c hc).2.1; simp only at h2; omega, fun c hc => (h5.good c hc).2.2.2⟩

/-! ### extending existing nodes -/

/-- What an extension keeps. -/
structure Extd (I : NodeInv cx) (σ : E.σ) (t t' : PTree T V) (taken : List (T.Key × V)) : Prop where
  good : Good I σ t'
  content : t'.content = t.content ++ taken.map some
  packed : Packed t → Packed t'
  keeps : Keeps t t'
  straight : Straight t → Straight t'
  minRoot : MinRoot t → MinRoot t'
  level : t.index.level ≤ t'.index.level
  purge : ∀ l, t.PurgeOk l → t'.PurgeOk l

theorem Extd.refl {σ : E.σ} {t : PTree T V} (h : Good I σ t) : Extd I σ t t [] :=
  ⟨h, by simp, id, Keeps.refl t, id, id, Nat.le_refl _, fun _ h => h⟩

theorem Extd.trans {σ σ' : E.σ} {a b c : PTree T V} {x y : List (T.Key × V)} (h1 : Extd I σ a b x) (h2 : Extd I σ' b c y) :
    Extd I σ' a c (x ++ y) :=
  ⟨h2.good, by rw [h2.content, h1.content]; simp, fun h => h2.packed (h1.packed h), h1.keeps.trans h2.keeps,
    fun h => h2.straight (h1.straight h), fun h => h2.minRoot (h1.minRoot h), Nat.le_trans h1.level h2.level,
    fun l h => h2.purge l (h1.purge l h)⟩

theorem extendBranch_succ (children : List (Index T)) (l : Nat) (from_ : List (T.Key × V)) (mode : CreateMode) :
    extendBranch cx children (l + 1) from_ mode = extendBranchWith cx (fillNode cx l) children (l + 1) from_ mode := rfl

theorem extendAboveLoop_spec (h : E.Lawful) (ht : T.Lawful) (hv : cx.cfg.Valid) {vals : V → Prop} {R : Err → Prop}
    (hR : ∀ e, Allowed E cx.cfg vals e → R e) (L fuel : Nat) (t : PTree T V) (from_ : List (T.Key × V))
    (hvals : ∀ kv ∈ from_, vals kv.2) (hcl : from_ = [] ∨ t.index.isSealed = true) (hL : t.index.level ≤ L)
    (hfuel : L - t.index.level ≤ fuel) (s : St E) (hgood : Good I s.store t) :
    Post (extendAboveLoop cx L fuel t.index from_) s (fun r s' => ∃ t' taken, r.1 = t'.index ∧ from_ = taken ++ r.2 ∧
      Extd I s'.store t t' taken ∧ t'.index.level ≤ L ∧
      (r.2 = [] ∨ (t'.index.isSealed = true ∧ t'.index.level = L)) ∧ (L = 0 ∨ 1 ≤ t'.index.level) ∧
      t'.index.level ≤ max 1 t.index.level + taken.length) R := by
  induction fuel generalizing t from_ s with
  | zero =>
    unfold extendAboveLoop
    have hlt : ¬ t.index.level < L := by omega
    rw [if_neg (by simp [hlt])]
    refine Post.pure fun _ => ⟨t, [], rfl, rfl, Extd.refl hgood, hL, ?_, by omega, by omega⟩
    rcases hcl with h1 | h1
    · exact Or.inl h1
    · exact Or.inr ⟨h1, by omega⟩
  | succ fuel ih =>
    unfold extendAboveLoop
    by_cases hcond : (from_ ≠ [] ∨ t.index.level = 0) ∧ t.index.level < L
    · have hc' : ((!from_.isEmpty || t.index.level == 0) && decide (t.index.level < L)) = true := by
        rcases hcond with ⟨h1 | h1, h2⟩
        · simp [h1, h2]
        · simp [h1]; omega
      rw [if_pos hc']
      simp only
      rw [extendBranch_succ]
      have hsp := extendBranchWith_spec (I := I) h hv hR (fillNode_spec (I := I) h ht hv hR t.index.level)
        (frame_fillNode h t.index.level) [t] from_ hvals .packed (by simp) (Or.inr ⟨t, by simp, rfl⟩) (Or.inl (by simp))
        (by simp)
        (fun _ => Or.inl (by
          rcases hcl with h1 | h1
          · exact Or.inl h1
          · right; intro c hc; have : c = t := by simpa using hc
            subst this; exact ⟨rfl, h1⟩))
        (fun _ => Or.inl (by simp)) s (by simpa using hgood) (Or.inl (by simpa using maxBranches_pos hv (t.index.level + 1)))
      refine Post.bind (frame_extendBranchWith h (frame_fillNode h _) _ _ _ _) (fun _ => frame_extendAboveLoop h _ _ _ _) hsp ?_
      rintro ⟨i, rest⟩ s1 hx1 _ ⟨new, taken, h1, h2, h3, h4, h5, h6, h7, h8, h9, h10⟩
      simp only at h2 h3 h4 h5 h8 ⊢
      simp only [List.length_singleton] at h9
      have hext : Extd I s1.store t (.branch i ([t] ++ new)) taken := by
        refine ⟨h3, ?_, ?_, Keeps.child (by simp), ?_, ?_, ?_, ?_⟩
        · simp [PTree.content, h5.content]
        · intro hp
          by_cases hnew : new = []
          · subst hnew
            exact .unclosed i [] t (by simp) (by omega) hp
          · have hf : from_ ≠ [] := by
              intro hf; rw [hf] at h4
              have := (List.append_eq_nil_iff.mp h4.symm).1
              rw [this] at h6
              exact hnew (List.eq_nil_of_length_eq_zero (by simpa using h6))
            exact h5.packed hnew h2 (h10 hf)
        · intro hst
          rw [straight_branch]
          constructor
          · intro c hc
            rcases List.mem_append.mp hc with hc | hc
            · have : c = t := by simpa using hc
              subst this; omega
            · have := (h5.good c hc).2.1; omega
          · intro c hc
            rcases List.mem_append.mp hc with hc | hc
            · have : c = t := by simpa using hc
              subst this; exact hst
            · exact (h5.good c hc).2.2.2
        · intro _ hl
          have h11 : t.index.level ≠ 0 := by omega
          have hf : from_ ≠ [] := by
            rcases hcond.1 with h12 | h12
            · exact h12
            · exact absurd h12 h11
          have hb : 1 < cx.cfg.maxBranches (t.index.level + 1) := by
            unfold Config.maxBranches
            rw [if_neg (by omega)]
            exact hv.summary
          have := h9 hf hb
          cases new with
          | nil => exact absurd rfl this
          | cons a l => simp
        · show t.index.level ≤ i.level
          omega
        · intro l hp
          simp only [PTree.PurgeOk]
          right
          rw [purgeOkL_append, show min l ((i.level : Int) - 1) = min l (t.index.level : Int) by omega]
          exact ⟨⟨(purgeOk_min t l).mpr hp, trivial⟩, purgeOkL_of_noPurge h5.noPurge _⟩
      have hstep : i.level ≤ max 1 t.index.level + taken.length := by
        by_cases hl : t.index.level = 0
        · omega
        · have hf : from_ ≠ [] := by
            rcases hcond.1 with h12 | h12
            · exact h12
            · exact absurd h12 hl
          have hb : 1 < cx.cfg.maxBranches (t.index.level + 1) := by
            unfold Config.maxBranches
            rw [if_neg (by omega)]
            exact hv.summary
          have hne := h9 hf hb
          have : 1 ≤ new.length := by
            cases new with
            | nil => exact absurd rfl hne
            | cons a l => simp
          omega
      have := ih (.branch i ([t] ++ new)) rest (fun kv hkv => hvals kv (by rw [h4]; simp [hkv])) (by
        rcases h8 with h8 | h8
        · exact Or.inl h8
        · exact Or.inr h8) (by show i.level ≤ L; omega) (by show L - i.level ≤ fuel; omega) s1 h3
      refine Post.mono (frame_extendAboveLoop h _ _ _ _) this ?_ (fun _ h => h)
      rintro ⟨r1, r2⟩ s2 hx2 _ ⟨t', taken', g1, g2, g3, g4, g5, g6, g7⟩
      refine ⟨t', taken ++ taken', g1, by simp only at g2; simp [h4, g2], hext.trans g3, g4, g5, g6, ?_⟩
      have g8 : (PTree.branch i ([t] ++ new)).index.level = i.level := rfl
      rw [g8] at g7
      simp only [List.length_append]
      omega
    · have hc' : ¬ ((!from_.isEmpty || t.index.level == 0) && decide (t.index.level < L)) = true := by
        intro hc
        apply hcond
        simpa using hc
      rw [if_neg hc']
      refine Post.pure fun _ => ⟨t, [], rfl, rfl, Extd.refl hgood, hL, ?_, ?_, by omega⟩
      · by_cases hf : from_ = []
        · exact Or.inl hf
        · right
          have : ¬ t.index.level < L := fun hlt => hcond ⟨Or.inl hf, hlt⟩
          rcases hcl with h1 | h1
          · exact absurd h1 hf
          · exact ⟨h1, by omega⟩
      · by_cases hl : t.index.level = 0
        · left
          have : ¬ t.index.level < L := fun hlt => hcond ⟨Or.inr hl, hlt⟩
          omega
        · right; omega

/-- What `extend0` for a tree guarantees. -/
def Ext0Spec (I : NodeInv cx) (R : Err → Prop) (ext0 : Index T → List (T.Key × V) → M E (Index T × List (T.Key × V)))
    (t : PTree T V) (from_ : List (T.Key × V)) (s : St E) : Prop :=
  Post (ext0 t.index from_) s (fun r s' => ∃ t' taken, r.1 = t'.index ∧ from_ = taken ++ r.2 ∧
    Extd I s'.store t t' taken ∧ t'.index.level = t.index.level ∧ (r.2 = [] ∨ t'.index.isSealed = true)) R

/-- What `extend_above` for a tree guarantees. -/
theorem extendAboveWith_some (h : E.Lawful) (ht : T.Lawful) (hv : cx.cfg.Valid) {vals : V → Prop} {R : Err → Prop}
    (hR : ∀ e, Allowed E cx.cfg vals e → R e) {ext0 : Index T → List (T.Key × V) → M E (Index T × List (T.Key × V))}
    (hfr : ∀ i from_, Frame cx (ext0 i from_)) (L : Nat) (t : PTree T V) (from_ : List (T.Key × V)) (hfrom : from_ ≠ [])
    (hvals : ∀ kv ∈ from_, vals kv.2) (hL : t.index.level ≤ L) (s : St E) (h0 : Ext0Spec I R ext0 t from_ s) :
    Post (extendAboveWith cx ext0 (some t.index) L from_) s (fun r s' => ∃ t' taken, r.1 = t'.index ∧
      from_ = taken ++ r.2 ∧ Extd I s'.store t t' taken ∧ t'.index.level ≤ L ∧
      (r.2 = [] ∨ (t'.index.isSealed = true ∧ t'.index.level = L)) ∧ (L = 0 ∨ 1 ≤ t'.index.level) ∧
      t'.index.level ≤ max 1 t.index.level + taken.length) R := by
  unfold extendAboveWith extendStart
  refine Post.ensureBind (Or.inl (by simpa using hfrom)) fun _ => Post.assertBind (Or.inl (by simpa using hL)) fun _ => ?_
  simp only
  refine Post.bind (hfr _ _) (fun _ => Frame.bind (frame_extendAboveLoop h _ _ _ _) fun _ =>
    Frame.bind (Frame.assert _ _) fun _ => Frame.pure _) h0 ?_
  rintro ⟨i, rest⟩ s1 hx1 _ ⟨t1, taken, h1, h2, h3, h4, h5⟩
  simp only at h1 h2 h5 ⊢
  subst h1
  refine Post.bind (frame_extendAboveLoop h _ _ _ _) (fun _ => Frame.bind (Frame.assert _ _) fun _ => Frame.pure _)
    (extendAboveLoop_spec (I := I) h ht hv hR L (L - t1.index.level) t1 rest
      (fun kv hkv => hvals kv (by rw [h2]; simp [hkv])) h5 (by omega) (Nat.le_refl _) s1 h3.good) ?_
  rintro ⟨i, rest'⟩ s2 hx2 _ ⟨t2, taken2, g1, g2, g3, g4, g5, g6, g7⟩
  simp only at g1 g2 g5 ⊢
  subst g1
  refine Post.assertBind ?_ fun _ => Post.pure fun _ => ⟨t2, taken ++ taken2, rfl, by simp [h2, g2], h3.trans g3, g4, g5, g6, ?_⟩
  · left
    rcases g5 with g5 | ⟨g5, g5'⟩
    · subst g5; simp [g4]
    · simp [g5, g5']
  · simp only [List.length_append]
    omega

theorem extendAboveWith_none (h : E.Lawful) (ht : T.Lawful) (hv : cx.cfg.Valid) {vals : V → Prop} {R : Err → Prop}
    (hR : ∀ e, Allowed E cx.cfg vals e → R e) {ext0 : Index T → List (T.Key × V) → M E (Index T × List (T.Key × V))}
    (L : Nat) (from_ : List (T.Key × V)) (hfrom : from_ ≠ [])
    (hvals : ∀ kv ∈ from_, vals kv.2) (s : St E) :
    Post (extendAboveWith cx ext0 none L from_) s (fun r s' => ∃ t' taken, r.1 = t'.index ∧
      from_ = taken ++ r.2 ∧ Good I s'.store t' ∧ t'.content = taken.map some ∧ Packed t' ∧ Straight t' ∧ MinRoot t' ∧
      t'.index.level ≤ L ∧ (r.2 = [] ∨ (t'.index.isSealed = true ∧ t'.index.level = L)) ∧
      (L = 0 ∨ 1 ≤ t'.index.level) ∧ t'.index.level ≤ 1 + taken.length ∧ taken ≠ []) R := by
  unfold extendAboveWith extendStart
  refine Post.ensureBind (Or.inl (by simpa using hfrom)) fun _ => Post.assertBind (Or.inl rfl) fun _ => ?_
  simp only
  rw [bind_assoc]
  refine Post.bind (frame_leafFromIter h _) (fun _ => Frame.bind (Frame.pure _) fun _ => Frame.bind (frame_extendAboveLoop h _ _ _ _) fun _ =>
    Frame.bind (Frame.assert _ _) fun _ => Frame.pure _) (leafFromIter_spec (I := I) h ht hv hR from_ hfrom hvals s) ?_
  rintro ⟨i, rest⟩ s1 hx1 _ ⟨t1, taken, h1, h2, h3, h4, h5, h6, h7, h8, h9⟩
  simp only at h1 h4 h9 ⊢
  rw [pure_bind]
  simp only
  rw [h1]
  refine Post.bind (frame_extendAboveLoop h _ _ _ _) (fun _ => Frame.bind (Frame.assert _ _) fun _ => Frame.pure _)
    (extendAboveLoop_spec (I := I) h ht hv hR L (L - t1.index.level) t1 rest
      (fun kv hkv => hvals kv (by rw [h4]; simp [hkv])) h9 (by omega) (Nat.le_refl _) s1 h2) ?_
  rintro ⟨i, rest'⟩ s2 hx2 _ ⟨t2, taken2, g1, g2, g3, g4, g5, g6, g7⟩
  simp only at g1 g2 g5 ⊢
  subst g1
  refine Post.assertBind ?_ fun _ => Post.pure fun _ => ⟨t2, taken ++ taken2, rfl, by simp [h4, g2], g3.good, ?_,
    g3.packed h7, g3.straight h8, g3.minRoot ?_, g4, g5, g6, ?_, ?_⟩
  · left
    rcases g5 with g5 | ⟨g5, g5'⟩
    · subst g5; simp [g4]
    · simp [g5, g5']
  · rw [g3.content, h6]; simp
  · cases t1 with
    | branch i cs => intro hl; exact absurd h3 (by show ¬ i.level = 0; omega)
    | leaf => trivial
    | purgedLeaf => trivial
    | purgedBranch => trivial
  · simp only [List.length_append]
    omega
  · intro hc; exact h5 (List.append_eq_nil_iff.mp hc).1

theorem Good.children {σ : E.σ} {i : BranchIndex T} {cs : List (PTree T V)} (h : Good I σ (.branch i cs)) :
    ∀ c ∈ cs, Good I σ c := PTree.All.children h

theorem getLast?_append_singleton {α : Type} (l : List α) (a : α) : (l ++ [a]).getLast? = some a := by simp

/-- Inversion of packedness of an unsealed branch. -/
theorem Packed.inv {i : BranchIndex T} {init : List (PTree T V)} {last : PTree T V}
    (h : Packed (.branch i (init ++ [last]))) (hs : i.isSealed = false) :
    (∀ c ∈ init, c.index.isSealed = true ∧ c.index.level + 1 = i.level) ∧ last.index.level < i.level ∧ Packed last := by
  generalize ht : PTree.branch i (init ++ [last]) = t at h
  cases h with
  | leaf => cases ht
  | purgedLeaf => cases ht
  | purgedBranch => cases ht
  | closed i' cs' h1 => cases ht; rw [hs] at h1; cases h1
  | unclosed i' init' last' h1 h2 h3 =>
    injection ht with a b
    subst a
    have := List.append_inj' b rfl
    obtain ⟨rfl, hl⟩ := this
    have : last = last' := by simpa using hl
    subst this
    exact ⟨h1, h2, h3⟩

theorem Post.loadCachedBind (h : E.Lawful) {β : Type} {s : St E} {Q : β → St E → Prop} {R : Err → Prop} {l : T.Link} {b : Branch T}
    (f : Branch T → M E β) (hc : Coherent E cx.sec s) (hl : loadBranchFromLink E cx.sec s.store l = .ok b)
    (hf : ∀ s', Ext cx s s' → Coherent E cx.sec s' → s'.store = s.store → Post (f b) s' Q R) :
    Post (loadBranchCached cx.sec l >>= f) s Q R := by
  obtain ⟨c, h1, ⟨b', h2, h3⟩ | ⟨e, _, h3⟩⟩ := loadBranchCached_coherent h hc l
  · have hx := (frame_loadBranchCached h l).ok h2
    rw [← h3 b hl] at h2
    unfold Post
    rw [bind_apply, h2]
    exact hf _ hx h1 rfl
  · rw [hl] at h3
    cases h3

theorem Post.loadLeafBind {β : Type} {s : St E} {Q : β → St E → Prop} {R : Err → Prop} {sec : Secrets E} {l : T.Link} {b : Leaf}
    (f : Leaf → M E β) (hl : loadLeafFromLink E sec s.store l = .ok b)
    (hf : Post (f b) s Q R) : Post (loadLeafM sec l >>= f) s Q R := by
  unfold Post
  rw [bind_apply]
  unfold loadLeafM
  rw [hl]
  exact hf

theorem extend0_spec (h : E.Lawful) (ht : T.Lawful) (hv : cx.cfg.Valid) {vals : V → Prop} {R : Err → Prop}
    (hR : ∀ e, Allowed E cx.cfg vals e → R e) (fuel : Nat) (t : PTree T V) (from_ : List (T.Key × V))
    (hvals : ∀ kv ∈ from_, vals kv.2) (hfuel : t.index.level < fuel) (hpan : Packed t ∨ ∀ m, R (.panic m)) (s : St E)
    (hgood : Good I s.store t) (hco : Coherent E cx.sec s) : Ext0Spec I R (extend0 cx fuel) t from_ s := by
  induction fuel generalizing t from_ s with
  | zero => omega
  | succ fuel ih =>
    unfold Ext0Spec extend0
    by_cases hc : t.index.isSealed = true ∨ from_ = []
    · rw [if_pos (by simpa using hc)]
      refine Post.pure fun _ => ⟨t, [], rfl, rfl, Extd.refl hgood, rfl, ?_⟩
      rcases hc with hc | hc
      · exact Or.inr hc
      · exact Or.inl hc
    · rw [if_neg (by simpa using hc)]
      have hns : t.index.isSealed = false := by
        cases hh : t.index.isSealed with
        | true => exact absurd (Or.inl hh) hc
        | false => rfl
      have hfrom : from_ ≠ [] := fun hf => hc (Or.inr hf)
      cases t with
      | purgedLeaf i =>
        have := (PTree.All.root hgood).2.1.1
        simp only [PTree.index, Index.isSealed] at hns
        rw [hns] at this; cases this
      | purgedBranch i =>
        have := (PTree.All.root hgood).2.1.1
        simp only [PTree.index, Index.isSealed] at hns
        rw [hns] at this; cases this
      | leaf i vs =>
        obtain ⟨⟨l, z, r, h1, h2, h3, h4⟩, ⟨w1, w2, w4⟩, hJ⟩ := PTree.All.root hgood
        simp only [PTree.index, h1]
        refine Post.loadLeafBind _ h2 ?_
        have := extendLeaf_spec h ht hv hR z.data (some i.keys) vs from_ hfrom hvals
          (Or.inr ⟨h3, h4, i.keys, rfl, w1⟩) w4 s
        refine Post.bind (frame_extendLeaf h _ _ _) (fun _ => Frame.pure _) this ?_
        rintro ⟨i', rest⟩ s' hx' _ ⟨taken, g1, g2, g2', g3, g4, _⟩
        have hwithin : LeafWithin E cx.cfg (vs ++ taken.map Prod.snd) ∨ ∃ i0, I.J s'.store (.leaf i0 (vs ++ taken.map Prod.snd)) := by
          by_cases htk : taken = []
          · right
            rw [htk]
            exact ⟨i, by simpa using I.mono hx'.store hJ⟩
          · exact Or.inl (g2' htk)
        refine Post.pure fun _ => ⟨.leaf i' (vs ++ taken.map Prod.snd), taken, rfl, g1,
          ⟨good_leaf h g2 hwithin, ?_, fun _ => .leaf _ _, ?_, fun _ => straight_leaf _ _, fun _ => trivial, Nat.le_refl _,
            fun _ _ => by simp [PTree.PurgeOk]⟩,
          rfl, g4⟩
        · simp only [PTree.content]
          simp only [optKeys] at g3
          rw [g3, zip_append_map _ _ _ (by rw [CompactSeq.length_toVec ht.keys, w1])]
          simp
        · intro n hn hs
          have : n = .leaf i vs := by simpa [PTree.nodes] using hn
          subst this
          rw [hns] at hs; cases hs
      | branch i cs =>
        obtain ⟨⟨l, r, h1, h2⟩, ⟨w1, w3, w4, w5, w6, w7, w8⟩, hJ⟩ := PTree.All.root hgood
        simp only [PTree.index, h1]
        refine Post.loadCachedBind h _ hco h2 fun s1 hx1 hco1 hst1 => ?_
        obtain ⟨init, last, rfl⟩ : ∃ init last, cs = init ++ [last] :=
          ⟨cs.dropLast, cs.getLast w1, (List.dropLast_concat_getLast w1).symm⟩
        simp only [PTree.index, Index.isSealed] at hns
        have hlast : last.index.level < i.level := w3 last (by simp)
        have hil : i.level = (i.level - 1) + 1 := by omega
        have hgood1 : Good I s1.store (.branch i (init ++ [last])) := hst1 ▸ hgood
        simp only [List.map_append, List.map_cons, List.map_nil]
        unfold extendLast
        rw [getLast?_append_singleton]
        simp only [List.dropLast_concat]
        rw [bind_assoc]
        have hpl : Packed last ∨ ∀ m, R (.panic m) := by
          rcases hpan with hp | hp
          · exact Or.inl (hp.inv hns).2.2
          · exact Or.inr hp
        have h0 := ih last from_ hvals (by simp only [PTree.index, Index.level] at hfuel; omega) hpl s1
          (hgood1.children last (by simp)) hco1
        refine Post.bind (frame_extendAboveWith h (frame_extend0 h fuel) _ _ _)
          (fun _ => Frame.bind (Frame.pure _) fun _ => Frame.bind (frame_extendBranch h _ _ _ _) fun _ => Frame.pure _)
          (extendAboveWith_some (I := I) h ht hv hR (frame_extend0 h fuel) (i.level - 1) last from_ hfrom hvals (by omega)
            s1 h0) ?_
        rintro ⟨ix, rest⟩ s2 hx2 _ ⟨last', taken, g1, g2, g3, g4, g5, g6, _⟩
        simp only at g1 g2 g5 ⊢
        subst g1
        rw [pure_bind]
        simp only
        have hmap : init.map PTree.index ++ [last'.index] = (init ++ [last']).map PTree.index := by simp
        rw [hmap]
        have hpk : (∀ c ∈ init, c.index.isSealed = true ∧ c.index.level + 1 = i.level) ∨ ∀ m, R (.panic m) := by
          rcases hpan with hp | hp
          · exact Or.inl (hp.inv hns).1
          · exact Or.inr hp
        have hex : ∃ c ∈ init ++ [last'], c.index.level = i.level - 1 := by
          obtain ⟨c, hc, hcl⟩ := w4
          rcases List.mem_append.mp hc with hc | hc
          · exact ⟨c, by simp [hc], by omega⟩
          · have : c = last := by simpa using hc
            subst this
            have := g3.level
            exact ⟨last', by simp, by omega⟩
        generalize hlv : i.level - 1 = lv at *
        rw [hil, extendBranch_succ]
        have hsp := extendBranchWith_spec (I := I) h hv hR (fillNode_spec (I := I) h ht hv hR lv)
          (frame_fillNode h lv) (init ++ [last']) rest (fun kv hkv => hvals kv (by rw [g2]; simp [hkv])) .packed
          (by
            intro c hc
            rcases List.mem_append.mp hc with hc | hc
            · have := w3 c (by simp [hc]); omega
            · have : c = last' := by simpa using hc
              subst this; omega)
          (Or.inr hex) (Or.inl (by simp))
          (by simp)
          (fun _ => by
            rcases hpk with hp | hp
            · left
              rcases g5 with g5 | ⟨g5, g5'⟩
              · exact Or.inl g5
              · right
                intro c hc
                rcases List.mem_append.mp hc with hc | hc
                · have := hp c hc; exact ⟨by omega, this.1⟩
                · have : c = last' := by simpa using hc
                  subst this; exact ⟨g5', g5⟩
            · exact Or.inr hp)
          (fun _ => by
            rcases hpk with hp | hp
            · left
              exact pairwise_const_append init last' _ lv (fun c hc => by have := hp c hc; omega) g4
            · exact Or.inr hp) s2
          (by
            intro c hc
            rcases List.mem_append.mp hc with hc | hc
            · exact (hgood1.children c (by simp [hc])).mono hx2.store
            · have : c = last' := by simpa using hc
              subst this; exact g3.good)
          (Or.inr ⟨i, init ++ [last], hil, by simp, I.mono (hx1.store.trans hx2.store) hJ⟩)
        refine Post.bind (frame_extendBranchWith h (frame_fillNode h _) _ _ _ _) (fun _ => Frame.pure _) hsp ?_
        rintro ⟨i', rest'⟩ s3 hx3 _ ⟨new, taken', k1, k2, k3, k4, k5, k6, k7, k8, k9, k10⟩
        simp only at k1 k2 k3 k4 k5 k8
        refine Post.pure fun _ => ⟨.branch i' (init ++ [last'] ++ new), taken ++ taken', rfl, by simp [g2, k4], ?_, ?_, ?_⟩
        · refine ⟨k3, ?_, ?_, ?_, ?_, ?_, ?_, ?_⟩
          · simp [PTree.content, k5.content, g3.content]
          · intro hp
            by_cases hnew : new = []
            · subst hnew
              rw [List.append_nil]
              refine .unclosed i' init last' ?_ (by omega) (g3.packed (hp.inv hns).2.2)
              intro c hc
              have := (hp.inv hns).1 c hc
              exact ⟨this.1, by omega⟩
            · have hr : rest ≠ [] := by
                intro hr; rw [hr] at k4
                have := (List.append_eq_nil_iff.mp k4.symm).1
                rw [this] at k6
                exact hnew (List.eq_nil_of_length_eq_zero (by simpa using k6))
              exact k5.packed hnew k2 (k10 hr)
          · intro n hn hs
            rcases PTree.mem_nodes_branch.mp hn with rfl | ⟨c, hc, hn2⟩
            · simp only [PTree.index, Index.isSealed] at hs; rw [hns] at hs; cases hs
            · rw [PTree.mem_nodes_branch]
              right
              rcases List.mem_append.mp hc with hc | hc
              · exact ⟨c, by simp [hc], hn2⟩
              · have hcl : c = last := by simpa using hc
                rw [hcl] at hn2
                exact ⟨last', by simp, g3.keeps n hn2 hs⟩
          · intro hst
            rw [straight_branch] at hst ⊢
            constructor
            · intro c hc
              simp only [List.mem_append, List.mem_singleton] at hc
              rcases hc with (hc | hc) | hc
              · have := hst.1 c (by simp [hc]); omega
              · subst hc
                have := hst.1 last (by simp)
                have := g3.level
                omega
              · have := (k5.good c hc).2.1; omega
            · intro c hc
              simp only [List.mem_append, List.mem_singleton] at hc
              rcases hc with (hc | hc) | hc
              · exact hst.2 c (by simp [hc])
              · subst hc; exact g3.straight (hst.2 last (by simp))
              · exact (k5.good c hc).2.2.2
          · intro hm hl
            have := hm (by omega)
            simp only [List.length_append, List.length_singleton] at this ⊢
            omega
          · show i.level ≤ i'.level
            omega
          · intro l hp
            simp only [PTree.PurgeOk] at hp ⊢
            have hp := hp.resolve_left (by simp [hns])
            right
            rw [show i'.level = i.level by omega, purgeOkL_append, purgeOkL_append]
            rw [purgeOkL_append] at hp
            exact ⟨⟨hp.1, g3.purge _ hp.2.1, trivial⟩, purgeOkL_of_noPurge k5.noPurge _⟩
        · show i'.level = i.level
          omega
        · exact k8

end Banyan
