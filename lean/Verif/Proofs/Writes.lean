import Verif.Spec.Writes
import Verif.Proofs.History
/-
What the writing operations hand to the store.
-/
set_option autoImplicit false
namespace Banyan

variable {T : TreeTypes} {V : Type} {E : Env T V} {cx : Ctx E}

mutual
/-- The blocks are blocks of nodes below (and including) the given one, in post-order. -/
inductive Writes (E : Env T V) (sec : Secrets E) (σ : E.σ) : Index T → List Bytes → Prop
  | old (i : Index T) : Writes E sec σ i []
  | leaf (i : LeafIndex T) (l : T.Link) (b : Bytes) : i.link = some l → E.get σ l = .ok b → Writes E sec σ (.leaf i) [b]
  | branch (i : BranchIndex T) (l : T.Link) (b : Bytes) (cs : List (Index T)) (r : Nat × Nat) (bs : List Bytes) : i.link = some l →
      E.get σ l = .ok b → loadBranchFromLink E sec σ l = .ok ⟨cs, r⟩ → WritesL E sec σ cs bs → Writes E sec σ (.branch i) (bs ++ [b])
  | under (i : BranchIndex T) (l : T.Link) (cs : List (Index T)) (r : Nat × Nat) (bs : List Bytes) : i.link = some l →
      loadBranchFromLink E sec σ l = .ok ⟨cs, r⟩ → WritesL E sec σ cs bs → Writes E sec σ (.branch i) bs
/-- The same for a list of nodes. -/
inductive WritesL (E : Env T V) (sec : Secrets E) (σ : E.σ) : List (Index T) → List Bytes → Prop
  | nil : WritesL E sec σ [] []
  | cons (c : Index T) (cs : List (Index T)) (bs bs' : List Bytes) : Writes E sec σ c bs → WritesL E sec σ cs bs' →
      WritesL E sec σ (c :: cs) (bs ++ bs')
end

mutual
theorem Writes.mono {sec : Secrets E} {a b : E.σ} (h : StoreLe E a b) {i : Index T} {bs : List Bytes} :
    Writes E sec a i bs → Writes E sec b i bs
  | .old _ => .old _
  | .leaf i l d h1 h2 => .leaf i l d h1 (h _ _ h2)
  | .branch i l d cs r bs h1 h2 h3 h4 => .branch i l d cs r bs h1 (h _ _ h2) (loadBranchFromLink_mono h h3) (h4.mono h)
  | .under i l cs r bs h1 h2 h3 => .under i l cs r bs h1 (loadBranchFromLink_mono h h2) (h3.mono h)
theorem WritesL.mono {sec : Secrets E} {a b : E.σ} (h : StoreLe E a b) {cs : List (Index T)} {bs : List Bytes} :
    WritesL E sec a cs bs → WritesL E sec b cs bs
  | .nil => .nil
  | .cons c cs bs bs' h1 h2 => .cons c cs bs bs' (h1.mono h) (h2.mono h)
end

theorem WritesL.append {sec : Secrets E} {σ : E.σ} {a b : List (Index T)} {x y : List Bytes} (h1 : WritesL E sec σ a x)
    (h2 : WritesL E sec σ b y) : WritesL E sec σ (a ++ b) (x ++ y) := by
  induction a generalizing x with
  | nil => cases h1; exact h2
  | cons c cs ih =>
    cases h1 with
    | cons _ _ bs bs' g1 g2 =>
      rw [List.cons_append, List.append_assoc]
      exact .cons c _ bs _ g1 (ih g2)

theorem WritesL.old {sec : Secrets E} {σ : E.σ} (cs : List (Index T)) : WritesL E sec σ cs [] := by
  induction cs with
  | nil => exact .nil
  | cons c cs ih => exact .cons c cs [] [] (.old c) ih

theorem WritesL.single {sec : Secrets E} {σ : E.σ} {c : Index T} {bs : List Bytes} (h : Writes E sec σ c bs) :
    WritesL E sec σ [c] bs := by
  have := WritesL.cons c [] bs [] h .nil
  simpa using this

mutual
/-- The blocks of a tree in the store. -/
theorem Writes.sublist {sec : Secrets E} {σ : E.σ} (t : PTree T V) {bs : List Bytes} (hs : Stored E sec σ t)
    (hw : Writes E sec σ t.index bs) : bs.Sublist (t.blocks E σ) := by
  match t with
  | .leaf i vs =>
    cases hw with
    | old => exact List.nil_sublist _
    | leaf _ l b h1 h2 =>
      unfold PTree.blocks blockAt
      rw [h1]
      simp only
      rw [h2]
      exact List.Sublist.refl _
  | .purgedLeaf i =>
    have h0 : i.link = none := PTree.All.root hs
    cases hw with
    | old => exact List.nil_sublist _
    | leaf _ l b h1 h2 => rw [h0] at h1; cases h1
  | .purgedBranch i =>
    have h0 : i.link = none := PTree.All.root hs
    generalize hg : PTree.index (.purgedBranch i : PTree T V) = ix at hw
    cases hw with
    | old => exact List.nil_sublist _
    | leaf _ l b h1 h2 => cases hg
    | branch _ l b cs r bs h1 h2 h3 h4 => cases hg; rw [h0] at h1; cases h1
    | under _ l cs r bs h1 h2 h3 => cases hg; rw [h0] at h1; cases h1
  | .branch i cs =>
    obtain ⟨l0, r0, g1, g2⟩ := PTree.All.root hs
    generalize hg : PTree.index (.branch i cs) = ix at hw
    cases hw with
    | old => exact List.nil_sublist _
    | leaf _ l b h1 h2 => cases hg
    | branch _ l b cs' r bs h1 h2 h3 h4 =>
      cases hg
      rw [g1] at h1
      cases h1
      rw [g2] at h3
      cases h3
      unfold PTree.blocks blockAt
      rw [g1]
      simp only
      rw [h2]
      exact List.Sublist.append (WritesL.sublist cs (PTree.All.children hs) h4) (List.Sublist.refl _)
    | under _ l cs' r bs h1 h2 h3 =>
      cases hg
      rw [g1] at h1
      cases h1
      rw [g2] at h2
      cases h2
      unfold PTree.blocks
      exact (WritesL.sublist cs (PTree.All.children hs) h3).trans (List.sublist_append_left _ _)
theorem WritesL.sublist {sec : Secrets E} {σ : E.σ} (cs : List (PTree T V)) {bs : List Bytes} (hs : ∀ c ∈ cs, Stored E sec σ c)
    (hw : WritesL E sec σ (cs.map PTree.index) bs) : bs.Sublist (PTree.blocksL E σ cs) := by
  match cs with
  | [] => cases hw; exact List.nil_sublist _
  | c :: cs =>
    cases hw with
    | cons _ _ bs bs' h1 h2 =>
      unfold PTree.blocksL
      exact List.Sublist.append (Writes.sublist c (hs c (by simp)) h1) (WritesL.sublist cs (fun c hc => hs c (by simp [hc])) h2)
end

theorem loadBranchCached_puts (link : T.Link) (s : St E) :
    Post (loadBranchCached cx.sec link) s (fun _ s' => s'.puts = s.puts) fun _ => True := by
  unfold Post loadBranchCached
  cases E.cacheGet s.cache link with
  | mk r c =>
    cases r with
    | some b => exact fun _ => rfl
    | none =>
      simp only
      cases loadBranchFromLink E cx.sec s.store link with
      | ok b => exact fun _ => rfl
      | error e => exact fun _ => trivial

/-! ### leaves and branches -/

/-- No error is excluded. -/
abbrev AnyErr : Err → Prop := fun _ => True

theorem fillLoop_rest {lvl : Int} {cs us mk : Nat} {from_ : List (T.Key × V)} {keys : List T.Key} {size : Nat} {ws : List Bytes}
    {links : List Cid} {r : FillSt T V} (h : fillLoop E lvl cs us mk from_ keys size ws links = .ok r) :
    ∃ k, from_.length = k + r.from_.length := by
  induction from_ generalizing keys size ws links with
  | nil => simp only [fillLoop] at h; cases h; exact ⟨0, rfl⟩
  | cons kv rest ih =>
    obtain ⟨k, v⟩ := kv
    simp only [fillLoop] at h
    split at h
    · cases h; exact ⟨0, by simp⟩
    · split at h
      · cases h
      · split at h
        · cases h; exact ⟨0, by simp⟩
        · split at h
          · cases h
          · split at h
            · cases h; exact ⟨1, by simp; omega⟩
            · obtain ⟨k, hk⟩ := ih h
              exact ⟨k + 1, by simp; omega⟩

theorem fill_rest {compressed : Bytes} {from_ : List (T.Key × V)} {keys : List T.Key} {lvl : Int} {cs us mk : Nat}
    {r : ZSeq × Bool × List T.Key × List (T.Key × V)} (h : fill E compressed from_ keys lvl cs us mk = .ok r) :
    ∃ k, from_.length = k + r.2.2.2.length := by
  unfold fill at h
  split at h
  · cases h
  · split at h
    · cases h
    · rename_i h1
      cases h
      exact fillLoop_rest h1

/-- `extend_leaf` writes one block. -/
theorem extendLeaf_writes (h : E.Lawful) (compressed : Bytes) (keys : Option T.KeySeq) (from_ : List (T.Key × V)) (s : St E) :
    Post (extendLeaf cx compressed keys from_) s (fun r s' => ∃ b k, s'.puts = s.puts ++ [b] ∧
      Writes E cx.sec s'.store (.leaf r.1) [b] ∧ from_.length = k + r.2.length) AnyErr := by
  unfold extendLeaf
  refine Post.assertBind (Or.inr trivial) fun _ => Post.liftBind (fun _ _ => trivial) fun a ha => ?_
  obtain ⟨k, hk⟩ := fill_rest ha
  obtain ⟨z, sealed, ks, rest⟩ := a
  refine Post.encryptPut (cx := cx) h z cx.sec.valueKey
    (fun _ link => Pure.pure ((⟨sealed, some link, T.keys.ofList ks, z.data.length⟩ : LeafIndex T), rest)) trivial (fun _ _ _ _ => trivial) ?_
  intro l s' hext _ _ hoff hget hputs
  exact Post.pure fun _ => ⟨_, k, hputs, .leaf _ l _ rfl hget, hk⟩

/-- `leaf_from_iter` writes one block, and takes at least one element. -/
theorem leafFromIter_writes (h : E.Lawful) (ht : T.Lawful) (hv : cx.cfg.Valid) (from_ : List (T.Key × V)) (s : St E) :
    Post (leafFromIter cx from_) s (fun r s' => ∃ b k, s'.puts = s.puts ++ [b] ∧
      Writes E cx.sec s'.store (.leaf r.1) [b] ∧ from_.length = k + r.2.length ∧ 1 ≤ k) AnyErr := by
  by_cases hf : from_ = []
  · subst hf
    exact Post.assertBind (Or.inr trivial) fun h => by simp at h
  · have h1 := leafFromIter_spec (I := NodeInv.trivial cx) (R := AnyErr) h ht hv (vals := fun _ => True) (fun _ _ => trivial) from_ hf
      (fun _ _ => trivial) s
    have h2 := extendLeaf_writes (cx := cx) h [] none from_ s
    have h3 : Post (leafFromIter cx from_) s (fun r s' => ∃ b k, s'.puts = s.puts ++ [b] ∧
        Writes E cx.sec s'.store (.leaf r.1) [b] ∧ from_.length = k + r.2.length) AnyErr := by
      unfold leafFromIter
      exact Post.assertBind (Or.inr trivial) fun _ => h2
    unfold Post at h1 h3 ⊢
    cases hm : leafFromIter cx from_ s with
    | error e s' => exact fun _ => trivial
    | ok r s' =>
      rw [hm] at h1 h3
      intro hs
      obtain ⟨b, k, g1, g2, g3⟩ := h3 hs
      obtain ⟨t, taken, k1, k2, k3, k4, k5, _⟩ := h1 hs
      refine ⟨b, k, g1, g2, g3, ?_⟩
      have h4 : 0 < taken.length := List.length_pos_iff.mpr k5
      have h5 := congrArg List.length k4
      rw [List.length_append] at h5
      omega

/-- `persist_branch` writes one block. -/
theorem persistBranch_writes (h : E.Lawful) (items : List (Index T)) (hne : items ≠ []) (s : St E) :
    Post (persistBranch cx items) s (fun r s' => ∃ b, s'.puts = s.puts ++ [b] ∧ ∀ (i : BranchIndex T) bs, i.link = some r.1 →
      WritesL E cx.sec s'.store items bs → Writes E cx.sec s'.store (.branch i) (bs ++ [b])) AnyErr := by
  unfold persistBranch serializeCompressed
  refine Post.logBind (cx := cx) _ _ fun s1 hx1 ho1 hw1 hp1 => ?_
  rw [bind_assoc]
  refine Post.liftBind (fun _ _ => trivial) ?_
  intro z hz
  rcases seqFromIterIpld_spec (cx := cx) h (fun _ => True) items cx.cfg.zstdLevel with ⟨links, h1, h3⟩ | ⟨e', h1, h2⟩
  · rw [h1] at hz; cases hz
    refine Post.encryptPut (cx := cx) h _ _ _ trivial (fun _ _ _ _ => trivial) ?_
    intro l s' hext _ hw hoff hget hputs
    refine Post.pure fun hs => ⟨_, hputs.trans (by rw [hp1]), fun i bs hl hbs => ?_⟩
    exact .branch i l _ items _ bs hl hget (loadBranchFromLink_of_get h hne (hs items (by rw [hw, hw1]; simp)) hoff hget) hbs
  · rw [h1] at hz; cases hz

theorem newBranch_writes (h : E.Lawful) (children : List (Index T)) (mode : CreateMode) (s : St E) :
    Post (newBranch cx children mode) s (fun i s' => ∃ b, s'.puts = s.puts ++ [b] ∧
      (∀ bs, WritesL E cx.sec s'.store children bs → Writes E cx.sec s'.store (.branch i) (bs ++ [b])) ∧
      (∀ c ∈ children, c.level < i.level) ∧ 1 ≤ i.level) AnyErr := by
  unfold newBranch
  refine Post.assertBind (Or.inr trivial) fun hne => Post.assertBind (Or.inr trivial) fun _ => ?_
  have hne : children ≠ [] := by simpa using hne
  obtain ⟨m, hm⟩ := maxLevel_ne_none hne
  rw [hm]
  simp only
  refine Post.bind (frame_persistBranch h _) (fun _ => Frame.pure _) (persistBranch_writes h children hne s) ?_
  rintro ⟨l, n⟩ s' hext _ ⟨b, h1, h2⟩
  obtain ⟨m1, c, hc, hcl⟩ := maxLevel_some hm
  refine Post.pure fun _ => ⟨b, h1, fun bs hbs => h2 _ bs rfl hbs, fun c hc => ?_, ?_⟩
  · have := m1 c hc
    show c.level < m + 1
    omega
  · show 1 ≤ m + 1
    omega

/-! ### appending -/

theorem maxBranches_two (hv : cx.cfg.Valid) (l : Nat) (hl : 2 ≤ l) : 2 ≤ cx.cfg.maxBranches l := by
  have := hv.key
  have := hv.summary
  unfold Config.maxBranches
  split <;> omega

/-- Making a node of level `l` from `k` elements writes less than `3 * k` blocks, and one more per level if there are no elements left
(above level 1, branches with a single child are only made at the end). -/
def FillWrites (cx : Ctx E) (l : Nat) (f : List (T.Key × V) → M E (Index T × List (T.Key × V))) : Prop :=
  ∀ from_ s, from_ ≠ [] → Post (f from_) s (fun r s' => ∃ bs k, s'.puts = s.puts ++ bs ∧ Writes E cx.sec s'.store r.1 bs ∧
    from_.length = k + r.2.length ∧ 1 ≤ k ∧ bs.length + 1 ≤ 3 * k + l ∧ (r.2 ≠ [] → bs.length + 1 ≤ 3 * k) ∧
    (l = 0 → bs.length + 2 ≤ 3 * k)) AnyErr

theorem extendBranchLoop_writes {l : Nat} {f : List (T.Key × V) → M E (Index T × List (T.Key × V))} (hf : FillWrites cx l f)
    (hfr : ∀ from_, Frame cx (f from_)) (n : Nat) (children : List (Index T)) (from_ : List (T.Key × V)) (s : St E) :
    Post (extendBranchLoop f n children from_) s (fun r s' => ∃ new bs k, r.1 = children ++ new ∧ s'.puts = s.puts ++ bs ∧
      WritesL E cx.sec s'.store new bs ∧ from_.length = k + r.2.length ∧ bs.length + new.length ≤ 3 * k + l ∧
      (r.2 ≠ [] → bs.length + new.length ≤ 3 * k ∧ new.length = n) ∧ (l = 0 → bs.length + 2 * new.length ≤ 3 * k) ∧ (from_ = [] → bs = [] ∧ new = []) ∧
      (from_ ≠ [] → r.2 = [] → 1 ≤ new.length)) AnyErr := by
  induction n generalizing children from_ s with
  | zero =>
    unfold extendBranchLoop
    exact Post.pure fun _ => ⟨[], [], 0, by simp, by simp, .nil, by simp, by simp, fun _ => by simp, fun _ => by simp, fun _ => ⟨rfl, rfl⟩, fun h h' => absurd h' h⟩
  | succ n ih =>
    unfold extendBranchLoop
    by_cases he : from_ = []
    · subst he
      exact Post.pure fun _ => ⟨[], [], 0, by simp, by simp, .nil, by simp, by simp, fun h => absurd rfl h, fun _ => by simp, fun _ => ⟨rfl, rfl⟩, fun h => absurd rfl h⟩
    · rw [if_neg (by simpa using he)]
      refine Post.bind (hfr _) (fun _ => frame_extendBranchLoop hfr _ _ _) (hf from_ s he) ?_
      rintro ⟨c, rest⟩ s1 hx1 _ ⟨bs, k, h1, h2, h3, h4, h5, h6, h6'⟩
      refine Post.mono (frame_extendBranchLoop hfr _ _ _) (ih (children ++ [c]) rest s1) ?_ (fun _ h => h)
      rintro ⟨cs, rest'⟩ s2 hx2 _ ⟨new, bs', k', g1, g2, g3, g4, g5, g6, g6', g7, g8⟩
      simp only at h3 h6 g4 g6 g8
      refine ⟨c :: new, bs ++ bs', k + k', by simp at g1; simp [g1], by rw [g2, h1, List.append_assoc],
        .cons c new bs bs' (h2.mono hx2.store) g3, by simp only; omega, ?_, ?_, fun hl => ?_, fun h => absurd h he, fun _ _ => by simp⟩
      · rw [List.length_append, List.length_cons]
        by_cases hr : rest = []
        · rw [(g7 hr).1, (g7 hr).2]
          simp only [List.length_nil]
          omega
        · have := h6 hr
          omega
      · intro hr'
        have hr : rest ≠ [] := by
          intro hr
          subst hr
          simp only [List.length_nil] at g4
          exact hr' (List.eq_nil_of_length_eq_zero (by simp only; omega))
        have a1 := h6 hr
        have a2 := g6 hr'
        rw [List.length_append, List.length_cons]
        omega
      · have a1 := h6' hl
        have a2 := g6' hl
        rw [List.length_append, List.length_cons]
        omega

theorem extendBranchWith_writes (h : E.Lawful) {l : Nat} {f : List (T.Key × V) → M E (Index T × List (T.Key × V))}
    (hf : FillWrites cx l f) (hfr : ∀ from_, Frame cx (f from_)) (children : List (Index T)) (from_ : List (T.Key × V))
    (mode : CreateMode) (s : St E) {bs0 : List Bytes} (h0 : WritesL E cx.sec s.store children bs0) :
    Post (extendBranchWith cx f children (l + 1) from_ mode) s (fun r s' => ∃ bs k, s'.puts = s.puts ++ bs ∧
      Writes E cx.sec s'.store (.branch r.1) (bs0 ++ bs) ∧ from_.length = k + r.2.length ∧
      ((from_ = [] → bs.length = 1) ∧ (from_ ≠ [] → r.2 = [] → bs.length ≤ 3 * k + l) ∧
        (r.2 ≠ [] → bs.length + (cx.cfg.maxBranches (l + 1) - children.length) ≤ 3 * k + 1) ∧
        (l = 0 → r.2 ≠ [] → bs.length + 2 * (cx.cfg.maxBranches (l + 1) - children.length) ≤ 3 * k + 1)) ∧ (∀ c ∈ children, c.level < r.1.level) ∧ 1 ≤ r.1.level ∧
      (r.1.level = l + 1 ∨ (r.2 = [] ∧ r.1.level ≤ l + 1))) AnyErr := by
  unfold extendBranchWith
  refine Post.assertBind (Or.inr trivial) fun _ => Post.assertBind (Or.inr trivial) fun _ => ?_
  simp only
  refine Post.bind (frame_extendBranchLoop hfr _ _ _)
    (fun _ => Frame.bind (frame_newBranch h _ _) fun _ => Frame.bind (Frame.assert _ _) fun _ => Frame.pure _)
    (extendBranchLoop_writes hf hfr _ children from_ s) ?_
  rintro ⟨cs, rest⟩ s1 hx1 _ ⟨new, bs, k, h1, h2, h3, h4, h5, h6, h6', h7, h8⟩
  simp only at h1 h4 h6 h8 ⊢
  subst h1
  refine Post.bind (frame_newBranch h _ _) (fun _ => Frame.bind (Frame.assert _ _) fun _ => Frame.pure _)
    (newBranch_writes h (children ++ new) mode s1) ?_
  intro i s2 hx2 _ ⟨b, g1, g2, g3, g4⟩
  refine Post.assertBind (Or.inr trivial) fun hass => Post.pure fun _ => ⟨bs ++ [b], k, ?_, ?_, h4, ?_, ?_, g4, ?_⟩
  · rw [g1, h2, List.append_assoc]
  · rw [← List.append_assoc]
    exact g2 _ ((h0.mono (hx1.store.trans hx2.store)).append (h3.mono hx2.store))
  · rw [List.length_append, List.length_singleton]
    refine ⟨fun he => by rw [(h7 he).1]; rfl, fun he hr => ?_, fun hr => ?_, fun hl hr => ?_⟩
    · have := h8 he hr
      omega
    · have := h6 hr
      omega
    · have a1 := h6 hr
      have a2 := h6' hl
      omega
  · intro c hc
    exact g3 c (by simp [hc])
  · by_cases hr : rest = []
    · right
      subst hr
      exact ⟨rfl, by simpa using hass⟩
    · left
      rw [if_pos (by simpa using hr)] at hass
      simp only [Bool.and_eq_true, beq_iff_eq] at hass
      exact hass.1

theorem fillNode_writes (h : E.Lawful) (ht : T.Lawful) (hv : cx.cfg.Valid) (l : Nat) : FillWrites cx l (fillNode cx l) := by
  induction l with
  | zero =>
    intro from_ s hfrom
    unfold fillNode
    refine Post.assertBind (Or.inr trivial) fun _ => ?_
    refine Post.bind (frame_leafFromIter h _) (fun _ => Frame.pure _) (leafFromIter_writes h ht hv from_ s) ?_
    rintro ⟨i, rest⟩ s' _ _ ⟨b, k, h1, h2, h3, h4⟩
    exact Post.pure fun _ => ⟨[b], k, h1, h2, h3, h4, by simp only [List.length_singleton]; omega, fun _ => by simp only [List.length_singleton]; omega,
      fun _ => by simp only [List.length_singleton]; omega⟩
  | succ l ih =>
    intro from_ s hfrom
    unfold fillNode
    refine Post.assertBind (Or.inr trivial) fun _ => ?_
    refine Post.bind (frame_extendBranchWith h (frame_fillNode h l) _ _ _ _) (fun _ => Frame.pure _)
      (extendBranchWith_writes h ih (frame_fillNode h l) [] from_ .packed s .nil) ?_
    rintro ⟨i, rest⟩ s' _ _ ⟨bs, k, h1, h2, h3, ⟨_, h4, h5, h6⟩, _⟩
    simp only [List.length_nil, Nat.sub_zero] at h3 h4 h5 h6
    have hm := maxBranches_pos hv (l + 1)
    have hlen : 0 < from_.length := List.length_pos_iff.mpr hfrom
    have hk : rest ≠ [] → bs.length + 1 ≤ 3 * k := by
      intro hr
      cases l with
      | zero => have := h6 rfl hr; omega
      | succ l => have := h5 hr; have := maxBranches_two hv (l + 1 + 1) (by omega); omega
    refine Post.pure fun _ => ⟨bs, k, h1, h2, h3, ?_, ?_, hk, fun h => by omega⟩
    all_goals
      by_cases hr : rest = []
      · have := h4 hfrom hr
        rw [hr, List.length_nil] at h3
        omega
      · have := hk hr
        omega

theorem extendAboveLoop_writes (h : E.Lawful) (ht : T.Lawful) (hv : cx.cfg.Valid) (L fuel : Nat) (node : Index T)
    (from_ : List (T.Key × V)) (s : St E) {bs0 : List Bytes} (h0 : Writes E cx.sec s.store node bs0) :
    Post (extendAboveLoop cx L fuel node from_) s (fun r s' => ∃ bs k, s'.puts = s.puts ++ bs ∧
      Writes E cx.sec s'.store r.1 (bs0 ++ bs) ∧ from_.length = k + r.2.length ∧ node.level ≤ r.1.level ∧
      (from_ = [] → bs.length ≤ r.1.level - node.level ∧ (1 ≤ node.level → bs = [])) ∧
      (from_ ≠ [] → r.2 = [] → bs.length ≤ 3 * k + r.1.level ∧ node.level < r.1.level ∧ (1 ≤ node.level → bs.length + 1 ≤ 3 * k + r.1.level) ∧
        (r.1.level = node.level + 1 → bs.length + 1 ≤ 3 * k + r.1.level)) ∧
      (r.2 ≠ [] → bs.length ≤ 3 * k + 1 ∧ bs.length ≤ 3 * k + (r.1.level - node.level) ∧ (1 ≤ node.level → bs.length ≤ 3 * k))) AnyErr := by
  induction fuel generalizing node from_ s bs0 with
  | zero =>
    unfold extendAboveLoop
    split
    · exact Post.throw fun _ => trivial
    · exact Post.pure fun _ => ⟨[], 0, by simp, by simpa using h0, by simp, Nat.le_refl _, fun _ => ⟨by simp, fun _ => rfl⟩,
        fun h1 h2 => absurd h2 h1, fun _ => ⟨by simp, by simp, fun _ => by simp⟩⟩
  | succ fuel ih =>
    unfold extendAboveLoop
    split
    · rename_i hc
      simp only
      rw [extendBranch_succ]
      refine Post.bind (frame_extendBranchWith h (frame_fillNode h _) _ _ _ _) (fun _ => frame_extendAboveLoop h _ _ _ _)
        (extendBranchWith_writes h (fillNode_writes h ht hv node.level) (frame_fillNode h node.level) [node] from_ .packed s (.single h0)) ?_
      rintro ⟨i, rest⟩ s1 hx1 _ ⟨bs, k, h1, h2, h3, ⟨h4, h4', h5, h5'⟩, h6, h7, h8⟩
      simp only [List.length_singleton] at h2 h3 h4 h4' h5 h6 h8 ⊢
      have hmore : rest ≠ [] → bs.length ≤ 3 * k + 1 ∧ (1 ≤ node.level → bs.length ≤ 3 * k) := by
        intro hr
        have a1 := h5 hr
        refine ⟨by omega, fun hl => ?_⟩
        have := maxBranches_two hv (node.level + 1) (by omega)
        omega
      have hlv : i.level = node.level + 1 := by
        have := h6 node (by simp)
        omega
      refine Post.mono (frame_extendAboveLoop h _ _ _ _) (ih (.branch i) rest s1 h2) ?_ (fun _ h => h)
      rintro ⟨r, rest'⟩ s2 hx2 _ ⟨bs', k', g1, g2, g3, g4, g5, g6, g7⟩
      simp only at g2 g3 g4 g5 g6 g7
      rw [show (Index.branch i).level = node.level + 1 from hlv] at g4 g5 g6 g7
      have hend : rest = [] → bs' = [] ∧ k' = 0 ∧ rest' = [] := by
        intro hr
        refine ⟨(g5 hr).2 (by omega), ?_, ?_⟩
        · rw [hr, List.length_nil] at g3
          omega
        · rw [hr, List.length_nil] at g3
          exact List.eq_nil_of_length_eq_zero (by omega)
      refine ⟨bs ++ bs', k + k', by rw [g1, h1, List.append_assoc], by rw [← List.append_assoc]; exact g2, by simp only; omega,
        by simp only; omega, fun he => ⟨?_, fun hl => ?_⟩, fun he hr' => ?_, fun hr' => ?_⟩
      · have hr : rest = [] := by
          rw [he, List.length_nil] at h3
          exact List.eq_nil_of_length_eq_zero (by omega)
        rw [(hend hr).1, List.append_nil, h4 he]
        simp only
        omega
      · subst he
        simp only [List.isEmpty_nil, Bool.not_true, Bool.false_or, Bool.and_eq_true, beq_iff_eq] at hc
        omega
      · rw [List.length_append]
        simp only at hr' ⊢
        by_cases hr : rest = []
        · rw [(hend hr).1, (hend hr).2.1]
          have := h4' he hr
          simp only [List.length_nil]
          omega
        · have a1 := hmore hr
          have a2 := g6 hr hr'
          have a3 := a2.2.2.1 (by omega)
          omega
      · rw [List.length_append]
        simp only at hr' ⊢
        have hr : rest ≠ [] := fun hr => hr' (hend hr).2.2
        have a1 := hmore hr
        have a2 := g7 hr'
        have a3 := a2.2.2 (by omega)
        omega
    · exact Post.pure fun _ => ⟨[], 0, by simp, by simpa using h0, by simp, Nat.le_refl _, fun _ => ⟨by simp, fun _ => rfl⟩,
        fun h1 h2 => absurd h2 h1, fun _ => ⟨by simp, by simp, fun _ => by simp⟩⟩

/-- What `extend0` writes. -/
def Ext0Writes (cx : Ctx E) (ext0 : Index T → List (T.Key × V) → M E (Index T × List (T.Key × V))) : Prop :=
  ∀ i from_ s, Post (ext0 i from_) s (fun r s' => ∃ bs k, s'.puts = s.puts ++ bs ∧ Writes E cx.sec s'.store r.1 bs ∧
    from_.length = k + r.2.length ∧ (from_ = [] → bs = []) ∧ (from_ ≠ [] → r.2 = [] → bs.length ≤ 3 * k + 2 * i.level - 1) ∧
    (r.2 ≠ [] → bs.length ≤ 3 * k + i.level + 1) ∧
    (r.1.level = i.level ∨ (r.2 = [] ∧ 1 ≤ r.1.level))) AnyErr

theorem extendAboveWith_writes (h : E.Lawful) (ht : T.Lawful) (hv : cx.cfg.Valid)
    {ext0 : Index T → List (T.Key × V) → M E (Index T × List (T.Key × V))} (h0 : Ext0Writes cx ext0)
    (hfr : ∀ i from_, Frame cx (ext0 i from_)) (node : Option (Index T)) (L : Nat) (from_ : List (T.Key × V)) (s : St E) :
    Post (extendAboveWith cx ext0 node L from_) s (fun r s' => ∃ bs k, s'.puts = s.puts ++ bs ∧ Writes E cx.sec s'.store r.1 bs ∧
      from_.length = k + r.2.length ∧ rootLevel node ≤ L ∧ r.1.level ≤ L ∧
      (r.2 = [] → bs.length ≤ 3 * k + 2 * max (rootLevel node) r.1.level - 1) ∧ (r.2 ≠ [] → bs.length ≤ 3 * k + r.1.level + 1)) AnyErr := by
  unfold extendAboveWith
  refine Post.ensureBind (Or.inr trivial) fun hne => Post.assertBind (Or.inr trivial) fun hL => ?_
  have hne : from_ ≠ [] := by simpa using hne
  have hL : rootLevel node ≤ L := by
    cases node with
    | none => exact Nat.zero_le _
    | some n => simpa [rootLevel] using hL
  have hstart : Post (extendStart cx ext0 node from_) s (fun r s' => ∃ bs k, s'.puts = s.puts ++ bs ∧ Writes E cx.sec s'.store r.1 bs ∧
      from_.length = k + r.2.length ∧ (r.2 = [] → bs.length ≤ 3 * k + 2 * rootLevel node - 1 ∧ 1 ≤ k) ∧
      (r.2 ≠ [] → bs.length ≤ 3 * k + rootLevel node + 1) ∧
      (r.1.level = rootLevel node ∨ (r.2 = [] ∧ 1 ≤ r.1.level))) AnyErr := by
    unfold extendStart
    cases node with
    | some n =>
      refine Post.mono (hfr n from_) (h0 n from_ s) ?_ (fun _ h => h)
      rintro ⟨i, rest⟩ s' _ _ ⟨bs, k, h1, h2, h3, _, h5, h6, h7⟩
      have hlen := List.length_pos_iff.mpr hne
      exact ⟨bs, k, h1, h2, h3, fun hr => ⟨h5 hne hr, by simp only at hr h3; rw [hr, List.length_nil] at h3; omega⟩, h6, h7⟩
    | none =>
      simp only
      refine Post.bind (frame_leafFromIter h _) (fun _ => Frame.pure _) (leafFromIter_writes h ht hv from_ s) ?_
      rintro ⟨i, rest⟩ s' _ _ ⟨b, k, h1, h2, h3, h4⟩
      exact Post.pure fun _ => ⟨[b], k, h1, h2, h3, fun _ => ⟨by simp only [List.length_singleton]; omega, h4⟩,
        fun _ => by simp only [List.length_singleton]; omega, Or.inl rfl⟩
  have hfs : Frame cx (extendStart cx ext0 node from_) := by
    unfold extendStart
    cases node with
    | some n => exact hfr n from_
    | none => exact Frame.bind (frame_leafFromIter h _) fun _ => Frame.pure _
  refine Post.bind hfs (fun _ => Frame.bind (frame_extendAboveLoop h _ _ _ _) fun _ =>
    Frame.bind (Frame.assert _ _) fun _ => Frame.pure _) hstart ?_
  rintro ⟨i, rest⟩ s1 hx1 _ ⟨bs, k, h1, h2, h3, h4, h4', h5⟩
  simp only at h2 h3 h4 h4' h5 ⊢
  refine Post.bind (frame_extendAboveLoop h _ _ _ _) (fun _ => Frame.bind (Frame.assert _ _) fun _ => Frame.pure _)
    (extendAboveLoop_writes h ht hv L (L - i.level) i rest s1 h2) ?_
  rintro ⟨r, rest'⟩ s2 hx2 _ ⟨bs', k', g1, g2, g3, g4, g5, g6, g7⟩
  simp only at g2 g3 g4 g5 g6 g7 ⊢
  refine Post.assertBind (Or.inr trivial) fun hass => Post.pure fun _ => ⟨bs ++ bs', k + k', by rw [g1, h1, List.append_assoc], g2,
    by simp only; omega, hL, ?_, ?_, ?_⟩
  · simp only
    split at hass
    · simp only [Bool.and_eq_true, beq_iff_eq] at hass
      omega
    · simpa using hass
  · intro hr'
    simp only at hr' ⊢
    rw [List.length_append]
    by_cases hr : rest = []
    · have a1 := h4 hr
      have a2 := g5 hr
      rcases h5 with h5 | ⟨_, h5⟩
      · omega
      · rw [a2.2 h5]
        simp only [List.length_nil]
        omega
    · have a1 := h4' hr
      have a2 := g6 hr hr'
      have a3 : i.level = rootLevel node := by
        rcases h5 with h5 | ⟨h5, _⟩
        · exact h5
        · exact absurd h5 hr
      by_cases hn : 1 ≤ i.level
      · have := a2.2.2.1 hn
        omega
      · have := a2.2.2.2
        omega
  · intro hr'
    simp only at hr' ⊢
    rw [List.length_append]
    have hr : rest ≠ [] := by
      intro hr
      rw [hr, List.length_nil] at g3
      exact hr' (List.eq_nil_of_length_eq_zero (by omega))
    have a1 := h4' hr
    have a2 := g7 hr'
    have a3 : i.level = rootLevel node := by
      rcases h5 with h5 | ⟨h5, _⟩
      · exact h5
      · exact absurd h5 hr
    omega

theorem extend0_writes (h : E.Lawful) (ht : T.Lawful) (hv : cx.cfg.Valid) (fuel : Nat) : Ext0Writes cx (extend0 cx fuel) := by
  induction fuel with
  | zero => intro i from_ s; exact Post.throw fun _ => trivial
  | succ fuel ih =>
    intro i from_ s
    have hold : Post (Pure.pure (i, from_) : M E (Index T × List (T.Key × V))) s (fun r s' => ∃ bs k, s'.puts = s.puts ++ bs ∧ Writes E cx.sec s'.store r.1 bs ∧
        from_.length = k + r.2.length ∧ (from_ = [] → bs = []) ∧ (from_ ≠ [] → r.2 = [] → bs.length ≤ 3 * k + 2 * i.level - 1) ∧
    (r.2 ≠ [] → bs.length ≤ 3 * k + i.level + 1) ∧ (r.1.level = i.level ∨ (r.2 = [] ∧ 1 ≤ r.1.level))) AnyErr :=
      Post.pure fun _ => ⟨[], 0, by simp, .old _, by simp, fun _ => rfl, fun h1 h2 => absurd h2 h1, fun _ => by simp, Or.inl rfl⟩
    unfold extend0
    split
    · exact hold
    · rename_i hgo
      have hne : from_ ≠ [] := by
        intro hc
        rw [hc] at hgo
        simp at hgo
      cases i with
      | leaf i =>
        simp only
        cases hl : i.link with
        | none => exact hold
        | some link =>
          simp only
          refine Post.bind (frame_loadLeafM _ _) (fun _ => Frame.bind (frame_extendLeaf h _ _ _) fun _ => Frame.pure _)
            (Q := fun _ s' => s'.puts = s.puts) ?_ ?_
          · unfold Post loadLeafM
            cases loadLeafFromLink E cx.sec s.store link with
            | ok a => exact fun _ => rfl
            | error e => exact fun _ => trivial
          · intro z s1 _ _ hp
            refine Post.bind (frame_extendLeaf h _ _ _) (fun _ => Frame.pure _) (extendLeaf_writes h _ _ _ s1) ?_
            rintro ⟨i', rest⟩ s2 _ _ ⟨b, k, h1, h2, h3⟩
            have hlen : 0 < from_.length := List.length_pos_iff.mpr hne
            refine Post.pure fun _ => ⟨[b], k, by rw [h1, hp], h2, h3, fun h => absurd h hne, fun _ hr => ?_, fun _ => ?_, Or.inl rfl⟩
            · simp only at h3 hr
              rw [hr, List.length_nil] at h3
              simp only [List.length_singleton]
              omega
            · simp only [List.length_singleton]
              omega
      | branch i =>
        simp only
        cases hl : i.link with
        | none => exact hold
        | some link =>
          simp only
          have hfl : ∀ cs, Frame cx (extendLast (fun node from_ => extendAboveWith cx (extend0 cx fuel) node (i.level - 1) from_) cs from_) := by
            intro cs
            unfold extendLast
            split
            · exact Frame.pure _
            · exact Frame.bind (frame_extendAboveWith h (frame_extend0 h fuel) _ _ _) fun _ => Frame.pure _
          refine Post.bind (frame_loadBranchCached h _) (fun _ => Frame.bind (hfl _) fun _ => Frame.bind (frame_extendBranch h _ _ _ _) fun _ => Frame.pure _)
            (Q := fun _ s' => s'.puts = s.puts) (loadBranchCached_puts link s) ?_
          intro z s1 _ _ hp
          have hlast : Post (extendLast (fun node from_ => extendAboveWith cx (extend0 cx fuel) node (i.level - 1) from_) z.children from_) s1
              (fun r s' => ∃ bs k, s'.puts = s1.puts ++ bs ∧ WritesL E cx.sec s'.store r.1 bs ∧ from_.length = k + r.2.length ∧
                (r.2 = [] → bs.length ≤ 3 * k + 2 * (i.level - 1) - 1) ∧ (r.2 ≠ [] → bs.length ≤ 3 * k + (i.level - 1) + 1)) AnyErr := by
            unfold extendLast
            split
            · exact Post.pure fun _ => ⟨[], 0, by simp, .old _, by simp, fun _ => by simp, fun _ => by simp⟩
            · rename_i last hla
              refine Post.bind (frame_extendAboveWith h (frame_extend0 h fuel) _ _ _) (fun _ => Frame.pure _)
                (extendAboveWith_writes h ht hv ih (frame_extend0 h fuel) (some last) (i.level - 1) from_ s1) ?_
              rintro ⟨r, rest⟩ s2 _ _ ⟨bs, k, h1, h2, h3, h4, h5, h6, h7⟩
              simp only at h2 h3 h5 h6 h7
              refine Post.pure fun _ => ⟨bs, k, h1, ?_, h3, fun hr => ?_, fun hr => ?_⟩
              · have := (WritesL.old (E := E) (sec := cx.sec) (σ := s2.store) z.children.dropLast).append (.single h2)
                simpa using this
              · exact Nat.le_trans (h6 hr) (by omega)
              · exact Nat.le_trans (h7 hr) (by omega)
          refine Post.bind (hfl _) (fun _ => Frame.bind (frame_extendBranch h _ _ _ _) fun _ => Frame.pure _) hlast ?_
          rintro ⟨cs, rest⟩ s2 _ _ ⟨bs, k, h1, h2, h3, h4, h4'⟩
          simp only at h2 h3 h4 h4' ⊢
          cases hlv : i.level with
          | zero => exact fun _ => trivial
          | succ l =>
            rw [extendBranch_succ]
            refine Post.bind (frame_extendBranchWith h (frame_fillNode h _) _ _ _ _) (fun _ => Frame.pure _)
              (extendBranchWith_writes h (fillNode_writes h ht hv l) (frame_fillNode h l) cs rest .packed s2 h2) ?_
            rintro ⟨i', rest'⟩ s3 _ _ ⟨bs', k', g1, g2, g3, ⟨g4, g4', g5, _⟩, _, g7, g8⟩
            simp only at g2 g3 g4 g4' g5 g7 g8
            rw [hlv, Nat.add_sub_cancel] at h4 h4'
            refine Post.pure fun _ => ⟨bs ++ bs', k + k', by rw [g1, h1, hp, List.append_assoc], g2, by simp only; omega,
              fun h => absurd h hne, fun _ hr' => ?_, fun hr' => ?_, ?_⟩
            · rw [List.length_append]
              simp only [Index.level] at hr' ⊢
              rw [hlv]
              by_cases hr : rest = []
              · have a1 := h4 hr
                have a2 := g4 hr
                omega
              · have a1 := h4' hr
                have a2 := g4' hr hr'
                omega
            · rw [List.length_append]
              simp only [Index.level] at hr' ⊢
              rw [hlv]
              have hr : rest ≠ [] := by
                intro hr
                rw [hr, List.length_nil] at g3
                exact hr' (List.eq_nil_of_length_eq_zero (by omega))
              have a1 := h4' hr
              have a2 := g5 hr'
              omega
            · simp only [Index.level]
              rw [hlv]
              rcases g8 with g8 | ⟨g8, _⟩
              · exact Or.inl g8
              · exact Or.inr ⟨g8, g7⟩

theorem extendAbove_writes (h : E.Lawful) (ht : T.Lawful) (hv : cx.cfg.Valid) (fuel : Nat) (node : Option (Index T)) (L : Nat)
    (from_ : List (T.Key × V)) (s : St E) :
    Post (extendAbove cx fuel node L from_) s (fun r s' => ∃ bs k, s'.puts = s.puts ++ bs ∧ Writes E cx.sec s'.store r.1 bs ∧
      from_.length = k + r.2.length ∧ rootLevel node ≤ L ∧ r.1.level ≤ L ∧
      (r.2 = [] → bs.length ≤ 3 * k + 2 * max (rootLevel node) r.1.level - 1) ∧ (r.2 ≠ [] → bs.length ≤ 3 * k + r.1.level + 1)) AnyErr :=
  extendAboveWith_writes h ht hv (extend0_writes h ht hv fuel) (frame_extend0 h fuel) node L from_ s

theorem writes_total {α : Type} {rest : List α} {n k r a m : Nat} (h3 : n = k + rest.length) (h6 : rest = [] → a ≤ 3 * k + 2 * m - 1)
    (h7 : rest ≠ [] → a ≤ 3 * k + r + 1) (hr : r ≤ m) : a ≤ 3 * n + 2 * m - 1 := by
  by_cases hrest : rest = []
  · have := h6 hrest
    omega
  · have := h7 hrest
    have := List.length_pos_iff.mpr hrest
    omega

/-- What `extend` writes. -/
theorem extend_writes (h : E.Lawful) (ht : T.Lawful) (hv : cx.cfg.Valid) (fuel : Nat) (xs : List (T.Key × V)) (s : St E) :
    Post (extend cx fuel xs) s (fun _ s' => ∃ bs, s'.puts = s.puts ++ bs ∧ (∀ i, s'.root = some i → Writes E cx.sec s'.store i bs) ∧
      (s'.root = none → bs = []) ∧ bs.length ≤ 3 * xs.length + 2 * max (rootLevel s.root) (rootLevel s'.root) - 1) AnyErr := by
  unfold extend
  split
  · exact Post.pure fun _ => ⟨[], by simp, fun i _ => .old i, fun _ => rfl, by simp⟩
  · refine Post.getIndexBind ?_
    refine Post.bind0 (frame_extendAbove h _ _ _ _).frame0 (fun _ => frame0_setIndex _) (extendAbove_writes h ht hv fuel s.root u32max xs s) ?_
    rintro ⟨i, rest⟩ s1 _ _ ⟨bs, k, h1, h2, h3, h4, h5, h6, h7⟩
    simp only at h2 h3 h5 h6 h7 ⊢
    intro _
    refine ⟨bs, h1, fun j hj => by cases hj; exact h2, fun hc => (nomatch hc), ?_⟩
    show bs.length ≤ 3 * xs.length + 2 * max (rootLevel s.root) i.level - 1
    exact writes_total h3 h6 h7 (by omega)

/-- What `extend_unpacked` writes. -/
theorem extendUnpacked_writes (h : E.Lawful) (ht : T.Lawful) (hv : cx.cfg.Valid) (fuel : Nat) (xs : List (T.Key × V)) (s : St E) :
    Post (extendUnpacked cx fuel xs) s (fun _ s' => ∃ bs, s'.puts = s.puts ++ bs ∧ (∀ i, s'.root = some i → Writes E cx.sec s'.store i bs) ∧
      (s'.root = none → bs = []) ∧ bs.length ≤ 3 * xs.length + 2 * rootLevel s'.root - 1) AnyErr := by
  unfold extendUnpacked
  refine Post.getIndexBind ?_
  refine Post.bind0 (frame_extendUnpacked0 h _ _ _).frame0 (fun _ => frame0_setIndex _)
    (Q := fun r s' => ∃ bs, s'.puts = s.puts ++ bs ∧ (∀ i, r = some i → Writes E cx.sec s'.store i bs) ∧
      (r = none → bs = []) ∧ bs.length ≤ 3 * xs.length + 2 * rootLevel r - 1) ?_ ?_
  · unfold extendUnpacked0
    split
    · exact Post.pure fun _ => ⟨[], by simp, fun i _ => .old i, fun _ => rfl, by simp⟩
    · refine Post.bind (frame_extendAbove h _ _ _ _) (fun r => ?_) (extendAbove_writes h ht hv fuel none u32max xs s) ?_
      · cases s.root with
        | none => exact Frame.pure _
        | some a => exact Frame.bind (frame_extendBranch h _ _ _ _) fun _ => Frame.pure _
      · rintro ⟨b, rest⟩ s1 _ _ ⟨bs, k, h1, h2, h3, h4, h5, h6, h7⟩
        simp only [rootLevel, Nat.zero_max] at h2 h3 h5 h6 h7 ⊢
        cases s.root with
        | none =>
          exact Post.pure fun _ => ⟨bs, h1, fun j hj => by cases hj; exact h2, fun hc => (nomatch hc),
            writes_total h3 h6 h7 (Nat.le_refl _)⟩
        | some a =>
          simp only
          rw [extendBranch_succ]
          refine Post.bind (frame_extendBranchWith h (frame_fillNode h _) _ _ _ _) (fun _ => Frame.pure _)
            (extendBranchWith_writes h (fillNode_writes h ht hv _) (frame_fillNode h _) [a, b] rest .unpacked s1
              ((WritesL.old [a]).append (.single h2))) ?_
          rintro ⟨i', rest'⟩ s2 _ _ ⟨bs', k', g1, g2, g3, ⟨g4, g4', g5, _⟩, g6, _, g8⟩
          simp only at g2 g3 g4 g4' g5 g6 g8
          refine Post.pure fun _ => ⟨bs ++ bs', by rw [g1, h1, List.append_assoc], fun j hj => by cases hj; exact g2,
            fun hc => (nomatch hc), ?_⟩
          have b1 := g6 a (by simp)
          have b2 := g6 b (by simp)
          rw [List.length_append]
          simp only [rootLevel, Index.level]
          generalize hm : max a.level b.level = m at *
          by_cases hr : rest = []
          · have a1 := h6 hr
            have a2 := g4 hr
            omega
          · have a1 := h7 hr
            have hlen := List.length_pos_iff.mpr hr
            by_cases hr' : rest' = []
            · have a2 := g4' hr hr'
              omega
            · have a2 := g5 hr'
              have hlen' := List.length_pos_iff.mpr hr'
              omega
  · rintro r s1 _ _ ⟨bs, h1, h2, h3, h4⟩
    exact fun _ => ⟨bs, h1, h2, h3, h4⟩

/-! ### purging and repairing -/

/-- What is written below a node that may be replaced. -/
def Replaces (E : Env T V) (sec : Secrets E) (σ : E.σ) (old new : Index T) (bs : List Bytes) : Prop :=
  Writes E sec σ new bs ∧ (new.link = old.link → Writes E sec σ old bs)

theorem Replaces.refl {sec : Secrets E} {σ : E.σ} (i : Index T) : Replaces E sec σ i i [] := ⟨.old i, fun _ => .old i⟩

theorem Writes.relink {sec : Secrets E} {σ : E.σ} {i j : BranchIndex T} {bs : List Bytes} (h : Writes E sec σ (.branch i) bs)
    (hl : i.link = j.link) : Writes E sec σ (.branch j) bs := by
  cases h with
  | old => exact .old _
  | branch _ l b cs r bs h1 h2 h3 h4 => exact .branch j l b cs r bs (hl ▸ h1) h2 h3 h4
  | under _ l cs r bs h1 h2 h3 => exact .under j l cs r bs (hl ▸ h1) h2 h3

theorem Replaces.mono {sec : Secrets E} {a b : E.σ} (h : StoreLe E a b) {i j : Index T} {bs : List Bytes}
    (hw : Replaces E sec a i j bs) : Replaces E sec b i j bs := ⟨hw.1.mono h, fun hl => (hw.2 hl).mono h⟩

theorem retainLoop_writes {rec : Nat → Index T → Int → M E (Index T × Int)} (hfr : ∀ o i l, Frame cx (rec o i l))
    (hrec : ∀ o i l s, Post (rec o i l) s (fun r s' => ∃ bs, s'.puts = s.puts ++ bs ∧ Replaces E cx.sec s'.store i r.1 bs) AnyErr)
    (cs : List (Index T)) (o : Nat) (l : Int) (s : St E) :
    Post (retainLoop rec cs o l) s (fun r s' => ∃ bs, s'.puts = s.puts ++ bs ∧ WritesL E cx.sec s'.store r.1 bs ∧
      r.1.length = cs.length ∧ (r.2.1 = false → r.1 = cs)) AnyErr := by
  induction cs generalizing o l s with
  | nil => exact Post.pure fun _ => ⟨[], by simp, .nil, rfl, fun _ => rfl⟩
  | cons c cs ih =>
    unfold retainLoop
    refine Post.bind (hfr _ _ _) (fun _ => Frame.bind (frame_retainLoop hfr _ _ _) fun r => ?_) (hrec o c l s) ?_
    · obtain ⟨a, b, c⟩ := r
      simp only
      split <;> exact Frame.pure _
    · rintro ⟨c1, l1⟩ s1 _ _ ⟨bs, h1, h2⟩
      refine Post.bind (frame_retainLoop hfr _ _ _) (fun r => ?_) (ih (o + c.count) l1 s1) ?_
      · obtain ⟨a, b, c⟩ := r
        simp only
        split <;> exact Frame.pure _
      · rintro ⟨rest, changed, l2⟩ s2 hx2 _ ⟨bs', g1, g2, g3, g4⟩
        simp only at g2 g3 g4 ⊢
        have h2 := h2.mono hx2.store
        split
        · exact Post.pure fun _ => ⟨bs ++ bs', by rw [g1, h1, List.append_assoc], .cons _ _ _ _ h2.1 g2, by simp [g3], fun hc => (nomatch hc)⟩
        · rename_i hl
          exact Post.pure fun _ => ⟨bs ++ bs', by rw [g1, h1, List.append_assoc], .cons _ _ _ _ (h2.2 (Classical.not_not.mp hl)) g2,
            by simp [g3], fun hc => by rw [g4 hc]⟩

theorem loadBranch_some {sec : Secrets E} {σ : E.σ} {i : BranchIndex T} {b : Branch T} (h : loadBranch E sec σ i = .ok (some b)) :
    ∃ l, i.link = some l ∧ loadBranchFromLink E sec σ l = .ok b := by
  unfold loadBranch at h
  split at h
  · cases h
  · rename_i l hl
    refine ⟨l, hl, ?_⟩
    split at h
    · cases h
    · rename_i hb
      cases h
      exact hb

theorem loadBranchFromLink_ne {sec : Secrets E} {σ : E.σ} {l : T.Link} {b : Branch T} (h : loadBranchFromLink E sec σ l = .ok b) :
    b.children ≠ [] := by
  unfold loadBranchFromLink at h
  split at h
  · cases h
  · split at h
    · cases h
    · unfold mkBranch at h
      split at h
      · cases h
      · rename_i hne
        cases h
        simpa using hne

/-- A branch whose children have been replaced. -/
theorem rewrite_writes (h : E.Lawful) {α : Type} (b : BranchIndex T) (node : Branch T) (children : List (Index T)) (changed : Bool) (x : α)
    {s s0 : St E} {bs : List Bytes} (hp : s.puts = s0.puts ++ bs) (hl : ∃ l, b.link = some l ∧ loadBranchFromLink E cx.sec s.store l = .ok node)
    (hw : WritesL E cx.sec s.store children bs) (hlen : children.length = node.children.length) (hch : changed = false → children = node.children) :
    Post (if changed then persistBranch cx children >>= fun r => Pure.pure (.branch { b with link := some r.1 }, x)
      else Pure.pure (.branch b, x) : M E (Index T × α)) s
      (fun r s' => ∃ bs, s'.puts = s0.puts ++ bs ∧ Writes E cx.sec s'.store r.1 bs ∧ ∃ j, r.1 = .branch j) AnyErr := by
  obtain ⟨l, h1, h2⟩ := hl
  split
  · have hne : children ≠ [] := by
      intro hc
      rw [hc] at hlen
      exact loadBranchFromLink_ne h2 (List.eq_nil_of_length_eq_zero hlen.symm)
    refine Post.bind (frame_persistBranch h _) (fun _ => Frame.pure _) (persistBranch_writes h children hne s) ?_
    rintro ⟨l', n⟩ s' hx _ ⟨d, g1, g2⟩
    exact Post.pure fun _ => ⟨bs ++ [d], by rw [g1, hp, List.append_assoc], g2 _ bs rfl (hw.mono hx.store), _, rfl⟩
  · rename_i hc
    have hc := hch (by simpa using hc)
    subst hc
    obtain ⟨cs, r⟩ := node
    exact Post.pure fun _ => ⟨bs, hp, .under b l cs r bs h1 h2 hw, _, rfl⟩

theorem retain0_writes (h : E.Lawful) (q : Query T) (fuel : Nat) (o : Nat) (i : Index T) (l : Int) (s : St E) :
    Post (retain0 cx q fuel o i l) s (fun r s' => ∃ bs, s'.puts = s.puts ++ bs ∧ Replaces E cx.sec s'.store i r.1 bs) AnyErr := by
  induction fuel generalizing o i l s with
  | zero => exact Post.throw fun _ => trivial
  | succ fuel ih =>
    unfold retain0
    simp only
    cases i with
    | leaf i =>
      simp only
      have : ∀ j : LeafIndex T, Post (Pure.pure (Index.leaf j, retainLevel (Index.leaf i) l) : M E (Index T × Int)) s
          (fun r s' => ∃ bs, s'.puts = s.puts ++ bs ∧ Replaces E cx.sec s'.store (.leaf i) r.1 bs) AnyErr :=
        fun j => Post.pure fun _ => ⟨[], by simp, .old _, fun _ => .old _⟩
      split
      · split <;> exact this _
      · exact this _
    | branch i =>
      simp only
      generalize (if i.link.isSome && i.isSealed && !(anyTrue (q.intersecting o i (List.replicate (T.sums.len i.summaries) true))) &&
        decide ((i.level : Int) ≤ retainLevel (Index.branch i) l) then ({ i with link := none } : BranchIndex T) else i) = i'
      refine Post.bind (cx := cx) (frame_loadBranchOpt _ _) (fun r => ?_) (Q := fun r s' => s' = s ∧ loadBranch E cx.sec s.store i' = .ok r) ?_ ?_
      · split
        · exact Frame.pure _
        · refine Frame.bind (frame_retainLoop (frame_retain0 h q fuel) _ _ _) fun r => ?_
          obtain ⟨a, b, c⟩ := r
          simp only
          split
          · exact Frame.bind (frame_persistBranch h _) fun _ => Frame.pure _
          · exact Frame.pure _
      · unfold Post loadBranchOpt
        cases loadBranch E cx.sec s.store i' with
        | ok a => exact fun _ => ⟨rfl, rfl⟩
        | error e => exact fun _ => trivial
      · rintro r s1 _ _ ⟨rfl, hr⟩
        cases r with
        | none => exact Post.pure fun _ => ⟨[], by simp, .old _, fun _ => .old _⟩
        | some node =>
          simp only
          obtain ⟨lk, g1, g2⟩ := loadBranch_some hr
          refine Post.bind (frame_retainLoop (frame_retain0 h q fuel) _ _ _) (fun r => ?_)
            (retainLoop_writes (frame_retain0 h q fuel) ih node.children o (retainLevel (Index.branch i) l) s1) ?_
          · obtain ⟨a, b, c⟩ := r
            simp only
            split
            · exact Frame.bind (frame_persistBranch h _) fun _ => Frame.pure _
            · exact Frame.pure _
          · rintro ⟨cs, changed, l2⟩ s2 hx2 _ ⟨bs, k1, k2, k3, k4⟩
            simp only at k2 k3 k4 ⊢
            have := rewrite_writes (cx := cx) h i' node cs changed l2 k1 ⟨lk, g1, loadBranchFromLink_mono hx2.store g2⟩ k2 k3 k4
            refine Post.mono (cx := cx) ?_ this ?_ (fun _ h => h)
            · split
              · exact Frame.bind (frame_persistBranch h _) fun _ => Frame.pure _
              · exact Frame.pure _
            · rintro ⟨r, l3⟩ s3 _ _ ⟨bs', m1, m2, j, m3⟩
              simp only at m2 m3
              subst m3
              exact ⟨bs', m1, m2, fun hl => m2.relink hl⟩

theorem repairLoop_writes {rec : Index T → List (RepairMsg T) → Int → M E (Index T × List (RepairMsg T) × Int)}
    (hfr : ∀ i r l, Frame cx (rec i r l))
    (hrec : ∀ i r l s, Post (rec i r l) s (fun r s' => ∃ bs, s'.puts = s.puts ++ bs ∧ Replaces E cx.sec s'.store i r.1 bs) AnyErr)
    (cs : List (Index T)) (rep : List (RepairMsg T)) (l : Int) (s : St E) :
    Post (repairLoop rec cs rep l) s (fun r s' => ∃ bs, s'.puts = s.puts ++ bs ∧ WritesL E cx.sec s'.store r.1 bs ∧
      r.1.length = cs.length ∧ (r.2.1 = false → r.1 = cs)) AnyErr := by
  induction cs generalizing rep l s with
  | nil => exact Post.pure fun _ => ⟨[], by simp, .nil, rfl, fun _ => rfl⟩
  | cons c cs ih =>
    unfold repairLoop
    refine Post.bind (hfr _ _ _) (fun _ => Frame.bind (frame_repairLoop hfr _ _ _) fun r => ?_) (hrec c rep l s) ?_
    · obtain ⟨a, b, c⟩ := r
      simp only
      split <;> exact Frame.pure _
    · rintro ⟨c1, rep1, l1⟩ s1 _ _ ⟨bs, h1, h2⟩
      refine Post.bind (frame_repairLoop hfr _ _ _) (fun r => ?_) (ih rep1 l1 s1) ?_
      · obtain ⟨a, b, c⟩ := r
        simp only
        split <;> exact Frame.pure _
      · rintro ⟨rest, changed, rep2, l2⟩ s2 hx2 _ ⟨bs', g1, g2, g3, g4⟩
        simp only at g2 g3 g4 ⊢
        have h2 := h2.mono hx2.store
        split
        · exact Post.pure fun _ => ⟨bs ++ bs', by rw [g1, h1, List.append_assoc], .cons _ _ _ _ h2.1 g2, by simp [g3], fun hc => (nomatch hc)⟩
        · rename_i hl
          exact Post.pure fun _ => ⟨bs ++ bs', by rw [g1, h1, List.append_assoc], .cons _ _ _ _ (h2.2 (Classical.not_not.mp hl)) g2,
            by simp [g3], fun hc => by rw [g4 hc]⟩

theorem repair0_writes (h : E.Lawful) (fuel : Nat) (i : Index T) (rep : List (RepairMsg T)) (l : Int) (s : St E) :
    Post (repair0 cx fuel i rep l) s (fun r s' => ∃ bs, s'.puts = s.puts ++ bs ∧ Replaces E cx.sec s'.store i r.1 bs) AnyErr := by
  induction fuel generalizing i rep l s with
  | zero => exact Post.throw fun _ => trivial
  | succ fuel ih =>
    unfold Post repair0
    simp only
    have hold : ∀ j : Index T, ∃ bs, s.puts = s.puts ++ bs ∧ Replaces E cx.sec s.store i j bs :=
      fun j => ⟨[], by simp, .old _, fun _ => .old _⟩
    cases i with
    | leaf i =>
      simp only
      cases loadLeaf E cx.sec s.store i with
      | error e => cases e <;> first | exact fun _ => hold _ | exact fun _ => trivial
      | ok o => exact fun _ => hold _
    | branch i =>
      simp only
      cases hl : loadBranch E cx.sec s.store i with
      | error e => cases e <;> first | exact fun _ => hold _ | exact fun _ => trivial
      | ok o =>
        cases o with
        | none => exact fun _ => hold _
        | some node =>
          simp only
          obtain ⟨lk, g1, g2⟩ := loadBranch_some hl
          refine Post.bind (cx := cx) (s := s) (Q' := fun (r : Index T × List (RepairMsg T) × Int) s' => ∃ bs, s'.puts = s.puts ++ bs ∧ Replaces E cx.sec s'.store (.branch i) r.1 bs)
            (R := AnyErr) (frame_repairLoop (frame_repair0 h fuel) _ _ _) (fun r => ?_)
            (repairLoop_writes (frame_repair0 h fuel) ih node.children rep _ s) ?_
          · obtain ⟨a, b, c⟩ := r
            simp only
            split
            · exact Frame.bind (frame_persistBranch h _) fun _ => Frame.pure _
            · exact Frame.pure _
          · rintro ⟨cs, changed, rep2, l2⟩ s2 hx2 _ ⟨bs, k1, k2, k3, k4⟩
            simp only at k2 k3 k4 ⊢
            have := rewrite_writes (cx := cx) h i node cs changed (rep2, l2) k1 ⟨lk, g1, loadBranchFromLink_mono hx2.store g2⟩ k2 k3 k4
            refine Post.mono (cx := cx) ?_ this ?_ (fun _ h => h)
            · split
              · exact Frame.bind (frame_persistBranch h _) fun _ => Frame.pure _
              · exact Frame.pure _
            · rintro ⟨r, l3⟩ s3 _ _ ⟨bs', m1, m2, j, m3⟩
              simp only at m2 m3
              subst m3
              exact ⟨bs', m1, m2, fun hl => m2.relink hl⟩

/-- What `retain` writes. -/
theorem retain_writes (h : E.Lawful) (fuel : Nat) (q : Query T) (s : St E) :
    Post (retain cx fuel q) s (fun _ s' => ∃ bs, s'.puts = s.puts ++ bs ∧ (∀ i, s'.root = some i → Writes E cx.sec s'.store i bs) ∧
      (s'.root = none → bs = [])) AnyErr := by
  unfold retain
  refine Post.getIndexBind ?_
  cases s.root with
  | none => exact Post.pure fun _ => ⟨[], by simp, fun i _ => .old i, fun _ => rfl⟩
  | some i =>
    simp only
    refine Post.bind0 (frame_retain0 h _ _ _ _ _).frame0 (fun _ => frame0_setIndex _) (retain0_writes h q fuel 0 i i32max s) ?_
    rintro ⟨j, l⟩ s1 _ _ ⟨bs, h1, h2⟩
    exact fun _ => ⟨bs, h1, fun k hk => by cases hk; exact h2.1, fun hc => (nomatch hc)⟩

/-- What `repair` writes. -/
theorem repair_writes (h : E.Lawful) (fuel : Nat) (s : St E) :
    Post (repair cx fuel) s (fun _ s' => ∃ bs, s'.puts = s.puts ++ bs ∧ (∀ i, s'.root = some i → Writes E cx.sec s'.store i bs) ∧
      (s'.root = none → bs = [])) AnyErr := by
  unfold repair
  refine Post.getIndexBind ?_
  cases s.root with
  | none => exact Post.pure fun _ => ⟨[], by simp, fun i _ => .old i, fun _ => rfl⟩
  | some i =>
    simp only
    refine Post.bind0 (frame_repair0 h _ _ _ _).frame0 (fun _ => Frame0.bind (frame0_setIndex _) fun _ => (Frame.pure _).frame0) (repair0_writes h fuel i [] i32max s) ?_
    rintro ⟨j, r, l⟩ s1 _ _ ⟨bs, h1, h2⟩
    exact fun _ => ⟨bs, h1, fun k hk => by cases hk; exact h2.1, fun hc => (nomatch hc)⟩

end Banyan
