import Verif.Proofs.Hoare
/-
What is known about a freshly made node, and node invariants.
-/
namespace Banyan

variable {T : TreeTypes} {V : Type}

/-- What is known about a leaf right after it was made. -/
def LeafMade {E : Env T V} (cx : Ctx E) (σ : E.σ) (i : LeafIndex T) (vs : List V) : Prop :=
  ∃ l o links ws, i.link = some l ∧
    o + (E.zfin cx.cfg.zstdLevel ws).length < 2 ^ 64 ∧
    E.get σ l = .ok (E.encNode (o, links, applyKeystream E cx.sec.valueKey o (E.zfin cx.cfg.zstdLevel ws))) ∧
    ws.flatten = encVals E vs ∧
    i.valueBytes = (E.zfin cx.cfg.zstdLevel ws).length ∧
    T.keys.len i.keys = vs.length ∧ vs ≠ [] ∧ (encVals E vs).length ≤ maxCapacity ∧
    LinksOf E (vs.map E.encV) links ∧
    (i.isSealed = false → (E.zfin cx.cfg.zstdLevel ws).length < cx.cfg.targetLeafSize ∧
      vs.length < cx.cfg.maxLeafCount ∧ (encVals E vs).length < cx.cfg.maxUncompressedLeafSize) ∧
    (i.isSealed = true → cx.cfg.targetLeafSize ≤ (E.zfin cx.cfg.zstdLevel ws).length ∨
      cx.cfg.maxLeafCount ≤ vs.length ∨
      ∃ v, (E.encV v).length ≤ cx.cfg.maxUncompressedLeafSize ∧
        cx.cfg.maxUncompressedLeafSize ≤ (encVals E vs).length + (E.encV v).length)

/-- What is known about a branch right after it was made. -/
def BranchMade {E : Env T V} (cx : Ctx E) (σ : E.σ) (i : BranchIndex T) (cs : List (PTree T V)) : Prop :=
  ∃ l o links, i.link = some l ∧
    o + (E.zfin cx.cfg.zstdLevel ((cs.map PTree.index).map E.encIdx)).length < 2 ^ 64 ∧
    E.get σ l = .ok (E.encNode (o, links, applyKeystream E cx.sec.indexKey o
      (E.zfin cx.cfg.zstdLevel ((cs.map PTree.index).map E.encIdx)))) ∧
    ((cs.map PTree.index).map E.encIdx).flatten.length ≤ maxCapacity ∧
    LinksOf E ((cs.map PTree.index).map E.encIdx) links ∧
    cs ≠ [] ∧
    (∀ c ∈ cs, c.index.level < i.level) ∧ (∃ c ∈ cs, c.index.level + 1 = i.level) ∧
    i.count = (cs.map fun c => c.index.count).sum ∧
    i.summaries = T.sums.ofList (cs.map fun c => c.index.summarize) ∧
    i.valueBytes = (cs.map fun c => c.index.valueBytes).sum ∧
    i.keyBytes = (cs.map fun c => c.index.keyBytes).sum + (E.encNode (o, links, applyKeystream E cx.sec.indexKey o
      (E.zfin cx.cfg.zstdLevel ((cs.map PTree.index).map E.encIdx)))).length ∧
    i.isSealed = cx.cfg.branchSealed (cs.map PTree.index) i.level

/-- An invariant of the nodes of trees that is established when a node is made. A node that has been made is within the
limits of the configuration, or it replaces a node of the same size that was made with another configuration. -/
structure NodeInv {E : Env T V} (cx : Ctx E) where
  J : E.σ → PTree T V → Prop
  mono : ∀ {a b t}, StoreLe E a b → J a t → J b t
  leaf : ∀ {σ i vs}, LeafMade cx σ i vs → (LeafWithin E cx.cfg vs ∨ ∃ i0, J σ (.leaf i0 vs)) → J σ (.leaf i vs)
  branch : ∀ {σ i cs}, BranchMade cx σ i cs → (∀ c ∈ cs, J σ c) → (cs.length ≤ cx.cfg.maxBranches i.level ∨
    ∃ i0 cs0, i0.level = i.level ∧ cs0.length = cs.length ∧ J σ (.branch i0 cs0)) → J σ (.branch i cs)

/-- The trivial node invariant. -/
def NodeInv.trivial {E : Env T V} (cx : Ctx E) : NodeInv cx := ⟨fun _ _ => True, fun _ _ => True.intro,
  fun _ _ => True.intro, fun _ _ _ => True.intro⟩

variable {E : Env T V} {cx : Ctx E}

/-- A tree in the store that is well formed and all of whose nodes satisfy the node invariant. -/
def Good (I : NodeInv cx) (σ : E.σ) (t : PTree T V) : Prop :=
  t.All fun n => StoredAt E cx.sec σ n ∧ WFAt E n ∧ I.J σ n

/-! ### loading -/

theorem StoredAt.mono {sec : Secrets E} {a b : E.σ} (h : StoreLe E a b) {t : PTree T V}
    (ht : StoredAt E sec a t) : StoredAt E sec b t := by
  cases t with
  | leaf i vs =>
    obtain ⟨l, z, r, h1, h2, h3⟩ := ht
    exact ⟨l, z, r, h1, loadLeafFromLink_mono h h2, h3⟩
  | branch i cs =>
    obtain ⟨l, r, h1, h2⟩ := ht
    exact ⟨l, r, h1, loadBranchFromLink_mono h h2⟩
  | purgedLeaf i => exact ht
  | purgedBranch i => exact ht

theorem getBlock_congr {σ σ' : E.σ} {l : T.Link} (h : E.get σ' l = E.get σ l) : getBlock E σ' l = getBlock E σ l := by
  unfold getBlock
  rw [h]

theorem StoredAt.congr {sec : Secrets E} {σ σ' : E.σ} {t : PTree T V} (hs : StoredAt E sec σ t)
    (h : ∀ l, t.index.link = some l → E.get σ' l = E.get σ l) : StoredAt E sec σ' t := by
  cases t with
  | leaf i vs =>
    obtain ⟨l, z, r, h1, h2, h3⟩ := hs
    refine ⟨l, z, r, h1, ?_, h3⟩
    rw [← h2]
    unfold loadLeafFromLink
    rw [getBlock_congr (h l h1)]
  | branch i cs =>
    obtain ⟨l, r, h1, h2⟩ := hs
    refine ⟨l, r, h1, ?_⟩
    rw [← h2]
    unfold loadBranchFromLink
    rw [getBlock_congr (h l h1)]
  | purgedLeaf i => exact hs
  | purgedBranch i => exact hs

theorem Good.congr {I : NodeInv cx} {a b : E.σ} {t : PTree T V} (ht : Good I a t)
    (hJ : ∀ n, I.J a n → (∀ l, n.index.link = some l → E.get b l = E.get a l) → I.J b n)
    (hs : ∀ n ∈ t.nodes, ∀ l, n.index.link = some l → E.get b l = E.get a l) : Good I b t :=
  fun n hn => ⟨(ht n hn).1.congr (hs n hn), (ht n hn).2.1, hJ n (ht n hn).2.2 (hs n hn)⟩

theorem Stored.mono {sec : Secrets E} {a b : E.σ} (h : StoreLe E a b) {t : PTree T V}
    (ht : Stored E sec a t) : Stored E sec b t := PTree.All.imp (fun _ => StoredAt.mono h) ht

theorem Good.mono {I : NodeInv cx} {a b : E.σ} (h : StoreLe E a b) {t : PTree T V}
    (ht : Good I a t) : Good I b t :=
  PTree.All.imp (fun _ x => ⟨x.1.mono h, x.2.1, I.mono h x.2.2⟩) ht

theorem OutlinedAt.mono {sec : Secrets E} {a b : E.σ} (h : StoreLe E a b) {t : PTree T V}
    (ht : OutlinedAt E sec a t) : OutlinedAt E sec b t := by
  cases t with
  | leaf i vs => exact ht
  | purgedLeaf i => exact ht
  | purgedBranch i => exact ht
  | branch i cs =>
    obtain ⟨l, r, h1, h2⟩ := ht
    exact ⟨l, r, h1, loadBranchFromLink_mono h h2⟩

theorem Outlined.mono {sec : Secrets E} {a b : E.σ} (h : StoreLe E a b) {t : PTree T V}
    (ht : Outlined E sec a t) : Outlined E sec b t := PTree.All.imp (fun _ => OutlinedAt.mono h) ht

theorem Stored.outlined {sec : Secrets E} {a : E.σ} {t : PTree T V} (ht : Stored E sec a t) : Outlined E sec a t := by
  refine PTree.All.imp (fun n hn => ?_) ht
  cases n with
  | leaf i vs => obtain ⟨l, _, _, h, _⟩ := hn; exact ⟨l, h⟩
  | purgedLeaf i => exact hn
  | purgedBranch i => exact hn
  | branch i cs => exact hn

theorem Good.stored {I : NodeInv cx} {a : E.σ} {t : PTree T V} (h : Good I a t) : Stored E cx.sec a t :=
  PTree.All.imp (fun _ x => x.1) h

theorem Good.wf {I : NodeInv cx} {a : E.σ} {t : PTree T V} (h : Good I a t) : WF E t :=
  PTree.All.imp (fun _ x => x.2.1) h

theorem good_trivial {a : E.σ} {t : PTree T V} (h1 : Stored E cx.sec a t) (h2 : WF E t) :
    Good (NodeInv.trivial cx) a t := fun n hn => ⟨h1 n hn, h2 n hn, True.intro⟩

/-! ### encrypt and store -/

/-- The result of reserving, encrypting and storing a block. -/
theorem encryptPut_apply (h : E.Lawful) (cx : Ctx E) {β : Type} (s : St E) (z : ZSeq) (key : E.CKey) (f : Bytes → T.Link → M E β) :
    ((intoEncrypted z key >>= fun b => putBlock b >>= f b) s = .error .offsets s) ∨
    (∃ s1 m, (E.put s.store (E.encNode (s.offset, z.links, applyKeystream E key s.offset z.data))).1 = .error m ∧
      Ext cx s s1 ∧ (intoEncrypted z key >>= fun b => putBlock b >>= f b) s = .error (.fail m) s1) ∨
    (∃ s1 l, s.offset + z.data.length < 2 ^ 64 ∧ Ext cx s s1 ∧ s1.cache = s.cache ∧ s1.written = s.written ∧
      E.get s1.store l = .ok (E.encNode (s.offset, z.links, applyKeystream E key s.offset z.data)) ∧
      s1.puts = s.puts ++ [E.encNode (s.offset, z.links, applyKeystream E key s.offset z.data)] ∧
      (intoEncrypted z key >>= fun b => putBlock b >>= f b) s =
        f (E.encNode (s.offset, z.links, applyKeystream E key s.offset z.data)) l s1) := by
  rw [bind_apply]
  by_cases ho : s.offset + z.data.length < 2 ^ 64
  · have hi : intoEncrypted z key s = .ok (E.encNode (s.offset, z.links, applyKeystream E key s.offset z.data))
        { s with offset := s.offset + z.data.length } := by
      unfold intoEncrypted
      have : reserve z.data.length s = .ok s.offset { s with offset := s.offset + z.data.length } := by
        unfold reserve; simp [ho]
      rw [bind_apply, this]
      rfl
    rw [hi]
    simp only
    rw [bind_apply]
    generalize hb : E.encNode (s.offset, z.links, applyKeystream E key s.offset z.data) = blk
    have hext : Ext cx s
        { s with offset := s.offset + z.data.length, store := (E.put s.store blk).2, puts := s.puts ++ [blk] } := by
      refine ⟨fun l b hg => h.put_mono _ _ _ _ hg, .refl rfl, rfl,
        ⟨[blk], rfl, s.offset, z.links, applyKeystream E key s.offset z.data, hb.symm, Nat.le_refl _, ?_⟩, ⟨[], by simp⟩⟩
      simp [Chain, applyKeystream_length]
    right
    cases hp : E.put s.store blk with
    | mk r st =>
      rw [hp] at hext
      cases r with
      | ok l =>
        right
        refine ⟨_, l, ho, hext, rfl, rfl, ?_, rfl, ?_⟩
        · have := h.put_ok s.store blk l (by rw [hp])
          rw [hp] at this
          exact this
        · simp [putBlock, hp]
      | error m =>
        left
        exact ⟨_, m, rfl, hext, by simp [putBlock, hp]⟩
  · left
    have hi : intoEncrypted z key s = .error .offsets s := by
      unfold intoEncrypted
      have : reserve z.data.length s = .error .offsets s := by unfold reserve; simp [ho]
      rw [bind_apply, this]
    rw [hi]

/-- Reserving, encrypting and storing a block. -/
theorem Post.encryptPut (h : E.Lawful) {β : Type} {s : St E} {Q : β → St E → Prop} {R : Err → Prop} (z : ZSeq)
    (key : E.CKey) (f : Bytes → T.Link → M E β) (hR : R .offsets)
    (hR' : ∀ σ d m, (E.put σ d).1 = .error m → R (.fail m))
    (hf : ∀ l s', Ext cx s s' → s'.cache = s.cache → s'.written = s.written →
      s.offset + z.data.length < 2 ^ 64 →
      E.get s'.store l = .ok (E.encNode (s.offset, z.links, applyKeystream E key s.offset z.data)) →
      s'.puts = s.puts ++ [E.encNode (s.offset, z.links, applyKeystream E key s.offset z.data)] →
      Post (f (E.encNode (s.offset, z.links, applyKeystream E key s.offset z.data)) l) s' Q R) :
    Post (intoEncrypted z key >>= fun b => putBlock b >>= f b) s Q R := by
  unfold Post
  rcases encryptPut_apply h cx s z key f with h1 | ⟨s1, m, h1, h2, h3⟩ | ⟨s1, l, h1, h2, h3, h4, h5, h7, h6⟩
  · rw [h1]; exact fun _ => hR
  · rw [h3]; exact fun _ => hR' _ _ _ h1
  · rw [h6]
    exact hf l s1 h2 h3 h4 h1 h5 h7

theorem Frame.encryptPut (h : E.Lawful) {β : Type} (z : ZSeq) (key : E.CKey) (f : Bytes → T.Link → M E β)
    (hf : ∀ b l, Frame cx (f b l)) : Frame cx (intoEncrypted z key >>= fun b => putBlock b >>= f b) := by
  intro s
  unfold endState
  rcases encryptPut_apply h cx s z key f with h1 | ⟨s1, m, h1, h2, h3⟩ | ⟨s1, l, h1, h2, h3, h4, h5, h7, h6⟩
  · rw [h1]; exact Ext.refl s
  · rw [h3]; exact h2
  · rw [h6]
    exact h2.trans (hf _ l s1)

theorem loadLeafFromLink_of_get (h : E.Lawful) {sec : Secrets E} {σ : E.σ} {l : T.Link} {o : Nat} {z : ZSeq}
    (ho : o + z.data.length < 2 ^ 64)
    (hg : E.get σ l = .ok (E.encNode (o, z.links, applyKeystream E sec.valueKey o z.data))) :
    loadLeafFromLink E sec σ l = .ok ⟨z, (o, o + z.data.length)⟩ := by
  unfold loadLeafFromLink
  rw [getBlock_eq.mpr hg]
  simp only
  rw [decrypt_encNode h _ _ _ ho]

theorem loadBranchFromLink_of_get (h : E.Lawful) {sec : Secrets E} {σ : E.σ} {l : T.Link} {o : Nat} {lvl : Int}
    {cs : List (Index T)} {links : List Cid} (hcs : cs ≠ [])
    (hs : (cs.map E.encIdx).flatten.length ≤ maxCapacity)
    (ho : o + (E.zfin lvl (cs.map E.encIdx)).length < 2 ^ 64)
    (hg : E.get σ l = .ok (E.encNode (o, links, applyKeystream E sec.indexKey o (E.zfin lvl (cs.map E.encIdx))))) :
    loadBranchFromLink E sec σ l = .ok ⟨cs, (o, o + (E.zfin lvl (cs.map E.encIdx)).length)⟩ := by
  unfold loadBranchFromLink deserializeCompressed
  rw [getBlock_eq.mpr hg]
  have := decrypt_encNode h sec.indexKey o ⟨E.zfin lvl (cs.map E.encIdx), links⟩ ho
  simp only at this ⊢
  rw [this]
  simp only
  rw [ZSeq.itemsIpld_zfin h _ _ _ hs]
  simp [mkBranch, hcs]

/-! ### made nodes are stored and well formed -/

theorem LeafMade.stored (h : E.Lawful) {σ : E.σ} {i : LeafIndex T} {vs : List V} (hm : LeafMade cx σ i vs) :
    StoredAt E cx.sec σ (.leaf i vs) := by
  obtain ⟨l, o, links, ws, h1, h2, h3, h4, h5, h6, h7, h8, _⟩ := hm
  refine ⟨l, ⟨_, links⟩, _, h1, loadLeafFromLink_of_get h (z := ⟨_, links⟩) h2 h3, h.zfin_ne _ _, ?_⟩
  rw [decompress_zfin h, h4]
  · rfl
  · rw [h4]; exact h8

theorem LeafMade.wf {σ : E.σ} {i : LeafIndex T} {vs : List V} (hm : LeafMade cx σ i vs) :
    WFAt E (.leaf i vs) := by
  obtain ⟨l, o, links, ws, h1, h2, h3, h4, h5, h6, h7, h8, _⟩ := hm
  exact ⟨h6, h7, h8⟩

theorem BranchMade.stored (h : E.Lawful) {σ : E.σ} {i : BranchIndex T} {cs : List (PTree T V)}
    (hm : BranchMade cx σ i cs) : StoredAt E cx.sec σ (.branch i cs) := by
  obtain ⟨l, o, links, h1, h2, h3, h4, _, h5, _⟩ := hm
  exact ⟨l, _, h1, loadBranchFromLink_of_get h (by simpa using h5) h4 h2 h3⟩

/-- What it means for a branch to be sealed. -/
theorem branchSealed_wf {cfg : Config} (hv : cfg.Valid) {cs : List (PTree T V)} {level : Nat} (hl : ∀ c ∈ cs, c.index.level < level)
    (hs : cfg.branchSealed (cs.map PTree.index) level = true) :
    (∀ c ∈ cs, c.index.isSealed = true ∧ c.index.level + 1 = level) ∧ (2 ≤ level → 2 ≤ cs.length) := by
  rw [branchSealed_iff] at hs
  refine ⟨fun c hc => ?_, fun h2 => ?_⟩
  · have := hs.1 c.index (List.mem_map_of_mem hc)
    have := hl c hc
    exact ⟨(hs.1 c.index (List.mem_map_of_mem hc)).1, by omega⟩
  · have h3 := hs.2
    unfold Config.maxBranches at h3
    rw [if_neg (by omega), List.length_map] at h3
    exact Nat.le_trans hv.summary h3

theorem BranchMade.wf (hv : cx.cfg.Valid) {σ : E.σ} {i : BranchIndex T} {cs : List (PTree T V)}
    (hm : BranchMade cx σ i cs) : WFAt E (.branch i cs) := by
  obtain ⟨l, o, links, h1, h2, h3, h4, _, h5, h6, h7, h8, h9, h10, h11, h12⟩ := hm
  exact ⟨h5, h6, h7, h8, h9, h10, fun hs => branchSealed_wf hv h6 (h12 ▸ hs)⟩

theorem good_leaf (h : E.Lawful) {I : NodeInv cx} {σ : E.σ} {i : LeafIndex T} {vs : List V}
    (hm : LeafMade cx σ i vs) (hl : LeafWithin E cx.cfg vs ∨ ∃ i0, I.J σ (.leaf i0 vs)) : Good I σ (.leaf i vs) :=
  (PTree.all_leaf i vs).mpr ⟨hm.stored h, hm.wf, I.leaf hm hl⟩

theorem good_branch (h : E.Lawful) (hv : cx.cfg.Valid) {I : NodeInv cx} {σ : E.σ} {i : BranchIndex T} {cs : List (PTree T V)}
    (hm : BranchMade cx σ i cs) (hl : cs.length ≤ cx.cfg.maxBranches i.level ∨
      ∃ i0 cs0, i0.level = i.level ∧ cs0.length = cs.length ∧ I.J σ (.branch i0 cs0)) (hcs : ∀ c ∈ cs, Good I σ c) :
    Good I σ (.branch i cs) :=
  (PTree.all_branch i cs).mpr ⟨⟨hm.stored h, hm.wf hv, I.branch hm (fun c hc => (PTree.All.root (hcs c hc)).2.2) hl⟩, hcs⟩

end Banyan
