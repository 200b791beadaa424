import Verif.Proofs.FrameOps
/-
Building leaves and branches.
-/
namespace Banyan

variable {T : TreeTypes} {V : Type} {E : Env T V} {cx : Ctx E} {I : NodeInv cx}

/-- What `fill` guarantees. -/
theorem fill_spec (h : E.Lawful) (hv : cx.cfg.Valid) (vals : V → Prop) (compressed : Bytes) (old : List V) (keys : List T.Key)
    (from_ : List (T.Key × V)) (hfrom : from_ ≠ []) (hvals : ∀ kv ∈ from_, vals kv.2)
    (hold : (compressed = [] ∧ old = []) ∨ (compressed ≠ [] ∧ decompress E compressed = .ok (encVals E old)))
    (hkeys : keys.length = old.length) :
    (∃ ws links sealed taken rest, fill E compressed from_ keys cx.cfg.zstdLevel cx.cfg.targetLeafSize
        cx.cfg.maxUncompressedLeafSize cx.cfg.maxLeafCount =
          .ok (⟨E.zfin cx.cfg.zstdLevel ws, links⟩, sealed, keys ++ taken.map Prod.fst, rest) ∧
      from_ = taken ++ rest ∧ ws.flatten = encVals E (old ++ taken.map Prod.snd) ∧
      (taken ≠ [] → LeafWithin E cx.cfg (old ++ taken.map Prod.snd)) ∧
      LinksOf E ((old ++ taken.map Prod.snd).map E.encV) links ∧
      (sealed = false → (E.zfin cx.cfg.zstdLevel ws).length < cx.cfg.targetLeafSize ∧
        (old ++ taken.map Prod.snd).length < cx.cfg.maxLeafCount ∧
        (encVals E (old ++ taken.map Prod.snd)).length < cx.cfg.maxUncompressedLeafSize) ∧
      (sealed = true → cx.cfg.targetLeafSize ≤ (E.zfin cx.cfg.zstdLevel ws).length ∨
        cx.cfg.maxLeafCount ≤ (old ++ taken.map Prod.snd).length ∨
        ∃ v, (E.encV v).length ≤ cx.cfg.maxUncompressedLeafSize ∧
          cx.cfg.maxUncompressedLeafSize ≤ (encVals E (old ++ taken.map Prod.snd)).length + (E.encV v).length) ∧
      (rest = [] ∨ sealed = true) ∧ (old = [] → taken ≠ [])) ∨
    (∃ e, fill E compressed from_ keys cx.cfg.zstdLevel cx.cfg.targetLeafSize
        cx.cfg.maxUncompressedLeafSize cx.cfg.maxLeafCount = .error e ∧ Allowed E cx.cfg vals e) := by
  have hstart : (∃ ws links, fillStart E compressed = .ok ((encVals E old).length, ws, links) ∧
      ws.flatten = encVals E old ∧
      LinksOf E (old.map E.encV) links) ∨
      (∃ e, fillStart E compressed = .error e ∧ Allowed E cx.cfg vals e) := by
    rcases hold with ⟨rfl, rfl⟩ | ⟨h1, h2⟩
    · exact Or.inl ⟨[], [], by simp [fillStart_nil, encVals], by simp [encVals], .nil⟩
    · rcases fillStart_spec h cx.cfg vals compressed h1 old h2 with ⟨links, h3, h4⟩ | h3
      · exact Or.inl ⟨_, links, h3, by simp, h4⟩
      · exact Or.inr h3
  unfold fill
  rcases hstart with ⟨ws0, links0, hs1, hs2, hs3⟩ | ⟨e, hs1, hs2⟩
  · rw [hs1]
    simp only
    rcases fillLoop_spec h cx.cfg vals cx.cfg.zstdLevel cx.cfg.targetLeafSize cx.cfg.maxUncompressedLeafSize
      cx.cfg.maxLeafCount rfl from_ hvals keys ws0 links0 old hs2 hkeys hs3 with
      ⟨r, hr, taken, g1, g2, g3, g4, g5, g7, g8, g9, g10⟩ | ⟨e, hr, he⟩
    · left
      rw [hr]
      simp only
      refine ⟨r.ws, r.links, _, taken, r.from_, by rw [g2], g1, g3, ?_, g7, ?_, ?_, ?_, ?_⟩
      · intro htk
        obtain ⟨a1, a2⟩ := g5 htk
        refine ⟨?_, by rw [g4] at a1; exact a1⟩
        simp only [g2, List.length_append, List.length_map] at a2 ⊢; omega
      · intro hse
        simp only [Bool.or_eq_false_iff, decide_eq_false_iff_not] at hse
        obtain ⟨⟨⟨_, a1⟩, a2⟩, a3⟩ := hse
        simp only [List.length_append, List.length_map] at a2 ⊢
        refine ⟨by omega, by omega, by omega⟩
      · intro hse
        simp only [Bool.or_eq_true, decide_eq_true_eq] at hse
        rcases hse with ((a1 | a1) | a1) | a1
        · obtain ⟨kv, rest, b1, b2, b3⟩ := g8 a1
          exact Or.inr (Or.inr ⟨kv.2, b3, by omega⟩)
        · exact Or.inl (by omega)
        · right; left
          simp only [List.length_append, List.length_map] at a1 ⊢
          omega
        · by_cases htk : taken = []
          · rcases g10 htk with c1 | c1 | c1
            · exact absurd c1 hfrom
            · right; left
              simp only [List.length_append, List.length_map]
              omega
            · obtain ⟨kv', rest, b1, b2, b3⟩ := g8 c1
              exact Or.inr (Or.inr ⟨kv'.2, b3, by omega⟩)
          · right; right
            obtain ⟨kv, hkv⟩ := List.exists_mem_of_ne_nil _ htk
            have hvm : kv.2 ∈ old ++ taken.map Prod.snd := List.mem_append_right _ (List.mem_map_of_mem hkv)
            have : (E.encV kv.2).length ≤ (encVals E (old ++ taken.map Prod.snd)).length := by
              unfold encVals
              exact flatten_length_le_of_mem (List.mem_map_of_mem hvm)
            have := (g5 htk).1
            exact ⟨kv.2, by omega, by omega⟩
      · rcases g9 with c1 | c1 | c1 | c1
        · exact Or.inl c1
        · right; simp [c1]
        · right
          rw [g2] at c1
          simp only [List.length_append, List.length_map] at c1
          simp [c1]
        · right
          have := h.zlen_le cx.cfg.zstdLevel r.ws
          have : cx.cfg.targetLeafSize ≤ (E.zfin cx.cfg.zstdLevel r.ws).length := by omega
          simp [this]
      · intro ho htk
        subst ho; subst htk
        rcases g10 rfl with c1 | c1 | c1
        · exact hfrom c1
        · have := hv.leaf; simp at hkeys; subst hkeys; simp at c1; omega
        · obtain ⟨kv', rest, b1, b2, b3⟩ := g8 c1
          simp [encVals] at g4
          omega
    · right
      rw [hr]
      exact ⟨e, rfl, he⟩
  · right
    rw [hs1]
    exact ⟨e, rfl, hs2⟩

/-- Making or extending a leaf. -/
theorem extendLeaf_spec (h : E.Lawful) (ht : T.Lawful) (hv : cx.cfg.Valid) {vals : V → Prop} {R : Err → Prop}
    (hR : ∀ e, Allowed E cx.cfg vals e → R e) (compressed : Bytes) (keys : Option T.KeySeq) (old : List V)
    (from_ : List (T.Key × V)) (hfrom : from_ ≠ []) (hvals : ∀ kv ∈ from_, vals kv.2)
    (hold : (compressed = [] ∧ old = [] ∧ keys = none) ∨ (compressed ≠ [] ∧ decompress E compressed = .ok (encVals E old) ∧
      ∃ ks, keys = some ks ∧ T.keys.len ks = old.length))
    (hsz : (encVals E old).length ≤ maxCapacity) (s : St E) :
    Post (extendLeaf cx compressed keys from_) s (fun r s' => ∃ taken, from_ = taken ++ r.2 ∧
      LeafMade cx s'.store r.1 (old ++ taken.map Prod.snd) ∧
      (taken ≠ [] → LeafWithin E cx.cfg (old ++ taken.map Prod.snd)) ∧
      T.keys.toVec r.1.keys = optKeys keys ++ taken.map Prod.fst ∧
      (r.2 = [] ∨ r.1.isSealed = true) ∧ (old = [] → taken ≠ [])) R := by
  unfold extendLeaf
  refine Post.assertBind (Or.inl (by simpa using hfrom)) fun _ => ?_
  generalize hks : optKeys keys = oldKeys
  have hkl : oldKeys.length = old.length := by
    rcases hold with ⟨_, rfl, rfl⟩ | ⟨_, _, ks, rfl, h3⟩
    · simp [← hks, optKeys]
    · simp only [optKeys] at hks; rw [← hks, CompactSeq.length_toVec ht.keys, h3]
  refine Post.liftBind ?_ ?_
  · intro e he
    rcases fill_spec h hv vals compressed old oldKeys from_ hfrom hvals
      (by rcases hold with ⟨a, b, _⟩ | ⟨a, b, _⟩; exact Or.inl ⟨a, b⟩; exact Or.inr ⟨a, b⟩) hkl with
      ⟨ws, links, sealed, taken, rest, hf, _⟩ | ⟨e', hf, hall⟩
    · rw [hf] at he; cases he
    · rw [hf] at he; cases he; exact hR _ hall
  · intro a ha
    rcases fill_spec h hv vals compressed old oldKeys from_ hfrom hvals
      (by rcases hold with ⟨a, b, _⟩ | ⟨a, b, _⟩; exact Or.inl ⟨a, b⟩; exact Or.inr ⟨a, b⟩) hkl with
      ⟨ws, links, sealed, taken, rest, hf, g1, g2, g4, g5, g6, g7, g8, g9⟩ | ⟨e', hf, hall⟩
    · rw [hf] at ha; cases ha
      simp only
      have hne : old ++ taken.map Prod.snd ≠ [] := by
        intro hc
        simp only [List.append_eq_nil_iff, List.map_eq_nil_iff] at hc
        exact g9 hc.1 hc.2
      have hkne : oldKeys ++ taken.map Prod.fst ≠ [] := by
        intro hc
        apply hne
        have := congrArg List.length hc
        simp only [List.length_append, List.length_map, List.length_nil] at this
        apply List.eq_nil_of_length_eq_zero
        simp only [List.length_append, List.length_map]
        omega
      refine Post.encryptPut (cx := cx) h _ _ _ (hR _ .offsets) (fun σ d m hp => hR _ (.put σ d m hp)) ?_
      intro l s' hext _ _ hoff hget _
      refine Post.pure fun _ => ⟨taken, g1, ?_, g4, ?_, g8, g9⟩
      · refine ⟨l, s.offset, links, ws, rfl, hoff, hget, g2, rfl, ?_, hne, ?_, g5, g6, g7⟩
        · simp only
          rw [ht.keys.len_ofList _ hkne]
          simp [hkl]
        · by_cases htk : taken = []
          · rw [htk]; simpa using hsz
          · exact Nat.le_trans (g4 htk).2 hv.size
      · exact CompactSeq.toVec_ofList ht.keys _ hkne
    · rw [hf] at ha; cases ha

theorem zip_append_map {α β : Type} (ks : List α) (vs : List β) (taken : List (α × β)) (h : ks.length = vs.length) :
    (ks ++ taken.map Prod.fst).zip (vs ++ taken.map Prod.snd) = ks.zip vs ++ taken := by
  rw [List.zip_append h]
  congr 1
  induction taken with
  | nil => rfl
  | cons a l ih => simp [ih]

/-! ### branches -/

theorem seqFromIterIpld_spec (h : E.Lawful) (vals : V → Prop) (items : List (Index T)) (lvl : Int) :
    (∃ links, seqFromIterIpld E items lvl = .ok ⟨E.zfin lvl (items.map E.encIdx), links⟩ ∧
      LinksOf E (items.map E.encIdx) links) ∨
    (∃ e, seqFromIterIpld E items lvl = .error e ∧ Allowed E cx.cfg vals e) := by
  unfold seqFromIterIpld
  rcases encodeLoop_spec (E := E) (items.map E.encIdx) (by
    intro b hb
    obtain ⟨v, _, rfl⟩ := List.mem_map.mp hb
    exact isItem_encIdx h v) [] [] with ⟨links, h1, h2, _⟩ | ⟨b, hb, m, h1, h2⟩
  · left
    rw [h1]
    refine ⟨links, by simp, ?_⟩
    intro x
    rw [h2]
    simp
  · right
    obtain ⟨v, _, rfl⟩ := List.mem_map.mp hb
    rw [h2]
    exact ⟨_, rfl, .scrapeIdx v m h1⟩

theorem Post.logBind {β : Type} {s : St E} {Q : β → St E → Prop} {R : Err → Prop} (items : List (Index T))
    (f : Unit → M E β)
    (hf : ∀ s', Ext cx s s' → s'.offset = s.offset → s'.written = s.written ++ [items] → s'.puts = s.puts → Post (f ()) s' Q R) :
    Post (logBranch items >>= f) s Q R := by
  have hext : Ext cx s { s with written := s.written ++ [items] } :=
    ⟨StoreLe.refl _, .refl rfl, rfl, ⟨[], by simp, Nat.le_refl _⟩, ⟨[items], rfl⟩⟩
  exact hf _ hext rfl rfl rfl

/-- Writing a branch. -/
theorem persistBranch_spec (h : E.Lawful) {vals : V → Prop} {R : Err → Prop}
    (hR : ∀ e, Allowed E cx.cfg vals e → R e) (items : List (Index T)) (s : St E) :
    Post (persistBranch cx items) s (fun r s' => ∃ o links,
      o + (E.zfin cx.cfg.zstdLevel (items.map E.encIdx)).length < 2 ^ 64 ∧
      E.get s'.store r.1 = .ok (E.encNode (o, links, applyKeystream E cx.sec.indexKey o
        (E.zfin cx.cfg.zstdLevel (items.map E.encIdx)))) ∧
      r.2 = (E.encNode (o, links, applyKeystream E cx.sec.indexKey o
        (E.zfin cx.cfg.zstdLevel (items.map E.encIdx)))).length ∧
      (items.map E.encIdx).flatten.length ≤ maxCapacity ∧
      LinksOf E (items.map E.encIdx) links) R := by
  unfold persistBranch serializeCompressed
  refine Post.logBind (cx := cx) _ _ fun s1 hx1 ho1 hw1 _ => ?_
  rw [bind_assoc]
  refine Post.liftBind ?_ ?_
  · intro e he
    rcases seqFromIterIpld_spec (cx := cx) h vals items cx.cfg.zstdLevel with ⟨links, h1, _⟩ | ⟨e', h1, h2⟩
    · rw [h1] at he; cases he
    · rw [h1] at he; cases he; exact hR _ h2
  · intro z hz
    rcases seqFromIterIpld_spec (cx := cx) h vals items cx.cfg.zstdLevel with ⟨links, h1, h3⟩ | ⟨e', h1, h2⟩
    · rw [h1] at hz; cases hz
      refine Post.encryptPut (cx := cx) h _ _ _ (hR _ .offsets) (fun σ d m hp => hR _ (.put σ d m hp)) ?_
      intro l s' hext _ hw hoff hget _
      refine Post.pure fun hs => ⟨s1.offset, links, hoff, hget, rfl, ?_, h3⟩
      exact hs items (by rw [hw, hw1]; simp)
    · rw [h1] at hz; cases hz

theorem map_index_map {β : Type} (f : Index T → β) (cs : List (PTree T V)) :
    (cs.map PTree.index).map f = cs.map fun c => f c.index := by simp

/-- Making a branch. -/
theorem newBranch_spec (h : E.Lawful) {vals : V → Prop} {R : Err → Prop}
    (hR : ∀ e, Allowed E cx.cfg vals e → R e) (cs : List (PTree T V)) (mode : CreateMode) (hcs : cs ≠ [])
    (hsort : mode = .packed → (cs.map fun c => c.index.level).Pairwise (· ≥ ·) ∨ ∀ m, R (.panic m)) (s : St E) :
    Post (newBranch cx (cs.map PTree.index) mode) s (fun i s' => BranchMade cx s'.store i cs) R := by
  unfold newBranch
  refine Post.assertBind (Or.inl (by simpa using hcs)) fun _ => ?_
  refine Post.assertBind ?_ fun _ => ?_
  · by_cases hm : mode = .packed
    · rw [if_pos hm]
      rcases hsort hm with hp | hp
      · left
        rw [isSorted_reverse_iff, map_index_map]
        exact hp
      · exact Or.inr (hp _)
    · rw [if_neg hm]; exact Or.inl rfl
  · obtain ⟨m, hm⟩ := maxLevel_ne_none (children := cs.map PTree.index) (by simpa using hcs)
    rw [hm]
    simp only
    refine Post.bind (frame_persistBranch h _) (fun _ => Frame.pure _) (persistBranch_spec h hR _ s) ?_
    rintro ⟨l, n⟩ s' hext _ ⟨o, links, h1, h2, h3, h4, h5⟩
    refine Post.pure fun _ => ?_
    obtain ⟨m1, c, hc, hcl⟩ := maxLevel_some hm
    refine ⟨l, o, links, rfl, h1, h2, h4, h5, hcs, ?_, ?_, ?_, ?_, ?_, ?_, rfl⟩
    · intro c hc
      have := m1 _ (List.mem_map_of_mem hc)
      simp only; omega
    · obtain ⟨c', hc', rfl⟩ := List.mem_map.mp hc
      exact ⟨c', hc', by simp only; omega⟩
    · simp only [map_index_map]
    · simp only [map_index_map]
    · simp only [map_index_map]
    · simp only at h3
      simp only [map_index_map Index.keyBytes, h3]

/-! ### shapes -/

/-- All sealed nodes of the first tree are in the second. -/
def Keeps (t t' : PTree T V) : Prop := ∀ n ∈ t.nodes, n.index.isSealed = true → n ∈ t'.nodes

/-- All children of branches are directly below the branch. -/
def Straight (t : PTree T V) : Prop :=
  t.All fun n => match n with
    | .branch i cs => ∀ c ∈ cs, c.index.level + 1 = i.level
    | _ => True

/-- A root above level 1 has more than one child. -/
def MinRoot : PTree T V → Prop
  | .branch i cs => 2 ≤ i.level → 2 ≤ cs.length
  | _ => True

theorem Keeps.refl (t : PTree T V) : Keeps t t := fun _ h _ => h
theorem Keeps.trans {a b c : PTree T V} (h1 : Keeps a b) (h2 : Keeps b c) : Keeps a c :=
  fun n h hs => h2 n (h1 n h hs) hs

theorem PTree.self_mem_nodes (t : PTree T V) : t ∈ t.nodes := by cases t <;> simp [PTree.nodes]

theorem PTree.mem_nodes_branch {i : BranchIndex T} {cs : List (PTree T V)} {n : PTree T V} :
    n ∈ (PTree.branch i cs).nodes ↔ n = .branch i cs ∨ ∃ c ∈ cs, n ∈ c.nodes := by
  simp [PTree.nodes, PTree.nodesL_eq]

/-- A tree is kept when it becomes a child. -/
theorem Keeps.child {i : BranchIndex T} {cs : List (PTree T V)} {t : PTree T V} (h : t ∈ cs) :
    Keeps t (.branch i cs) := fun _ hn _ => PTree.mem_nodes_branch.mpr (Or.inr ⟨t, h, hn⟩)

/-! ### filling new nodes -/

/-- What `fill_node` for a level guarantees. -/
def FillSpec (I : NodeInv cx) (vals : V → Prop) (R : Err → Prop) (l : Nat)
    (fillChild : List (T.Key × V) → M E (Index T × List (T.Key × V))) : Prop :=
  ∀ from_ : List (T.Key × V), from_ ≠ [] → (∀ kv ∈ from_, vals kv.2) → ∀ s,
    Post (fillChild from_) s (fun r s' => ∃ t taken, r.1 = t.index ∧ Good I s'.store t ∧ t.index.level = l ∧
      from_ = taken ++ r.2 ∧ taken ≠ [] ∧ t.content = taken.map some ∧ Packed t ∧ Straight t ∧
      (r.2 = [] ∨ t.index.isSealed = true)) R

/-- The children added to a branch. -/
structure NewChildren (I : NodeInv cx) (σ : E.σ) (l : Nat) (new : List (PTree T V)) (taken rest : List (T.Key × V)) :
    Prop where
  good : ∀ c ∈ new, Good I σ c ∧ c.index.level = l ∧ Packed c ∧ Straight c
  content : PTree.contents new = taken.map some
  closed : ∀ c ∈ new.dropLast, c.index.isSealed = true
  last : rest = [] ∨ ∀ c ∈ new, c.index.isSealed = true

theorem extendBranchLoop_spec {vals : V → Prop} {R : Err → Prop} {l : Nat}
    {fillChild : List (T.Key × V) → M E (Index T × List (T.Key × V))} (hfill : FillSpec I vals R l fillChild)
    (hfr : ∀ from_, Frame cx (fillChild from_))
    (n : Nat) (cs : List (PTree T V)) (from_ : List (T.Key × V)) (hvals : ∀ kv ∈ from_, vals kv.2) (s : St E) :
    Post (extendBranchLoop fillChild n (cs.map PTree.index) from_) s (fun r s' => ∃ new taken,
      r.1 = (cs ++ new).map PTree.index ∧ from_ = taken ++ r.2 ∧ NewChildren I s'.store l new taken r.2 ∧
      new.length ≤ n ∧ (r.2 ≠ [] → new.length = n) ∧ (new = [] → taken = []) ∧ new.length ≤ taken.length) R := by
  induction n generalizing cs from_ s with
  | zero =>
    refine Post.pure fun _ => ⟨[], [], by simp, by simp, ⟨by simp, by simp, by simp, by simp⟩, by simp⟩
  | succ n ih =>
    unfold extendBranchLoop
    by_cases hf : from_ = []
    · subst hf
      refine Post.pure fun _ => ⟨[], [], by simp, by simp, ⟨by simp, by simp, by simp, by simp⟩, by simp⟩
    · rw [if_neg (by simpa using hf)]
      refine Post.bind (hfr _) (fun _ => frame_extendBranchLoop hfr _ _ _) (hfill from_ hf hvals s) ?_
      rintro ⟨child, rest⟩ s1 hx1 _ ⟨t, taken, ht0, ht1, ht2, ht3, ht4, ht5, ht6, ht6', ht7⟩
      simp only at ht0 ht3 ht7 ⊢
      subst ht0
      have := ih (cs ++ [t]) rest (fun kv hkv => hvals kv (by rw [ht3]; simp [hkv])) s1
      simp only [List.map_append, List.map_cons, List.map_nil] at this
      refine Post.mono (frame_extendBranchLoop hfr _ _ _) this ?_ (fun _ h => h)
      rintro ⟨r1, r2⟩ s2 hx2 hs2 ⟨new, taken', hn1, hn2, hn3, hn4, hn5, hn6, hn7⟩
      refine ⟨t :: new, taken ++ taken', by simpa using hn1, by simp [ht3, hn2], ⟨?_, ?_, ?_, ?_⟩, by simpa using hn4,
        fun h => by simpa using hn5 h, by simp, ?_⟩
      · intro c hc
        rcases List.mem_cons.mp hc with rfl | hc
        · exact ⟨ht1.mono hx2.store, ht2, ht6, ht6'⟩
        · exact hn3.good c hc
      · simp [ht5, hn3.content]
      · intro c hc
        cases new with
        | nil => simp at hc
        | cons a l' =>
          rw [List.dropLast_cons_of_ne_nil (by simp)] at hc
          rcases List.mem_cons.mp hc with rfl | hc
          · rcases ht7 with h | h
            · subst h
              simp only [List.nil_eq, List.append_eq_nil_iff] at hn2
              have := hn2.1
              subst this
              simp at hn7
            · exact h
          · exact hn3.closed c hc
      · rcases hn3.last with h | h
        · exact Or.inl h
        · by_cases hr : r2 = []
          · exact Or.inl hr
          · right
            intro c hc
            rcases List.mem_cons.mp hc with rfl | hc
            · rcases ht7 with h' | h'
              · subst h'
                simp only [List.nil_eq, List.append_eq_nil_iff] at hn2
                exact absurd hn2.2 hr
              · exact h'
            · exact h c hc
      · have : 1 ≤ taken.length := by
          cases taken with
          | nil => exact absurd rfl ht4
          | cons _ _ => simp
        simp only [List.length_cons, List.length_append]
        omega

end Banyan
