import Verif.Proofs.Stuck
import Verif.Proofs.NodeInvs
/-
Branches that are too large to be read again.
-/
set_option autoImplicit false
namespace Banyan

variable {T : TreeTypes} {V : Type} {E : Env T V} {cx : Ctx E} {α β : Type}

/-- A block with more content than fits into the buffer cannot be read. -/
theorem load_large (h : E.Lawful) {σ : E.σ} {l : T.Link} {o : Nat} {links : List Cid} {items : List (Index T)}
    (hget : E.get σ l = .ok (E.encNode (o, links, applyKeystream E cx.sec.indexKey o (E.zfin cx.cfg.zstdLevel (items.map E.encIdx)))))
    (hbig : maxCapacity < (items.map E.encIdx).flatten.length) :
    ∃ m, loadBranchFromLink E cx.sec σ l = .error (.fail m) := by
  have hb : getBlock E σ l = .ok (E.encNode (o, links, applyKeystream E cx.sec.indexKey o (E.zfin cx.cfg.zstdLevel (items.map E.encIdx)))) := by
    unfold getBlock; rw [hget]; rfl
  unfold loadBranchFromLink
  rw [hb]
  simp only [deserializeCompressed, decrypt, h.decNode_encNode]
  by_cases ho : o + (applyKeystream E cx.sec.indexKey o (E.zfin cx.cfg.zstdLevel (items.map E.encIdx))).length < 2 ^ 64
  · rw [if_pos ho]
    simp only [ZSeq.itemsIpld, decompress, applyKeystream_involutive, h.unz_zfin]
    rw [if_neg (by omega)]
    exact ⟨_, rfl⟩
  · rw [if_neg ho]
    exact ⟨_, rfl⟩

/-- Reserving, encrypting and storing a block. -/
theorem OkPost.encryptPut' (h : E.Lawful) {s : St E} {Q : β → St E → Prop} (z : ZSeq) (key : E.CKey)
    (f : Bytes → T.Link → M E β)
    (hf : ∀ b l s', E.get s'.store l = .ok (E.encNode (s.offset, z.links, applyKeystream E key s.offset z.data)) → OkPost (f b l) s' Q) :
    OkPost (intoEncrypted z key >>= fun b => putBlock b >>= f b) s Q := by
  intro a s' hm
  have hb := bind_apply (intoEncrypted z key) (fun b => putBlock b >>= f b) s
  rw [hb] at hm
  by_cases ho : s.offset + z.data.length < 2 ^ 64
  · have hi : intoEncrypted z key s = .ok (E.encNode (s.offset, z.links, applyKeystream E key s.offset z.data))
        { s with offset := s.offset + z.data.length } := by
      unfold intoEncrypted
      have : reserve z.data.length s = .ok s.offset { s with offset := s.offset + z.data.length } := by
        unfold reserve; simp [ho]
      rw [bind_apply, this]
      rfl
    rw [hi] at hm
    simp only at hm
    rw [bind_apply] at hm
    generalize hb : E.encNode (s.offset, z.links, applyKeystream E key s.offset z.data) = blk at hm hf
    cases hp : E.put s.store blk with
    | mk r st =>
      cases r with
      | ok l =>
        simp [putBlock, hp] at hm
        refine hf blk l _ ?_ a s' hm
        have := h.put_ok s.store blk l (by rw [hp])
        rw [hp] at this
        exact this
      | error m => simp [putBlock, hp] at hm
  · have hi : intoEncrypted z key s = .error .offsets s := by
      unfold intoEncrypted
      have : reserve z.data.length s = .error .offsets s := by unfold reserve; simp [ho]
      rw [bind_apply, this]
    rw [hi] at hm
    cases hm

theorem persistBranch_large (h : E.Lawful) (items : List (Index T)) (s : St E)
    (hbig : maxCapacity < (items.map E.encIdx).flatten.length) :
    OkPost (persistBranch cx items) s (fun r s' => ∃ m, loadBranchFromLink E cx.sec s'.store r.1 = .error (.fail m)) := by
  unfold persistBranch serializeCompressed
  refine OkPost.bind OkPost.any fun _ s1 _ => ?_
  rw [bind_assoc]
  refine OkPost.liftBind fun z hz => ?_
  rcases seqFromIterIpld_spec (cx := cx) h (fun _ => True) items cx.cfg.zstdLevel with ⟨links, h1, _⟩ | ⟨e', h1, h2⟩
  · rw [h1] at hz
    cases hz
    refine OkPost.encryptPut' h _ _ (fun b link => Pure.pure (link, b.length)) fun b l s' hg => OkPost.pure ?_
    exact load_large h hg hbig
  · rw [h1] at hz; cases hz

theorem newBranch_large (h : E.Lawful) (children : List (Index T)) (mode : CreateMode) (s : St E)
    (hbig : maxCapacity < (children.map E.encIdx).flatten.length) :
    OkPost (newBranch cx children mode) s (fun b s' => b.count = (children.map Index.count).sum ∧
      ∃ l m, b.link = some l ∧ loadBranchFromLink E cx.sec s'.store l = .error (.fail m)) := by
  unfold newBranch
  refine OkPost.assertBind fun _ => OkPost.assertBind fun _ => ?_
  split
  · exact OkPost.throw
  · refine OkPost.bind (persistBranch_large h children s hbig) fun r s' hr => ?_
    obtain ⟨m, hm⟩ := hr
    exact OkPost.pure ⟨rfl, r.1, m, rfl, hm⟩

theorem fill_one {k : T.Key} {v : V} {zl : Int} {cs us n : Nat} (hn : 1 ≤ n)
    {r : ZSeq × Bool × List T.Key × List (T.Key × V)} (h : fill E [] [(k, v)] [] zl cs us n = .ok r) :
    r.2.2.1 = [k] ∧ r.2.2.2 = [] ∧ r.1.data = E.zfin zl [E.encV v] := by
  unfold fill at h
  simp only [fillStart, List.isEmpty_nil, if_true, fillLoop, List.length_nil, ge_iff_le,
    if_neg (show ¬ n ≤ 0 by omega), List.nil_append] at h
  split at h
  · cases h
  · rename_i r' hr
    cases h
    split at hr
    · cases hr
    · rename_i h1
      rw [Nat.zero_add, if_neg h1] at hr
      split at hr
      · cases hr
      · split at hr
        · cases hr; exact ⟨rfl, rfl, rfl⟩
        · cases hr; exact ⟨rfl, rfl, rfl⟩

theorem leafFromIter_one {k : T.Key} {v : V} (hn : 1 ≤ cx.cfg.maxLeafCount) (s : St E) :
    OkPost (leafFromIter cx [(k, v)]) s (fun r _ => r.1.keys = T.keys.ofList [k] ∧ r.2 = []) := by
  unfold leafFromIter
  refine OkPost.assertBind fun _ => ?_
  unfold extendLeaf
  refine OkPost.assertBind fun _ => OkPost.liftBind fun a ha => ?_
  obtain ⟨h1, h2, _⟩ := fill_one hn ha
  obtain ⟨data, isSealed, keys, rest⟩ := a
  simp only at h1 h2
  subst h1 h2
  refine OkPost.bind OkPost.any fun b s1 _ => OkPost.bind OkPost.any fun l s2 _ => OkPost.pure ⟨rfl, rfl⟩

/-- Appending one element whose leaf index is too large to a new tree. -/
theorem extend_large (h : E.Lawful) (ht : T.Lawful) (hn : 1 ≤ cx.cfg.maxLeafCount) (fuel : Nat) {k : T.Key} {v : V} (s : St E)
    (hr : s.root = none)
    (hbig : ∀ i : LeafIndex T, i.keys = T.keys.ofList [k] → maxCapacity < (E.encIdx (.leaf i)).length) :
    OkPost (extend cx fuel [(k, v)]) s (fun _ s' => ∃ i l m, s'.root = some (.branch i) ∧ i.count = 1 ∧ i.link = some l ∧
      loadBranchFromLink E cx.sec s'.store l = .error (.fail m)) := by
  unfold extend extendAbove extendAboveWith extendStart
  simp only [List.isEmpty_cons, Bool.false_eq_true, if_false]
  refine OkPost.bind (P := fun r s1 => r = none ∧ s1 = s) (fun a s1 h1 => by cases h1; exact ⟨hr, rfl⟩) fun index s1 h1 => ?_
  obtain ⟨rfl, rfl⟩ := h1
  refine OkPost.bind (P := fun r s' => ∃ i l m, r.1 = .branch i ∧ i.count = 1 ∧ i.link = some l ∧
      loadBranchFromLink E cx.sec s'.store l = .error (.fail m)) ?_ fun a s2 h2 => ?_
  · refine OkPost.ensureBind fun _ => OkPost.assertBind fun _ => ?_
    simp only
    refine OkPost.bind (P := fun r _ => ∃ i : LeafIndex T, r.1 = .leaf i ∧ i.keys = T.keys.ofList [k] ∧ r.2 = [])
      (OkPost.bind (leafFromIter_one hn _) fun a s2 h2 => OkPost.pure ⟨a.1, rfl, h2⟩) fun a s2 h2 => ?_
    obtain ⟨n1, rest⟩ := a
    obtain ⟨i, h3, h4, h5⟩ := h2
    simp only at h3 h5
    subst h3 h5
    refine OkPost.bind (P := fun r s' => ∃ i l m, r.1 = .branch i ∧ i.count = 1 ∧ i.link = some l ∧
      loadBranchFromLink E cx.sec s'.store l = .error (.fail m)) ?_ fun a s3 h6 => OkPost.assertBind fun _ => OkPost.pure h6
    rw [show u32max - (Index.leaf i).level = 4294967294 + 1 from rfl, extendAboveLoop]
    have h0 : (Index.leaf i).level = 0 := rfl
    simp only [h0, List.isEmpty_nil, Bool.not_true, Bool.false_or, show (0 == 0) = true from rfl, Bool.true_and,
      show decide (0 < u32max) = true from rfl, if_true]
    refine OkPost.bind (P := fun r s' => r.2 = [] ∧ r.1.level ≠ 0 ∧ r.1.count = 1 ∧ ∃ l m, r.1.link = some l ∧
      loadBranchFromLink E cx.sec s'.store l = .error (.fail m)) ?_ fun a s4 h7 => ?_
    · unfold extendBranch extendBranchWith
      simp only
      refine OkPost.assertBind fun _ => OkPost.assertBind fun _ => ?_
      refine OkPost.bind (P := fun r _ => r = ([.leaf i], [])) ?_ fun a s4 h7 => ?_
      · cases cx.cfg.maxBranches (0 + 1) - [Index.leaf i].length with
        | zero => exact OkPost.pure rfl
        | succ n => exact OkPost.pure rfl
      · subst h7
        simp only
        have hc : ([Index.leaf i].map Index.count).sum = 1 := by
          have := ht.keys.len_ofList [k]
          simp [Index.count, h4, this]
        have hl : OkPost (newBranch cx [.leaf i] .packed) s4 (fun b s' => b.level ≠ 0 ∧ b.count = 1 ∧
            ∃ l m, b.link = some l ∧ loadBranchFromLink E cx.sec s'.store l = .error (.fail m)) := by
          intro b s' hb
          obtain ⟨h8, h9⟩ := newBranch_large h [.leaf i] .packed s4 (by simpa using hbig i h4) b s' hb
          refine ⟨?_, by rw [h8, hc], h9⟩
          have hl : OkPost (newBranch cx [.leaf i] .packed) s4 (fun b _ => b.level ≠ 0) := by
            unfold newBranch
            refine OkPost.assertBind fun _ => OkPost.assertBind fun _ => ?_
            split
            · exact OkPost.throw
            · exact OkPost.bind OkPost.any fun _ _ _ => OkPost.pure (Nat.succ_ne_zero _)
          exact hl b s' hb
        exact OkPost.bind hl fun b s5 h8 => OkPost.assertBind fun _ => OkPost.pure ⟨rfl, h8⟩
    · obtain ⟨b, rest⟩ := a
      obtain ⟨h8, h9, h10, l, m, h11, h12⟩ := h7
      simp only at h8 h9 h10 h11
      subst h8
      rw [extendAboveLoop]
      have h0 : ((Index.branch b).level == 0) = false := by
        rw [show (Index.branch b).level = b.level from rfl]; simpa using h9
      simp only [h0, List.isEmpty_nil, Bool.not_true, Bool.or_self, Bool.false_and, Bool.false_eq_true, if_false]
      exact OkPost.pure ⟨b, l, m, rfl, h10, h11, h12⟩
  · obtain ⟨n2, rest⟩ := a
    obtain ⟨i, l, m, h3, h4, h5, h6⟩ := h2
    simp only at h3
    subst h3
    intro u s3 h7
    cases h7
    exact ⟨i, l, m, rfl, h4, h5, h6⟩

/-- `m` succeeds in `s` and its result satisfies `Q`. -/
def Succ (m : M E α) (s : St E) (Q : α → St E → Prop) : Prop := ∃ a s', m s = .ok a s' ∧ Q a s'

theorem Succ.pure {a : α} {s : St E} {Q : α → St E → Prop} (h : Q a s) : Succ (Pure.pure a : M E α) s Q := ⟨a, s, rfl, h⟩

theorem Succ.bind {m : M E α} {f : α → M E β} {s : St E} {P : α → St E → Prop} {Q : β → St E → Prop}
    (hm : Succ m s P) (hf : ∀ a s', P a s' → Succ (f a) s' Q) : Succ (m >>= f) s Q := by
  obtain ⟨a, s', h1, h2⟩ := hm
  obtain ⟨b, s'', h3, h4⟩ := hf a s' h2
  exact ⟨b, s'', by rw [bind_apply, h1]; exact h3, h4⟩

theorem Succ.assertBind {b : Bool} {msg : String} {f : Unit → M E β} {s : St E} {Q : β → St E → Prop}
    (hb : b = true) (hf : Succ (f ()) s Q) : Succ (M.assert b msg >>= f) s Q := by subst hb; exact hf

theorem Succ.ensureBind {b : Bool} {msg : String} {f : Unit → M E β} {s : St E} {Q : β → St E → Prop}
    (hb : b = true) (hf : Succ (f ()) s Q) : Succ (M.ensure b msg >>= f) s Q := by subst hb; exact hf

theorem Succ.liftBind {x : Except Err α} {a : α} {f : α → M E β} {s : St E} {Q : β → St E → Prop}
    (hx : x = .ok a) (hf : Succ (f a) s Q) : Succ (M.lift x >>= f) s Q := by subst hx; exact hf

theorem Succ.encrypt (z : ZSeq) (key : E.CKey) (s : St E) (ho : s.offset + z.data.length < 2 ^ 64) :
    Succ (intoEncrypted z key) s (fun _ s' => s'.offset = s.offset + z.data.length ∧ s'.store = s.store ∧ s'.root = s.root) := by
  refine ⟨E.encNode (s.offset, z.links, applyKeystream E key s.offset z.data), { s with offset := s.offset + z.data.length }, ?_,
    rfl, rfl, rfl⟩
  · unfold intoEncrypted
    have : reserve z.data.length s = .ok s.offset { s with offset := s.offset + z.data.length } := by
      unfold reserve; simp [ho]
    rw [bind_apply, this]
    rfl

theorem Succ.put (hput : E.PutsOk) (b : Bytes) (s : St E) :
    Succ (putBlock b) s (fun l s' => (E.put s.store b).1 = .ok l ∧ s'.offset = s.offset ∧ s'.root = s.root) := by
  obtain ⟨l, hl⟩ := hput s.store b
  refine ⟨l, { s with store := (E.put s.store b).2, puts := s.puts ++ [b] }, ?_, hl, rfl, rfl⟩
  unfold putBlock
  cases hp : E.put s.store b with
  | mk r st => rw [hp] at hl; cases hl; rfl

/-- Appending one element to a new tree succeeds. -/
theorem extend_one (h : E.Lawful) (hcfg : cx.cfg.Valid) (hput : E.PutsOk) (hsi : E.ScrapesIdx) (hsv : E.ScrapesVal) (fuel : Nat)
    {k : T.Key} {v : V} (s : St E) (hr : s.root = none) (hfit : (E.encV v).length ≤ cx.cfg.maxUncompressedLeafSize)
    (hoff : ∀ d l (i : LeafIndex T), (E.put s.store d).1 = .ok l → i.link = some l → i.keys = T.keys.ofList [k] →
      i.valueBytes = (E.zfin cx.cfg.zstdLevel [E.encV v]).length →
      s.offset + (E.zfin cx.cfg.zstdLevel [E.encV v]).length + (E.zfin cx.cfg.zstdLevel [E.encIdx (.leaf i)]).length < 2 ^ 64) :
    ∃ s', extend cx fuel [(k, v)] s = .ok () s' := by
  have hleaf := hcfg.leaf
  suffices hS : Succ (extend cx fuel [(k, v)]) s (fun _ _ => True) by
    obtain ⟨_, s', h1, _⟩ := hS; exact ⟨s', h1⟩
  unfold extend extendAbove extendAboveWith extendStart
  simp only [List.isEmpty_cons, Bool.false_eq_true, if_false]
  refine Succ.bind (P := fun r s1 => r = none ∧ s1 = s) ⟨s.root, s, rfl, hr, rfl⟩ fun index s1 h1 => ?_
  obtain ⟨rfl, rfl⟩ := h1
  refine Succ.bind (P := fun _ _ => True) ?_ fun a s2 _ => ⟨(), _, rfl, trivial⟩
  refine Succ.ensureBind rfl <| Succ.assertBind rfl ?_
  simp only
  obtain ⟨lv, hlv⟩ := hsv v
  have hfill : ∃ r, fill E [] [(k, v)] [] cx.cfg.zstdLevel cx.cfg.targetLeafSize cx.cfg.maxUncompressedLeafSize cx.cfg.maxLeafCount = .ok r := by
    unfold fill
    simp only [fillStart, List.isEmpty_nil, if_true, fillLoop, List.length_nil, ge_iff_le,
      if_neg (show ¬ cx.cfg.maxLeafCount ≤ 0 by omega), List.nil_append, Nat.zero_add,
      if_neg (show ¬ (E.encV v).length > cx.cfg.maxUncompressedLeafSize by omega)]
    rcases scrapeLinks_single (E.encV v) (isItem_encV h v) [] with ⟨l1, ls, h1, h2, h3⟩ | ⟨m, h1, h2⟩
    · rw [h1]
      simp only
      by_cases hz : cx.cfg.targetLeafSize ≤ E.zlen cx.cfg.zstdLevel [E.encV v]
      · simp only [if_pos hz]; exact ⟨_, rfl⟩
      · simp only [if_neg hz]; exact ⟨_, rfl⟩
    · rw [hlv] at h1; cases h1
  obtain ⟨r, hfill⟩ := hfill
  obtain ⟨g1, g2, g3⟩ := fill_one hleaf hfill
  obtain ⟨data, isSealed, keys, rest⟩ := r
  simp only at g1 g2 g3
  subst g1 g2
  have hoff0 : s1.offset + data.data.length < 2 ^ 64 := by
    obtain ⟨l, hl⟩ := hput s1.store []
    have := hoff [] l ⟨true, some l, T.keys.ofList [k], (E.zfin cx.cfg.zstdLevel [E.encV v]).length⟩ hl rfl rfl rfl
    rw [g3]
    omega
  refine Succ.bind (P := fun r s' => r.2 = [] ∧ s'.offset = s1.offset + data.data.length ∧ ∃ (i : LeafIndex T) (d : Bytes) (l : T.Link),
    r.1 = .leaf i ∧ (E.put s1.store d).1 = .ok l ∧ i.link = some l ∧ i.keys = T.keys.ofList [k] ∧ i.valueBytes = data.data.length) ?_ fun a s2 h2 => ?_
  · refine Succ.bind (P := fun r s' => r.2 = [] ∧ s'.offset = s1.offset + data.data.length ∧ ∃ (d : Bytes) (l : T.Link),
      (E.put s1.store d).1 = .ok l ∧ r.1.link = some l ∧ r.1.keys = T.keys.ofList [k] ∧ r.1.valueBytes = data.data.length) ?_ fun a s2 h2 => ?_
    · unfold leafFromIter extendLeaf
      refine Succ.assertBind rfl <| Succ.assertBind rfl <| Succ.liftBind hfill ?_
      refine Succ.bind (Succ.encrypt data _ _ hoff0) fun b s2 h2 => Succ.bind (Succ.put hput b s2) fun l s3 h3 => Succ.pure ?_
      rw [h2.2.1] at h3
      exact ⟨rfl, by rw [h3.2.1, h2.1], b, l, h3.1, rfl, rfl, rfl⟩
    · obtain ⟨h3, h4, d, l, h5⟩ := h2
      exact Succ.pure ⟨h3, h4, a.1, d, l, rfl, h5⟩
  obtain ⟨n1, rest⟩ := a
  obtain ⟨h3, h4, i, d, l, h5, h6, h7, h8, h9⟩ := h2
  simp only at h3 h5
  subst h3 h5
  have hoff1 := hoff d l i h6 h7 h8 (by rw [h9, g3])
  refine Succ.bind (P := fun r _ => r.2 = [] ∧ ∃ b : BranchIndex T, r.1 = .branch b ∧ b.level = 1) ?_ fun a s3 h10 => ?_
  · rw [show u32max - (Index.leaf i).level = 4294967294 + 1 from rfl, extendAboveLoop]
    have h0 : (Index.leaf i).level = 0 := rfl
    simp only [h0, List.isEmpty_nil, Bool.not_true, Bool.false_or, show (0 == 0) = true from rfl, Bool.true_and,
      show decide (0 < u32max) = true from rfl, if_true]
    refine Succ.bind (P := fun r _ => r.2 = [] ∧ r.1.level = 1) ?_ fun a s4 h10 => ?_
    · unfold extendBranch extendBranchWith
      simp only
      refine Succ.assertBind (by simp [h0]) <| Succ.assertBind (by simp) ?_
      refine Succ.bind (P := fun r s' => r = ([.leaf i], []) ∧ s' = s2) ?_ fun a s4 h7 => ?_
      · cases cx.cfg.maxBranches (0 + 1) - [Index.leaf i].length with
        | zero => exact Succ.pure ⟨rfl, rfl⟩
        | succ n => exact Succ.pure ⟨rfl, rfl⟩
      · obtain ⟨rfl, rfl⟩ := h7
        simp only
        refine Succ.bind (P := fun b _ => b.level = 1) ?_ fun b s5 hb => ?_
        · unfold newBranch
          refine Succ.assertBind rfl <| Succ.assertBind rfl ?_
          have hm : maxLevel [Index.leaf i] = some 0 := rfl
          rw [hm]
          simp only
          refine Succ.bind (P := fun _ _ => True) ?_ fun _ _ _ => Succ.pure rfl
          unfold persistBranch serializeCompressed
          refine Succ.bind (P := fun _ s' => s'.offset = s4.offset) ⟨(), _, rfl, rfl⟩ fun _ s5 h5 => ?_
          rw [bind_assoc]
          rcases seqFromIterIpld_spec (cx := cx) h (fun _ => True) [.leaf i] cx.cfg.zstdLevel with ⟨links, h1, _⟩ | ⟨e', h1, h2⟩
          · refine Succ.liftBind h1 ?_
            refine Succ.bind (Succ.encrypt _ _ _ ?_) fun b s6 _ => Succ.bind (Succ.put hput b s6) fun l s7 _ => Succ.pure trivial
            rw [h5, h4, g3]
            exact hoff1
          · exfalso
            unfold seqFromIterIpld at h1
            rcases encodeLoop_spec (E := E) ([Index.leaf i].map E.encIdx) (by
              intro b hb
              obtain ⟨v, _, rfl⟩ := List.mem_map.mp hb
              exact isItem_encIdx h v) [] [] with ⟨links, h3, _⟩ | ⟨b, hb, m, h3, _⟩
            · rw [h3] at h1; cases h1
            · obtain ⟨v, _, rfl⟩ := List.mem_map.mp hb
              obtain ⟨ls, hls, _⟩ := hsi v
              rw [hls] at h3; cases h3
        · refine Succ.assertBind ?_ (Succ.pure ⟨rfl, hb⟩)
          simp [hb]
    · obtain ⟨b, rest⟩ := a
      obtain ⟨h11, h12⟩ := h10
      simp only at h11 h12
      subst h11
      rw [extendAboveLoop]
      have h0 : ((Index.branch b).level == 0) = false := by
        rw [show (Index.branch b).level = b.level from rfl, h12]; rfl
      simp only [h0, List.isEmpty_nil, Bool.not_true, Bool.or_self, Bool.false_and, Bool.false_eq_true, if_false]
      exact Succ.pure ⟨rfl, b, rfl, h12⟩
  · obtain ⟨n2, rest⟩ := a
    obtain ⟨h11, b, h12, h13⟩ := h10
    simp only at h11 h12
    subst h11 h12
    refine Succ.assertBind ?_ (Succ.pure trivial)
    simp only [List.isEmpty_nil, Bool.not_true, Bool.false_eq_true, if_false, decide_eq_true_eq]
    rw [show (Index.branch b).level = b.level from rfl, h13]
    unfold u32max; omega

end Banyan
