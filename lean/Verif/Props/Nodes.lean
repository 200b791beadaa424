import Verif.Proofs.NodeInvs
import Verif.Props.Retain
/-
The nodes of trees and their blocks: C37, C38, C39, C40, C50.
-/
set_option autoImplicit false
namespace Banyan

open PTree Concrete

variable {T : TreeTypes} {V : Type} {E : Env T V} {cx : Ctx E} {s : St E} {t : PTree T V}

theorem mem_nodesL {cs : List (PTree T V)} {n : PTree T V} : n ∈ nodesL cs ↔ ∃ c ∈ cs, n ∈ c.nodes := by
  rw [nodesL_eq, List.mem_flatMap]

/-! ### C37 -/

/-- C37: filling a leaf (which is new, or holds values within the limits) takes a prefix of the given elements; the leaf
stays within the limits and it is marked as sealed exactly if one of the limits has been reached or the next element
does not fit. -/
theorem C37_fill (h : E.Lawful) (compressed : Bytes) (old : List V) (keys : List T.Key) (from_ : List (T.Key × V)) (lvl : Int)
    (target maxSize maxCount : Nat) (hmax : maxSize ≤ maxCapacity)
    (hold : (compressed = [] ∧ old = []) ∨ (compressed ≠ [] ∧ decompress E compressed = .ok (old.map E.encV).flatten))
    (hkeys : keys.length = old.length) (hcnt : old.length ≤ maxCount) (hsz : (old.map E.encV).flatten.length ≤ maxSize)
    {z : ZSeq} {sealed : Bool} {keys' : List T.Key} {rest : List (T.Key × V)}
    (hf : fill E compressed from_ keys lvl target maxSize maxCount = .ok (z, sealed, keys', rest)) :
    ∃ taken vs, from_ = taken ++ rest ∧ keys' = keys ++ taken.map Prod.fst ∧ vs = old ++ taken.map Prod.snd ∧
      ZSeq.items E z = .ok vs ∧ vs.length ≤ maxCount ∧ (vs.map E.encV).flatten.length ≤ maxSize ∧
      (sealed = true ↔ maxCount ≤ vs.length ∨ target ≤ z.data.length ∨ maxSize ≤ (vs.map E.encV).flatten.length ∨
        ∃ kv more, rest = kv :: more ∧ maxSize < (vs.map E.encV).flatten.length + (E.encV kv.2).length) := by
  have hstart : (∃ ws links, fillStart E compressed = .ok ((encVals E old).length, ws, links) ∧
      ws.flatten = encVals E old ∧
      LinksOf E (old.map E.encV) links) ∨
      (∃ e, fillStart E compressed = .error e ∧ Allowed E Config.debug (fun _ => True) e) := by
    rcases hold with ⟨rfl, rfl⟩ | ⟨h1, h2⟩
    · exact Or.inl ⟨[], [], by simp [fillStart_nil, encVals], by simp [encVals], .nil⟩
    · rcases fillStart_spec h Config.debug (fun _ => True) compressed h1 old h2 with ⟨links, h3, h4⟩ | h3
      · exact Or.inl ⟨_, links, h3, by simp, h4⟩
      · exact Or.inr h3
  unfold fill at hf
  rcases hstart with ⟨ws0, links0, hs1, hs2, hs3⟩ | ⟨e, hs1, hs2⟩
  · rw [hs1] at hf
    simp only at hf
    rcases fillLoop_spec h { Config.debug with maxUncompressedLeafSize := maxSize } (fun _ => True) lvl target maxSize
      maxCount rfl from_ (fun _ _ => trivial) keys ws0 links0 old hs2 hkeys hs3 with
      ⟨r, hr, taken, g1, g2, g3, g4, g56, g7, g8, g9, g10⟩ | ⟨e, hr, he⟩
    · rw [hr] at hf
      simp only [Except.ok.injEq, Prod.mk.injEq] at hf
      obtain ⟨f1, f2, f3, f4⟩ := hf
      subst f1 f4
      have hlen : (old ++ taken.map Prod.snd).length = r.keys.length := by
        rw [g2]; simp [hkeys]
      have ⟨g5, g6⟩ : r.size ≤ maxSize ∧ r.keys.length ≤ maxCount := by
        by_cases h0 : taken = []
        · subst h0
          refine ⟨?_, by rw [g2]; simpa [hkeys] using hcnt⟩
          rw [g4]
          simpa [encVals] using hsz
        · exact g56 h0
      have g4' : ((old ++ taken.map Prod.snd).map E.encV).flatten.length = r.size := g4.symm
      refine ⟨taken, old ++ taken.map Prod.snd, g1, by rw [← f3, g2], rfl, ?_, by omega, by omega, ?_⟩
      · refine ZSeq.items_of_decompress h ?_
        show decompress E (E.zfin lvl r.ws) = _
        rw [decompress_zfin h _ _ (by rw [g3]; show _ ≤ _; rw [← g4]; omega), g3]
        rfl
      · rw [← f2, hlen, g4']
        simp only [Bool.or_eq_true, decide_eq_true_eq]
        constructor
        · rintro (((a | a) | a) | a)
          · obtain ⟨kv, more, b1, b2, _⟩ := g8 a
            exact Or.inr (Or.inr (Or.inr ⟨kv, more, b1, b2⟩))
          · exact Or.inr (Or.inl a)
          · exact Or.inl a
          · exact Or.inr (Or.inr (Or.inl a))
        · rintro (a | a | a | ⟨kv, more, b1, b2⟩)
          · exact Or.inl (Or.inr a)
          · exact Or.inl (Or.inl (Or.inr a))
          · exact Or.inr a
          · rcases g9 with c | c | c | c
            · rw [c] at b1; cases b1
            · exact Or.inl (Or.inl (Or.inl c))
            · exact Or.inl (Or.inr c)
            · exact Or.inl (Or.inl (Or.inr (Nat.le_trans c (h.zlen_le _ _))))
    · rw [hr] at hf; cases hf
  · rw [hs1] at hf; cases hf

/-- C37: every leaf of a reachable tree is within the limits; if it is not sealed then none of the limits is reached; if
it is sealed then one of them is reached or there is a value that does not fit any more. -/
theorem C37_leaves (ok : cx.Ok) (hr : Steady cx s) (hs : Small E s) (ht : Shows cx s t) {i : LeafIndex T} {vs : List V}
    (hl : .leaf i vs ∈ t.nodes) :
    vs ≠ [] ∧ vs.length ≤ cx.cfg.maxLeafCount ∧ (vs.map E.encV).flatten.length ≤ cx.cfg.maxUncompressedLeafSize ∧
    ∃ l o links d, i.link = some l ∧ envelope E s.store l = some (o, links, d) ∧
      (i.isSealed = false → d.length < cx.cfg.targetLeafSize ∧ vs.length < cx.cfg.maxLeafCount ∧
        (vs.map E.encV).flatten.length < cx.cfg.maxUncompressedLeafSize) ∧
      (i.isSealed = true → cx.cfg.targetLeafSize ≤ d.length ∨ cx.cfg.maxLeafCount ≤ vs.length ∨
        ∃ v, (E.encV v).length ≤ cx.cfg.maxUncompressedLeafSize ∧
          cx.cfg.maxUncompressedLeafSize ≤ (vs.map E.encV).flatten.length + (E.encV v).length) := by
  obtain ⟨_, h2, h3⟩ := hr.good ok (limitsInv_rewrites ok.env) hs ht _ hl
  obtain ⟨h4, h5⟩ := hr.within ok hs ht _ hl
  exact ⟨h2.2.1, h4, h5, h3⟩

/-! ### C38 -/

/-- C38: every branch of a reachable tree has at least one and at most the configured number of children for its level,
and is sealed exactly if all of its children are sealed, directly below it, and their number has reached the limit. -/
theorem C38_branches (ok : cx.Ok) (hr : Steady cx s) (hs : Small E s) (ht : Shows cx s t) {i : BranchIndex T} {cs : List (PTree T V)}
    (hb : .branch i cs ∈ t.nodes) (limit : Nat)
    (hlimit : limit = if i.level = 1 then cx.cfg.maxKeyBranches else cx.cfg.maxSummaryBranches) :
    1 ≤ cs.length ∧ cs.length ≤ limit ∧
    (i.isSealed = true ↔ (∀ c ∈ cs, c.index.isSealed = true ∧ c.index.level + 1 = i.level) ∧ limit ≤ cs.length) := by
  obtain ⟨_, ⟨h1, h3, _⟩, h2, h4⟩ := hr.good ok withinInv_rewrites hs ht _ hb
  have hm : cx.cfg.maxBranches i.level = limit := hlimit.symm
  refine ⟨List.length_pos_iff.mpr h1, hm ▸ h2, ?_⟩
  rw [h4, branchSealed_iff, hm, List.length_map]
  refine and_congr_left fun _ => ?_
  constructor
  · intro h c hc
    have := h _ (List.mem_map_of_mem hc)
    have := h3 c hc
    exact ⟨(h _ (List.mem_map_of_mem hc)).1, by omega⟩
  · intro h x hx
    obtain ⟨c, hc, rfl⟩ := List.mem_map.mp hx
    exact ⟨(h c hc).1, by have := (h c hc).2; omega⟩

/-! ### C39 -/

/-- C39: a sequence made from values gives them back, as a whole, one by one, or selected by a mask; their number is
right. -/
theorem C39_accessors (h : E.Lawful) (vs : List V) (lvl : Int) {z : ZSeq} (hz : seqFromIter E vs lvl = .ok z)
    (hsz : (vs.map E.encV).flatten.length ≤ maxCapacity) :
    ZSeq.items E z = .ok vs ∧ ZSeq.count E z = .ok vs.length ∧ (∀ n, ZSeq.get E z n = .ok vs[n]?) ∧
    ∀ mask, ZSeq.select E z mask = .ok ((vs.zip mask).filterMap fun x => if x.2 then some x.1 else none) := by
  have hd : decompress E z.data = .ok (vs.map E.encV).flatten := by
    unfold seqFromIter at hz
    rcases encodeLoop_spec (E := E) (vs.map E.encV) (by
      intro b hb
      obtain ⟨v, _, rfl⟩ := List.mem_map.mp hb
      exact isItem_encV h v) [] [] with ⟨links, h1, h2, _⟩ | ⟨b, hb, m, h1, h2⟩
    · rw [h1] at hz
      cases hz
      exact decompress_zfin h lvl _ hsz
    · rw [h2] at hz; cases hz
  refine ⟨ZSeq.items_of_decompress h hd, ZSeq.count_of_decompress h hd, ZSeq.get_of_decompress h hd, fun mask => ?_⟩
  rw [ZSeq.select_of_decompress h hd]
  congr 1
  clear hsz hd hz
  induction vs generalizing mask with
  | nil => cases mask with
    | nil => rfl
    | cons b mask => cases b <;> rfl
  | cons v vs ih => cases mask with
    | nil => rfl
    | cons b mask => cases b <;> simp [maskSelect, ih]

/-- Making a sequence only fails if something in a value looks like a link but is not a valid one. -/
theorem C39_from_iter (h : E.Lawful) (hl : E.ScrapesVal) (vs : List V) (lvl : Int) : ∃ z, seqFromIter E vs lvl = .ok z := by
  unfold seqFromIter
  rcases encodeLoop_spec (E := E) (vs.map E.encV) (by
    intro b hb
    obtain ⟨v, _, rfl⟩ := List.mem_map.mp hb
    exact isItem_encV h v) [] [] with ⟨links, h1, h2, _⟩ | ⟨b, hb, m, h1, h2⟩
  · rw [h1]; exact ⟨_, rfl⟩
  · obtain ⟨v, _, rfl⟩ := List.mem_map.mp hb
    obtain ⟨ls, h3⟩ := hl v
    rw [h3] at h1; cases h1

/-! ### C40 -/

/-- C40: the link section of the block of a branch lists the links of all children. -/
theorem C40_branch (ok : cx.Ok) (hl : E.ScrapesIdx) (hr : Reach cx s) (hs : Small E s) (ht : Shows cx s t) {i : BranchIndex T}
    {cs : List (PTree T V)} (hb : .branch i cs ∈ t.nodes) :
    ∃ l o links d, i.link = some l ∧ envelope E s.store l = some (o, links, d) ∧
      ∀ c ∈ cs, ∀ lc, c.index.link = some lc → E.cid lc ∈ links := by
  obtain ⟨_, _, l, o, links, d, h1, h2, h3⟩ := hr.good ok (fun c => linksInv ok.env ⟨c, cx.sec⟩) (fun _ _ => rfl) (fun _ => linksInv_rewrites ok.env) hs ht _ hb
  refine ⟨l, o, links, d, h1, h2, fun c hc lc hlc => ?_⟩
  obtain ⟨ls, h4, h5⟩ := hl c.index
  exact h3.all (List.mem_map_of_mem (List.mem_map_of_mem hc)) h4 (h5 lc hlc)

/-- C40: the link section of the block of a leaf lists all links in the values. -/
theorem C40_leaf (ok : cx.Ok) (hr : Reach cx s) (hs : Small E s) (ht : Shows cx s t) {i : LeafIndex T} {vs : List V}
    (hb : .leaf i vs ∈ t.nodes) :
    ∃ l o links d, i.link = some l ∧ envelope E s.store l = some (o, links, d) ∧
      ∀ v ∈ vs, ∀ ls, E.itemLinks (E.encV v) = .ok ls → ∀ x ∈ ls, x ∈ links := by
  obtain ⟨_, _, l, o, links, d, h1, h2, h3⟩ := hr.good ok (fun c => linksInv ok.env ⟨c, cx.sec⟩) (fun _ _ => rfl) (fun _ => linksInv_rewrites ok.env) hs ht _ hb
  exact ⟨l, o, links, d, h1, h2, fun v hv ls hl x hx => h3.all (List.mem_map_of_mem hv) hl hx⟩

theorem LinksOf.map {α : Type} {f : α → Bytes} {as : List α} {links : List Cid} (h : LinksOf E (as.map f) links) (x : Cid) :
    x ∈ links ↔ ∃ a ∈ as, ∃ ls, E.itemLinks (f a) = .ok ls ∧ x ∈ ls := by
  rw [h x]
  constructor
  · rintro ⟨b, hb, ls, h1, h2⟩
    obtain ⟨a, ha, rfl⟩ := List.mem_map.mp hb
    exact ⟨a, ha, ls, h1, h2⟩
  · rintro ⟨a, ha, ls, h1, h2⟩
    exact ⟨_, List.mem_map_of_mem ha, ls, h1, h2⟩

theorem exists_mem_map {α β : Type} {f : α → β} {as : List α} {P : β → Prop} : (∃ b ∈ as.map f, P b) ↔ ∃ a ∈ as, P (f a) := by
  constructor
  · rintro ⟨b, hb, h⟩
    obtain ⟨a, ha, rfl⟩ := List.mem_map.mp hb
    exact ⟨a, ha, h⟩
  · rintro ⟨a, ha, h⟩
    exact ⟨_, List.mem_map_of_mem ha, h⟩

/-- C40: the link section of a branch lists nothing but the links in the indices of its children. -/
theorem C40_branch_exact (ok : cx.Ok) (hr : Reach cx s) (hs : Small E s) (ht : Shows cx s t) {i : BranchIndex T} {cs : List (PTree T V)}
    (hb : .branch i cs ∈ t.nodes) :
    ∃ l o links d, i.link = some l ∧ envelope E s.store l = some (o, links, d) ∧
      ∀ x, x ∈ links ↔ ∃ c ∈ cs, ∃ ls, E.itemLinks (E.encIdx c.index) = .ok ls ∧ x ∈ ls := by
  obtain ⟨_, _, l, o, links, d, h1, h2, h3⟩ := hr.good ok (fun c => linksInv ok.env ⟨c, cx.sec⟩) (fun _ _ => rfl) (fun _ => linksInv_rewrites ok.env) hs ht _ hb
  exact ⟨l, o, links, d, h1, h2, fun x => by rw [h3.map, exists_mem_map]⟩

/-- C40: the link section of a leaf lists nothing but the links in its values, also if the leaf has been extended. -/
theorem C40_leaf_exact (ok : cx.Ok) (hr : Reach cx s) (hs : Small E s) (ht : Shows cx s t) {i : LeafIndex T} {vs : List V}
    (hb : .leaf i vs ∈ t.nodes) :
    ∃ l o links d, i.link = some l ∧ envelope E s.store l = some (o, links, d) ∧
      ∀ x, x ∈ links ↔ ∃ v ∈ vs, ∃ ls, E.itemLinks (E.encV v) = .ok ls ∧ x ∈ ls := by
  obtain ⟨_, _, l, o, links, d, h1, h2, h3⟩ := hr.good ok (fun c => linksInv ok.env ⟨c, cx.sec⟩) (fun _ _ => rfl) (fun _ => linksInv_rewrites ok.env) hs ht _ hb
  exact ⟨l, o, links, d, h1, h2, fun x => h3.map x⟩

theorem Found.trans {σ : E.σ} {a b c : T.Link} (h1 : Found E σ a b) (h2 : Found E σ b c) : Found E σ a c := by
  induction h2 with
  | root => exact h1
  | step _ h3 h4 ih => exact .step ih h3 h4

/-- C40: all blocks of the tree are found from the root by following link sections. -/
theorem C40_all_found (ok : cx.Ok) (hl : E.ScrapesIdx) (hr : Reach cx s) (hs : Small E s) (ht : Shows cx s t) {r : T.Link}
    (hroot : rootLink s.root = some r) {n : PTree T V} (hn : n ∈ t.nodes) {l : T.Link} (hlink : n.index.link = some l) :
    Found E s.store r l := by
  have hg := hr.good ok (fun c => linksInv ok.env ⟨c, cx.sec⟩) (fun _ _ => rfl) (fun _ => linksInv_rewrites ok.env) hs ht
  have hroot' : t.index.link = some r := by
    unfold rootLink at hroot
    rw [ht.root] at hroot
    exact hroot
  clear ht hroot
  induction t using PTree.induct generalizing r with
  | leaf i vs =>
    simp only [nodes, List.mem_singleton] at hn
    subst hn
    rw [hroot'] at hlink
    cases hlink
    exact .root
  | purgedLeaf i =>
    simp only [nodes, List.mem_singleton] at hn
    subst hn
    rw [hroot'] at hlink
    cases hlink
    exact .root
  | purgedBranch i =>
    simp only [nodes, List.mem_singleton] at hn
    subst hn
    rw [hroot'] at hlink
    cases hlink
    exact .root
  | branch i cs ih =>
    simp only [nodes, List.mem_cons] at hn
    rcases hn with rfl | hn
    · rw [hroot'] at hlink
      cases hlink
      exact .root
    · obtain ⟨c, hc, hnc⟩ := mem_nodesL.mp hn
      obtain ⟨_, _, l0, o, links, d, h1, h2, h3⟩ := hg _ (self_mem_nodes _)
      cases hcl : c.index.link with
      | none =>
        cases c with
        | leaf j vs =>
          obtain ⟨lj, _, _, hj, _⟩ := (hg _ (by simp only [nodes, List.mem_cons]; exact Or.inr (mem_nodesL.mpr ⟨_, hc, self_mem_nodes _⟩))).1
          have : j.link = none := hcl
          rw [this] at hj; cases hj
        | branch j vs =>
          obtain ⟨lj, _, hj, _⟩ := (hg _ (by simp only [nodes, List.mem_cons]; exact Or.inr (mem_nodesL.mpr ⟨_, hc, self_mem_nodes _⟩))).1
          have : j.link = none := hcl
          rw [this] at hj; cases hj
        | purgedLeaf j =>
          simp only [nodes, List.mem_singleton] at hnc
          subst hnc
          rw [hcl] at hlink
          cases hlink
        | purgedBranch j =>
          simp only [nodes, List.mem_singleton] at hnc
          subst hnc
          rw [hcl] at hlink
          cases hlink
      | some lc =>
        have h4 := ih c hc hnc (r := lc) (fun m hm => hg m (by simp only [nodes, List.mem_cons]; exact Or.inr (mem_nodesL.mpr ⟨c, hc, hm⟩))) hcl
        have h5 : r = l0 := by
          have : i.link = some r := hroot'
          rw [h1] at this
          exact (Option.some.inj this).symm
        subst h5
        obtain ⟨ls, h6, h7⟩ := hl c.index
        exact Found.trans (.step .root h2 (h3.all (List.mem_map_of_mem (List.mem_map_of_mem hc)) h6 (h7 lc hcl))) h4

/-! ### C50 -/

theorem sum_sizes (f : PTree T V → Nat) (g : Index T → Nat) (cs : List (PTree T V))
    (h : ∀ c ∈ cs, g c.index = (c.nodes.map f).sum) : (cs.map fun c => g c.index).sum = ((nodesL cs).map f).sum := by
  induction cs with
  | nil => rfl
  | cons c cs ih =>
    simp only [List.map_cons, List.sum_cons, nodesL, List.map_append, List.sum_append]
    rw [h c (by simp), ih fun d hd => h d (by simp [hd])]

theorem sizes_of_good (h : E.Lawful) {σ : E.σ} (hg : Good (sizesInv h cx) σ t) :
    t.index.valueBytes = (t.nodes.map (leafSize E σ)).sum ∧ t.index.keyBytes = (t.nodes.map (branchSize E σ)).sum := by
  induction t using PTree.induct with
  | leaf i vs =>
    have := (hg _ (self_mem_nodes _)).2.2.1
    simp only [nodes, List.map_cons, List.map_nil, List.sum_cons, List.sum_nil, Nat.add_zero]
    exact ⟨this, rfl⟩
  | purgedLeaf i => exact ((hg _ (self_mem_nodes _)).2.2).elim
  | purgedBranch i => exact ((hg _ (self_mem_nodes _)).2.2).elim
  | branch i cs ih =>
    have hc : ∀ c ∈ cs, Good (sizesInv h cx) σ c := fun c hc => All.child hg hc
    obtain ⟨h1, l, b, h2, h3, h4⟩ := (hg _ (self_mem_nodes _)).2.2
    simp only [nodes, List.map_cons, List.sum_cons]
    rw [← sum_sizes (leafSize E σ) Index.valueBytes cs fun c hc' => (ih c hc' (hc c hc')).1,
      ← sum_sizes (branchSize E σ) Index.keyBytes cs fun c hc' => (ih c hc' (hc c hc')).2]
    constructor
    · simp only [leafSize, Nat.zero_add]
      exact h1
    · simp only [branchSize, h2, h3]
      rw [Nat.add_comm]
      exact h4

/-- C50: the value size of a tree is the sum of the compressed sizes of its leaves, its key size is the sum of the sizes
of its branch blocks. -/
theorem C50_sizes (ok : cx.Ok) (hr : Appended cx s) (hs : Small E s) (ht : Shows cx s t) :
    t.index.valueBytes = (t.nodes.map (leafSize E s.store)).sum ∧ t.index.keyBytes = (t.nodes.map (branchSize E s.store)).sum := by
  obtain ⟨t0, hi⟩ := hr.inv ok.env ok.types ok.cfg (sizesInv ok.env) (fun _ _ _ => rfl) (fun _ => sizesInv_reloads ok.env) hs
  exact sizes_of_good ok.env (hi.good ok.env ht)

/-! ### examples

Ten elements in a tree with two elements per leaf and two children per branch, the last three appended without packing. -/

theorem unpacked10_shows : ∃ t : PTree types Nat, Shows (ctx tiny) unpacked10 t :=
  unpacked10_reach.shows tiny_ok unpacked10_small (by
    intro h
    have h2 : (unpacked10.root.isNone = false) := by decide +kernel
    rw [h] at h2
    cases h2)

theorem isBranch_of_root {s : St env} {t : PTree types Nat} (h : Shows (ctx tiny) s t)
    (h1 : (match s.root with | some (.branch i) => i.link.isSome | _ => false) = true) : ∃ i cs, t = .branch i cs := by
  obtain ⟨hr, hs⟩ := h
  cases t with
  | leaf i vs => rw [hr] at h1; cases h1
  | purgedLeaf i => rw [hr] at h1; cases h1
  | branch i cs => exact ⟨i, cs, rfl⟩
  | purgedBranch i =>
    rw [hr] at h1
    have h2 : i.link = none := hs _ (self_mem_nodes _)
    simp [index, h2] at h1

/-- C38 applies to the root, which is not sealed although all its children may be: they are of different levels. -/
example : ∃ t : PTree types Nat, Shows (ctx tiny) unpacked10 t ∧ ∃ i cs, PTree.branch i cs ∈ t.nodes ∧ 1 ≤ cs.length ∧ i.level = 3 ∧
    i.isSealed = false := by
  obtain ⟨t, ht⟩ := unpacked10_shows
  obtain ⟨i, cs, rfl⟩ := isBranch_of_root ht (by decide +kernel)
  refine ⟨_, ht, i, cs, self_mem_nodes _, (C38_branches tiny_ok unpacked10_steady unpacked10_small ht (self_mem_nodes _) _ rfl).1, ?_⟩
  have h1 : (match unpacked10.root with | some (.branch i) => decide (i.level = 3 ∧ i.isSealed = false) | _ => false) = true := by
    decide +kernel
  rw [ht.root] at h1
  simpa [index] using h1

/-- A leaf with three elements at most, holding one element already. -/
def filled : Except Err (ZSeq × Bool × List Nat × List (Nat × Nat)) :=
  fill env (env.zfin 0 [env.encV (5 : Nat)]) ([(1, 6), (2, 7), (3, 8)] : List (Nat × Nat)) ([0] : List Nat) 0 1000 100 3

/-- C37: the second and third element are taken; the leaf is sealed. -/
example : (match filled with
    | .ok (_, sealed, keys, rest) => decide (sealed = true ∧ keys = [0, 1, 2] ∧ rest = [(3, 8)])
    | .error _ => false) = true := by decide +kernel

/-- C50: the root of the tree of seven elements reports the size of the values. -/
example : ∃ t : PTree types Nat, Shows (ctx tiny) packed7 t ∧ 7 ≤ (t.nodes.map (leafSize env packed7.store)).sum ∧
    1 ≤ (t.nodes.map (branchSize env packed7.store)).sum := by
  obtain ⟨t, ht⟩ := packed7_reach.shows tiny_ok packed7_small (by
    intro h
    have h2 : (packed7.root.isNone = false) := by decide +kernel
    rw [h] at h2
    cases h2)
  have happ : Appended (ctx tiny) packed7 :=
    Appended.extend (cx := ctx tiny) 10 (seq 0 7) (.fresh (start 100) rfl (by intro l b h; cases h)) (by decide +kernel) (by decide +kernel)
  obtain ⟨h1, h2⟩ := C50_sizes tiny_ok happ packed7_small ht
  have h3 : (match packed7.root with | some i => decide (7 ≤ i.valueBytes ∧ 1 ≤ i.keyBytes) | _ => false) = true := by decide +kernel
  rw [ht.root] at h3
  simp only [decide_eq_true_eq] at h3
  exact ⟨t, ht, h1 ▸ h3.1, h2 ▸ h3.2⟩

/-- C39 -/
example : ∃ z, seqFromIter env [5, 6, 7] 0 = .ok z ∧ ZSeq.get env z 1 = .ok (some 6) ∧
    ZSeq.select env z [true, false, true] = .ok [5, 7] := by
  obtain ⟨z, hz⟩ := C39_from_iter env_lawful env_scrapesVal [5, 6, 7] 0
  have := C39_accessors env_lawful [5, 6, 7] 0 hz (by decide +kernel)
  exact ⟨z, hz, this.2.2.1 1, this.2.2.2 [true, false, true]⟩

/-- C40 -/
example : ∃ (t : PTree types Nat) (r : Nat), Shows (ctx tiny) unpacked10 t ∧ rootLink unpacked10.root = some r ∧
    ∀ n ∈ t.nodes, ∀ l, n.index.link = some l → Found env unpacked10.store r l := by
  obtain ⟨t, ht⟩ := unpacked10_shows
  have h1 : (rootLink unpacked10.root).isSome = true := by decide +kernel
  obtain ⟨r, hr⟩ := Option.isSome_iff_exists.mp h1
  exact ⟨t, r, ht, hr, fun n hn l hl => C40_all_found tiny_ok env_scrapesIdx unpacked10_reach unpacked10_small ht hr hn hl⟩

end Banyan
