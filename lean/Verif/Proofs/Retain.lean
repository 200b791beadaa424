import Verif.Proofs.Pack
import Verif.Spec.Purge
/-
`retain`.
-/
namespace Banyan

variable {T : TreeTypes} {V : Type} {E : Env T V} {cx : Ctx E} {I : NodeInv cx}

open PTree

/-! ### indexes without link -/

/-- An index with the link removed. -/
def Index.unlink : Index T → Index T
  | .leaf i => .leaf { i with link := none }
  | .branch i => .branch { i with link := none }

theorem unlink_level {a b : Index T} (h : a.unlink = b.unlink) : a.level = b.level := by
  cases a <;> cases b <;> simp_all [Index.unlink, Index.level]

theorem unlink_sealed {a b : Index T} (h : a.unlink = b.unlink) : a.isSealed = b.isSealed := by
  cases a <;> cases b <;> simp_all [Index.unlink, Index.isSealed]

theorem unlink_count {a b : Index T} (h : a.unlink = b.unlink) : a.count = b.count := by
  cases a <;> cases b <;> simp_all [Index.unlink, Index.count]

theorem unlink_valueBytes {a b : Index T} (h : a.unlink = b.unlink) : a.valueBytes = b.valueBytes := by
  cases a <;> cases b <;> simp_all [Index.unlink, Index.valueBytes]

theorem unlink_summarize {a b : Index T} (h : a.unlink = b.unlink) : a.summarize = b.summarize := by
  cases a <;> cases b <;> simp_all [Index.unlink, Index.summarize]

theorem unlink_eq {a b : Index T} (h : a.unlink = b.unlink) (hl : a.link = b.link) : a = b := by
  cases a <;> cases b <;> simp_all [Index.unlink, Index.link]
  · rename_i i j
    cases i; cases j; simp_all
  · rename_i i j
    cases i; cases j; simp_all

/-! ### erased contents -/

theorem Erased.refl (m : Nat → T.Key → Bool) (o : Nat) (l : List (Option (T.Key × V))) : Erased m o l l := by
  induction l generalizing o with
  | nil => trivial
  | cons a l ih => exact ⟨Or.inl rfl, ih _⟩

theorem Erased.length {m : Nat → T.Key → Bool} {o : Nat} {a b : List (Option (T.Key × V))} (h : Erased m o a b) :
    b.length = a.length := by
  induction a generalizing o b with
  | nil => cases b with
    | nil => rfl
    | cons => exact h.elim
  | cons x a ih => cases b with
    | nil => exact h.elim
    | cons y b => simp [ih h.2]

theorem Erased.append {m : Nat → T.Key → Bool} {o : Nat} {a b a' b' : List (Option (T.Key × V))} (h : Erased m o a a')
    (h' : Erased m (o + a.length) b b') : Erased m o (a ++ b) (a' ++ b') := by
  induction a generalizing o a' with
  | nil => cases a' with
    | nil => simpa using h'
    | cons => exact h.elim
  | cons x a ih => cases a' with
    | nil => exact h.elim
    | cons y a' =>
      refine ⟨h.1, ih h.2 ?_⟩
      rw [Nat.add_assoc, Nat.add_comm 1]
      simpa using h'

theorem erased_all {m : Nat → T.Key → Bool} {o : Nat} {a : List (Option (T.Key × V))}
    (h : ∀ n k v, a[n]? = some (some (k, v)) → m (o + n) k = false) : Erased m o a (List.replicate a.length none) := by
  induction a generalizing o with
  | nil => trivial
  | cons x a ih =>
    refine ⟨Or.inr ⟨rfl, fun k v hx => ?_⟩, ih fun n k v hn => ?_⟩
    · have := h 0 k v (by simp [hx]); simpa using this
    · have := h (n + 1) k v (by simpa using hn)
      rw [Nat.add_assoc, Nat.add_comm 1]; exact this

/-! ### leaves and coverage -/

/-- All leaves are sealed. -/
def AllSealed (t : PTree T V) : Prop := t.All fun
  | .leaf i _ => i.isSealed = true
  | .purgedLeaf i => i.isSealed = true
  | _ => True

theorem AllSealed.of_sealed {t : PTree T V} (hw : WF E t) (hs : t.index.isSealed = true) : AllSealed t := by
  induction t using PTree.induct with
  | leaf i vs => exact (all_leaf i vs).mpr hs
  | purgedLeaf i => exact (all_purgedLeaf i).mpr hs
  | purgedBranch i => simp [AllSealed]
  | branch i cs ih =>
    have h3 := (PTree.All.root hw).2.2.2.2.2.2 hs
    unfold AllSealed
    rw [all_branch]
    exact ⟨trivial, fun c hc => ih c hc (PTree.All.child hw hc) (h3.1 c hc).1⟩

theorem leavesAt_bounds (t : PTree T V) (hc : Counts t) : ∀ o x, x ∈ t.leavesAt o →
    o ≤ x.1 ∧ x.1 + T.keys.len x.2.keys ≤ o + t.index.count := by
  induction t using PTree.induct with
  | leaf i vs =>
    intro o x hx
    simp only [leavesAt, List.mem_singleton] at hx
    subst hx
    exact ⟨Nat.le_refl _, Nat.le_refl _⟩
  | purgedLeaf i => intro o x hx; simp [leavesAt] at hx
  | purgedBranch i => intro o x hx; simp [leavesAt] at hx
  | branch i cs ih =>
    intro o x hx
    simp only [leavesAt] at hx
    have hsum : i.count = (cs.map fun c => c.index.count).sum := (PTree.All.root hc).2
    show o ≤ x.1 ∧ _ ≤ o + i.count
    rw [hsum]
    have hcc := PTree.All.children hc
    clear hsum hc
    induction cs generalizing o with
    | nil => simp [leavesAtL] at hx
    | cons c cs ih2 =>
      simp only [leavesAtL, List.mem_append] at hx
      simp only [List.map_cons, List.sum_cons]
      rcases hx with hx | hx
      · have := ih c (by simp) (hcc c (by simp)) o x hx; omega
      · have := ih2 (fun c hc => ih c (by simp [hc])) (o + c.index.count) hx (fun c hc => hcc c (by simp [hc])); omega

theorem covers_content (ht : T.Lawful) {covers : T.Summary → T.Key → Prop} (hcov : Covering T covers)
    {t : PTree T V} (hw : Formed t) {k : T.Key} {v : V} (hm : some (k, v) ∈ t.content) : covers t.index.summarize k := by
  induction t using PTree.induct with
  | leaf i vs =>
    simp only [content, List.mem_map, Option.some.injEq] at hm
    obtain ⟨⟨k', v'⟩, hm, he⟩ := hm
    cases he
    exact hcov.keys i.keys k (List.of_mem_zip hm).1
  | purgedLeaf i => simp [content] at hm
  | purgedBranch i => simp [content] at hm
  | branch i cs ih =>
    simp only [content, contents_eq, List.mem_flatMap] at hm
    obtain ⟨c, hc, hm⟩ := hm
    have h1 := ih c hc (PTree.All.child hw hc) hm
    obtain ⟨h2, _, _, h3⟩ := PTree.All.root hw
    show covers (T.sumSums i.summaries) k
    refine hcov.sums _ c.index.summarize k ?_ h1
    rw [h3, CompactSeq.toVec_ofList ht.sums _ (by simpa using h2)]
    exact List.mem_map_of_mem hc

/-! ### what retain does -/

/-- The result of retaining: new tree and new level. -/
structure Retained (q : Query T) (o : Nat) (t : PTree T V) (l : Int) (t' : PTree T V) (l' : Int) : Prop where
  unlink : t'.index.unlink = t.index.unlink
  le : l' ≤ l
  roots : ∀ L, l ≤ L → (rootsOf t' L).1 = (rootsOf t L).1 ∧ l' ≤ (rootsOf t L).1 ∧ (PurgeOk t L → PurgeOk t' L)
  erased : ∀ covers m, Covering T covers → QueryFor q covers m → Erased m o t.content t'.content
  packed : Packed t → Packed t'
  eff : 0 ≤ l' → ∀ x ∈ t.leavesAt o, Missed q x → Wiped o t'.content x
  effSealed : AllSealed t → 0 ≤ l → 0 ≤ l'
  effPacked : Packed t → 0 ≤ l → ∀ x ∈ t.leavesAt o, Missed q x → Wiped o t'.content x
  unsealed : ∀ x ∈ t.leavesAt o, x.2.isSealed = false → x ∈ t'.leavesAt o
  minRoot : MinRoot t → MinRoot t'

/-- The same for a list of trees. -/
structure RetainedL (q : Query T) (o : Nat) (cs : List (PTree T V)) (l : Int) (cs' : List (PTree T V)) (l' : Int) : Prop where
  unlink : cs'.map (fun c => c.index.unlink) = cs.map (fun c => c.index.unlink)
  le : l' ≤ l
  roots : ∀ L, l ≤ L → (rootsOfL cs' L).1 = (rootsOfL cs L).1 ∧ l' ≤ (rootsOfL cs L).1 ∧ (PurgeOkL cs L → PurgeOkL cs' L)
  erased : ∀ covers m, Covering T covers → QueryFor q covers m → Erased m o (contents cs) (contents cs')
  packed : ∀ (j : Nat) c c', cs[j]? = some c → cs'[j]? = some c' → Packed c → Packed c'
  eff : 0 ≤ l' → ∀ x ∈ leavesAtL cs o, Missed q x → Wiped o (contents cs') x
  effSealed : (∀ c ∈ cs, AllSealed c) → 0 ≤ l → 0 ≤ l'
  effPacked : ∀ init last, cs = init ++ [last] → (∀ c ∈ init, AllSealed c) → Packed last → 0 ≤ l →
    ∀ x ∈ leavesAtL cs o, Missed q x → Wiped o (contents cs') x
  unsealed : ∀ x ∈ leavesAtL cs o, x.2.isSealed = false → x ∈ leavesAtL cs' o

theorem AllSealed.leavesAt {t : PTree T V} (h : AllSealed t) : ∀ o x, x ∈ t.leavesAt o → x.2.isSealed = true := by
  induction t using PTree.induct with
  | leaf i vs =>
    intro o x hx
    simp only [PTree.leavesAt, List.mem_singleton] at hx
    subst hx
    exact (all_leaf i vs).mp h
  | purgedLeaf i => intro o x hx; simp [PTree.leavesAt] at hx
  | purgedBranch i => intro o x hx; simp [PTree.leavesAt] at hx
  | branch i cs ih =>
    intro o x hx
    simp only [PTree.leavesAt] at hx
    have hcc := fun c hc => PTree.All.child (c := c) h hc
    clear h
    induction cs generalizing o with
    | nil => simp [PTree.leavesAtL] at hx
    | cons c cs ih2 =>
      simp only [PTree.leavesAtL, List.mem_append] at hx
      rcases hx with hx | hx
      · exact ih c (by simp) (hcc c (by simp)) o x hx
      · exact ih2 (fun c hc => ih c (by simp [hc])) (o + c.index.count) hx (fun c hc => hcc c (by simp [hc]))

theorem RetainedL.nil (q : Query T) (o : Nat) (l : Int) : RetainedL q o ([] : List (PTree T V)) l [] l := by
  refine ⟨rfl, Int.le_refl _, fun L hL => ⟨rfl, hL, id⟩, fun _ _ _ _ => trivial, by simp, by simp [leavesAtL], fun _ => id, ?_, by simp [leavesAtL]⟩
  intro init last h
  simp at h

theorem wiped_append_left {o : Nat} {a b : List (Option (T.Key × V))} {x : Nat × LeafIndex T} (h : Wiped o a x)
    (hx : x.1 + T.keys.len x.2.keys ≤ o + a.length) : Wiped o (a ++ b) x := by
  intro n h1 h2
  rw [List.getElem?_append_left (by omega)]
  exact h n h1 h2

theorem wiped_append_right {o : Nat} {a b : List (Option (T.Key × V))} {x : Nat × LeafIndex T} (h : Wiped (o + a.length) b x)
    (hx : o + a.length ≤ x.1) : Wiped o (a ++ b) x := by
  intro n h1 h2
  rw [List.getElem?_append_right (by omega)]
  exact h _ (by omega) (by omega)

theorem RetainedL.cons {q : Query T} {o : Nat} {c c' : PTree T V} {cs cs' : List (PTree T V)} {l l1 l2 : Int}
    (hcnt : ∀ d ∈ c :: cs, Counts d) (hlen : c.content.length = c.index.count) (hlen' : c'.content.length = c.index.count)
    (h1 : Retained q o c l c' l1) (h2 : RetainedL q (o + c.index.count) cs l1 cs' l2) :
    RetainedL q o (c :: cs) l (c' :: cs') l2 := by
  have hleft : ∀ x ∈ c.leavesAt o, Wiped o c'.content x → Wiped o (contents (c' :: cs')) x := by
    intro x hx hw
    exact wiped_append_left hw (by have := leavesAt_bounds c (hcnt c (by simp)) o x hx; omega)
  have hright : ∀ x ∈ leavesAtL cs (o + c.index.count), Wiped (o + c.index.count) (contents cs') x → Wiped o (contents (c' :: cs')) x := by
    intro x hx hw
    have : o + c.index.count ≤ x.1 := by
      clear hw h2 hleft
      have hcnt' : ∀ d ∈ cs, Counts d := fun d hd => hcnt d (by simp [hd])
      generalize o + c.index.count = p at hx
      clear hcnt
      induction cs generalizing p with
      | nil => simp [leavesAtL] at hx
      | cons d cs ih =>
        simp only [leavesAtL, List.mem_append] at hx
        rcases hx with hx | hx
        · exact (leavesAt_bounds d (hcnt' d (by simp)) p x hx).1
        · have := ih (fun d hd => hcnt' d (by simp [hd])) _ hx; omega
    refine wiped_append_right ?_ ?_
    · rw [hlen']; exact hw
    · rw [hlen']; exact this
  refine ⟨by simp [h1.unlink, h2.unlink], by have := h1.le; have := h2.le; omega, ?_, ?_, ?_, ?_, ?_, ?_, ?_⟩
  · intro L hL
    obtain ⟨a1, a2, a3⟩ := h1.roots L hL
    obtain ⟨b1, b2, b3⟩ := h2.roots (rootsOf c L).1 a2
    simp only [rootsOfL, PurgeOkL, a1]
    exact ⟨b1, b2, fun hp => ⟨a3 hp.1, b3 hp.2⟩⟩
  · intro covers m hc hq
    refine Erased.append (h1.erased covers m hc hq) ?_
    rw [hlen]
    exact h2.erased covers m hc hq
  · intro j d d' hd hd'
    cases j with
    | zero => simp only [List.getElem?_cons_zero, Option.some.injEq] at hd hd'; subst hd; subst hd'; exact h1.packed
    | succ j => simp only [List.getElem?_cons_succ] at hd hd'; exact h2.packed j d d' hd hd'
  · intro hl x hx hm
    simp only [leavesAtL, List.mem_append] at hx
    rcases hx with hx | hx
    · exact hleft x hx (h1.eff (by have := h2.le; omega) x hx hm)
    · exact hright x hx (h2.eff hl x hx hm)
  · intro ha hl
    exact h2.effSealed (fun d hd => ha d (by simp [hd])) (h1.effSealed (ha c (by simp)) hl)
  · intro init last heq hcl hp hl x hx hm
    simp only [leavesAtL, List.mem_append] at hx
    cases init with
    | nil =>
      simp only [List.nil_append, List.cons.injEq] at heq
      obtain ⟨rfl, rfl⟩ := heq
      rcases hx with hx | hx
      · exact hleft x hx (h1.effPacked hp hl x hx hm)
      · simp [leavesAtL] at hx
    | cons d init =>
      simp only [List.cons_append, List.cons.injEq] at heq
      obtain ⟨rfl, rfl⟩ := heq
      have hl1 := h1.effSealed (hcl c (by simp)) hl
      rcases hx with hx | hx
      · exact hleft x hx (h1.eff hl1 x hx hm)
      · exact hright x hx (h2.effPacked init last rfl (fun d hd => hcl d (by simp [hd])) hp hl1 x hx hm)
  · intro x hx hsl
    simp only [leavesAtL, List.mem_append] at hx ⊢
    rw [unlink_count h1.unlink]
    exact hx.imp (fun hx => h1.unsealed x hx hsl) (fun hx => h2.unsealed x hx hsl)

/-! ### nodes that are purged or written again -/

/-- The block of a branch with the given children. -/
def BlockAt (cx : Ctx E) (σ : E.σ) (l : T.Link) (cs : List (Index T)) : Prop := ∃ o links,
  o + (E.zfin cx.cfg.zstdLevel (cs.map E.encIdx)).length < 2 ^ 64 ∧
  E.get σ l = .ok (E.encNode (o, links, applyKeystream E cx.sec.indexKey o (E.zfin cx.cfg.zstdLevel (cs.map E.encIdx)))) ∧
  (cs.map E.encIdx).flatten.length ≤ maxCapacity ∧
  LinksOf E (cs.map E.encIdx) links

/-- Node invariants that survive loading the root by its link. -/
abbrev NodeInv.Reloads (I : NodeInv cx) : Prop :=
  ∀ {σ i cs l bytes}, I.J σ (.branch i cs) → i.link = some l → E.get σ l = .ok bytes →
    I.J σ (.branch { i with keyBytes := (cs.map fun c => c.index.keyBytes).sum + bytes.length,
                            isSealed := cx.cfg.branchSealed (cs.map index) i.level } cs)

/-- Node invariants that survive the removal of nodes and damage to other blocks. -/
structure NodeInv.Rewrites (I : NodeInv cx) : Prop where
  purgeLeaf : ∀ {σ i vs}, I.J σ (.leaf i vs) → I.J σ (.purgedLeaf { i with link := none })
  purgeBranch : ∀ {σ i cs}, I.J σ (.branch i cs) → I.J σ (.purgedBranch { i with link := none })
  same : ∀ {σ i cs cs'}, I.J σ (.branch i cs) → cs'.map index = cs.map index → I.J σ (.branch i cs')
  rewrite : ∀ {σ i cs cs' l}, I.J σ (.branch i cs) →
    cs'.map (fun c => c.index.unlink) = cs.map (fun c => c.index.unlink) → BlockAt cx σ l (cs'.map index) →
    I.J σ (.branch { i with link := some l } cs')
  reload : I.Reloads
  /-- the invariant of a node depends on nothing but the block of the node -/
  damage : ∀ {σ τ n}, I.J σ n → (∀ l, n.index.link = some l → E.get τ l = E.get σ l) → I.J τ n

theorem NodeInv.trivial_rewrites (cx : Ctx E) : (NodeInv.trivial cx).Rewrites :=
  ⟨fun _ => True.intro, fun _ => True.intro, fun _ _ => True.intro, fun _ _ _ => True.intro, fun _ _ _ => True.intro, fun _ _ => True.intro⟩

theorem map_eq_of_unlink {β : Type} (f : Index T → β) (hf : ∀ a b : Index T, a.unlink = b.unlink → f a = f b)
    {cs cs' : List (PTree T V)} (h : cs'.map (fun c => c.index.unlink) = cs.map (fun c => c.index.unlink)) :
    cs'.map (fun c => f c.index) = cs.map (fun c => f c.index) := by
  induction cs generalizing cs' with
  | nil => simpa using h
  | cons c cs ih =>
    cases cs' with
    | nil => simp at h
    | cons c' cs' =>
      simp only [List.map_cons, List.cons.injEq] at h ⊢
      exact ⟨hf _ _ h.1, ih h.2⟩

theorem branchSealed_unlink (cfg : Config) {cs cs' : List (PTree T V)} (lv : Nat)
    (h : cs'.map (fun c => c.index.unlink) = cs.map (fun c => c.index.unlink)) :
    cfg.branchSealed (cs'.map index) lv = cfg.branchSealed (cs.map index) lv := by
  have h1 := map_eq_of_unlink (fun i => (i.isSealed, i.level)) (fun a b h => by rw [unlink_sealed h, unlink_level h]) h
  have h2 : cs'.length = cs.length := by simpa using congrArg List.length h
  rw [Bool.eq_iff_iff, branchSealed_iff, branchSealed_iff]
  simp only [List.length_map, h2]
  have : ∀ ds : List (PTree T V), (∀ x ∈ ds.map index, x.isSealed = true ∧ x.level = lv - 1) ↔
      ∀ y ∈ ds.map (fun c => (c.index.isSealed, c.index.level)), y.1 = true ∧ y.2 = lv - 1 := by
    intro ds; simp
  rw [this, this, h1]

/-- A node stays well formed when its children are changed without changing their numbers. -/
theorem WFAt.relink {i : BranchIndex T} {cs cs' : List (PTree T V)} (hw : WFAt E (.branch i cs))
    (h : cs'.map (fun c => c.index.unlink) = cs.map (fun c => c.index.unlink)) (l : Option T.Link) :
    WFAt E (.branch { i with link := l } cs') := by
  have hlen : cs'.length = cs.length := by simpa using congrArg List.length h
  obtain ⟨h1, h3, h4, h5, h6, h7, h8⟩ := hw
  have hlv := map_eq_of_unlink Index.level (fun a b h => unlink_level h) h
  refine ⟨?_, ?_, ?_, ?_, ?_, ?_, ?_⟩
  · intro hh; rw [hh] at hlen; exact h1 (List.eq_nil_of_length_eq_zero hlen.symm)
  · have : ∀ x ∈ cs.map (fun c => c.index.level), x < i.level := by simpa using h3
    rw [← hlv] at this
    simpa using this
  · obtain ⟨c, hc, he⟩ := h4
    have : c.index.level ∈ cs.map (fun c => c.index.level) := List.mem_map.mpr ⟨c, hc, rfl⟩
    rw [← hlv] at this
    obtain ⟨c', hc', he'⟩ := List.mem_map.mp this
    exact ⟨c', hc', by show c'.index.level + 1 = i.level; rw [he']; exact he⟩
  · rw [map_eq_of_unlink Index.count (fun a b h => unlink_count h) h]; exact h5
  · rw [map_eq_of_unlink Index.summarize (fun a b h => unlink_summarize h) h]; exact h6
  · rw [map_eq_of_unlink Index.valueBytes (fun a b h => unlink_valueBytes h) h]; exact h7
  · intro hs
    obtain ⟨k1, k2⟩ := h8 hs
    refine ⟨?_, by rw [hlen]; exact k2⟩
    have hsl := map_eq_of_unlink (fun i => (i.isSealed, i.level)) (fun a b h => by rw [unlink_sealed h, unlink_level h]) h
    have : ∀ x ∈ cs.map (fun c => (c.index.isSealed, c.index.level)), x.1 = true ∧ x.2 + 1 = i.level := by simpa using k1
    rw [← hsl] at this
    simpa using this

theorem retainLevel_le (index : Index T) (l : Int) : retainLevel index l ≤ l := by
  unfold retainLevel
  split
  · rename_i h; simp at h; exact h.2
  · omega

theorem retainLevel_pos {index : Index T} {l : Int} (h : 0 < index.level) (hl : 0 ≤ l) : 0 ≤ retainLevel index l := by
  unfold retainLevel
  split <;> omega

theorem retainLevel_le_level (index : Index T) (l : Int) : retainLevel index l ≤ (index.level : Int) := by
  unfold retainLevel
  split <;> omega

theorem retainLevel_not {index : Index T} {l : Int} (h : ¬ (index.isSealed = true ∧ (index.level : Int) ≤ l)) :
    retainLevel index l = min l ((index.level : Int) - 1) := by
  unfold retainLevel
  rw [if_neg (by simpa using h)]

/-- Changing the children of a branch without changing their number. -/
theorem MinRoot.relink {i : BranchIndex T} {cs cs' : List (PTree T V)} (lk : Option T.Link)
    (hu : cs'.map (fun c => c.index.unlink) = cs.map (fun c => c.index.unlink)) (hm : MinRoot (.branch i cs)) :
    MinRoot (.branch { i with link := lk } cs') := by
  intro hl
  have := congrArg List.length hu
  simp only [List.length_map] at this
  rw [this]
  exact hm hl

/-- Nodes that are left alone. -/
theorem Retained.leave {q : Query T} {o : Nat} {t : PTree T V} {l : Int} (hn : ∀ i cs, t ≠ .branch i cs)
    (hlv : ∀ i, t = .purgedBranch i → 0 < i.level)
    (he : ∀ x ∈ t.leavesAt o, Missed q x → 0 ≤ retainLevel t.index l → Wiped o t.content x)
    (hs : ∀ x ∈ t.leavesAt o, Missed q x → 0 ≤ l → 0 ≤ retainLevel t.index l) :
    Retained q o t l t (retainLevel t.index l) := by
  have hroots : ∀ L, l ≤ L → retainLevel t.index l ≤ (rootsOf t L).1 := by
    intro L hL
    by_cases hc : t.index.isSealed = true ∧ (t.index.level : Int) ≤ L
    · rw [rootsOf_closed hc.1 hc.2]
      exact retainLevel_le_level _ _
    · rw [retainLevel_not (by intro h; exact hc ⟨h.1, by omega⟩)]
      cases t with
      | branch i cs => exact absurd rfl (hn i cs)
      | leaf i vs =>
        simp only [index, Index.isSealed, Index.level] at hc
        simp only [rootsOf, index, Index.level]
        rw [if_neg (by simpa using hc)]
        simp only
        omega
      | purgedLeaf i =>
        simp only [index, Index.isSealed, Index.level] at hc
        simp only [rootsOf, index, Index.level]
        rw [if_neg (by simpa using hc)]
        simp only
        omega
      | purgedBranch i =>
        simp only [index, Index.isSealed, Index.level] at hc
        simp only [rootsOf, index, Index.level]
        rw [if_neg (by simpa using hc)]
        simp only
        omega
  refine ⟨rfl, retainLevel_le _ _, fun L hL => ⟨rfl, hroots L hL, id⟩, fun _ _ _ _ => Erased.refl _ _ _, id,
    fun hl x hx hm => he x hx hm hl, ?_, fun _ hl x hx hm => he x hx hm (hs x hx hm hl), fun _ hx _ => hx, id⟩
  intro ha hl
  cases t with
  | branch i cs => exact absurd rfl (hn i cs)
  | leaf i vs =>
    have : i.isSealed = true := (all_leaf i vs).mp ha
    unfold retainLevel
    simp [index, Index.isSealed, Index.level, this, hl]
  | purgedLeaf i =>
    have : i.isSealed = true := (all_purgedLeaf i).mp ha
    unfold retainLevel
    simp [index, Index.isSealed, Index.level, this, hl]
  | purgedBranch i => exact retainLevel_pos (hlv i rfl) hl

/-- A branch whose children were processed. -/
theorem Retained.branch {q : Query T} {o : Nat} {i : BranchIndex T} {cs cs' : List (PTree T V)} {l l' : Int}
    (hw : WF E (.branch i cs)) (lk : Option T.Link) (h : RetainedL q o cs (retainLevel (.branch i) l) cs' l') :
    Retained q o (.branch i cs) l (.branch { i with link := lk } cs') l' := by
  have hpos : 0 < i.level := by
    obtain ⟨_, h3, h4, _⟩ := PTree.All.root hw
    obtain ⟨c, _, hc⟩ := h4
    omega
  have hseal : i.isSealed = true → ∀ c ∈ cs, AllSealed c := by
    intro hs c hc
    exact PTree.All.child (AllSealed.of_sealed hw hs) hc
  refine ⟨rfl, Int.le_trans h.le (retainLevel_le _ _), ?_, ?_, ?_, ?_, ?_, ?_, h.unsealed, MinRoot.relink lk h.unlink⟩
  · intro L hL
    simp only [rootsOf, PurgeOk]
    by_cases hc : i.isSealed = true ∧ (i.level : Int) ≤ L
    · rw [if_pos (by simpa using hc), if_pos (by simpa using hc)]
      exact ⟨rfl, Int.le_trans h.le (retainLevel_le_level _ _), fun _ => Or.inl hc⟩
    · rw [if_neg (by simpa using hc), if_neg (by simpa using hc)]
      have hl1 : retainLevel (.branch i) l ≤ min L ((i.level : Int) - 1) := by
        rw [retainLevel_not (by intro h; exact hc ⟨h.1, by have : (i.level : Int) ≤ l := h.2; omega⟩)]
        show min l ((i.level : Int) - 1) ≤ _
        omega
      obtain ⟨a1, a2, a3⟩ := h.roots _ hl1
      refine ⟨a1, a2, ?_⟩
      rintro (hp | hp)
      · exact absurd hp hc
      · exact Or.inr (a3 hp)
  · intro covers m hc hq
    simp only [content]
    exact h.erased covers m hc hq
  · intro hp
    cases hp with
    | closed _ _ hs => exact .closed _ _ hs
    | unclosed _ init last h1 h2 h3 =>
      have hlen : cs'.length = init.length + 1 := by
        have := congrArg List.length h.unlink
        simpa using this
      have hne : cs' ≠ [] := by intro hh; rw [hh] at hlen; simp at hlen
      obtain ⟨init', last', rfl⟩ : ∃ a b, cs' = a ++ [b] := ⟨_, _, (List.dropLast_concat_getLast hne).symm⟩
      have hlen' : init'.length = init.length := by simpa using hlen
      have hu := h.unlink
      rw [List.map_append, List.map_append] at hu
      have hu2 := List.append_inj' hu (by simp)
      have hi := map_eq_of_unlink (fun i => (i.isSealed, i.level)) (fun a b h => by rw [unlink_sealed h, unlink_level h]) hu2.1
      have hlast : last'.index.unlink = last.index.unlink := by simpa using hu2.2
      refine .unclosed _ init' last' ?_ ?_ ?_
      · have h1' : ∀ y ∈ init.map (fun c => (c.index.isSealed, c.index.level)), y.1 = true ∧ y.2 + 1 = i.level := by
          simpa using h1
        rw [← hi] at h1'
        intro c hc
        exact h1' (c.index.isSealed, c.index.level) (List.mem_map.mpr ⟨c, hc, rfl⟩)
      · rw [unlink_level hlast]; exact h2
      · refine h.packed init.length last last' (by simp) (by rw [← hlen']; simp) h3
  · intro hl x hx hm
    exact h.eff hl x hx hm
  · intro ha hl
    exact h.effSealed (fun c hc => PTree.All.child ha hc) (retainLevel_pos (index := .branch i) hpos hl)
  · intro hp hl x hx hm
    have hl' := retainLevel_pos (index := .branch i) hpos hl
    cases hp with
    | closed _ _ hs => exact h.eff (h.effSealed (hseal hs) hl') x hx hm
    | unclosed _ init last h1 h2 h3 =>
      refine h.effPacked init last rfl ?_ h3 hl' x hx hm
      intro c hc
      exact AllSealed.of_sealed (PTree.All.child hw (by simp [hc])) (h1 c hc).1

theorem getElem?_contents {cs : List (PTree T V)} {n : Nat} {x : Option (T.Key × V)} (h : (contents cs)[n]? = some x) :
    ∃ (j : Nat) (c : PTree T V), cs[j]? = some c ∧ x ∈ c.content := by
  have hm := List.mem_of_getElem? h
  rw [contents_eq, List.mem_flatMap] at hm
  obtain ⟨c, hc, hx⟩ := hm
  obtain ⟨j, hj⟩ := List.mem_iff_getElem?.mp hc
  exact ⟨j, c, hj, hx⟩

theorem anyTrue_eq_false {l : List Bool} : anyTrue l = false ↔ ∀ b ∈ l, b = false := by
  unfold anyTrue
  simp

/-- A branch that is purged as a whole. -/
theorem Retained.purge (ht : T.Lawful) {q : Query T} {o : Nat} {i : BranchIndex T} {cs : List (PTree T V)} {l : Int}
    (hw : WF E (.branch i cs)) (hs : i.isSealed = true) (hl : (i.level : Int) ≤ l)
    (hm : anyTrue (q.intersecting o i (List.replicate (T.sums.len i.summaries) true)) = false) :
    Retained q o (.branch i cs) l (.purgedBranch { i with link := none }) (i.level : Int) := by
  have hlen : (contents cs).length = i.count := by
    have := content_length ht hw.counts
    simpa [content, index, Index.count] using this
  have hwipe : ∀ x ∈ (PTree.branch i cs).leavesAt o, Wiped o (PTree.purgedBranch (V := V) { i with link := none }).content x := by
    intro x hx n h1 h2
    have := leavesAt_bounds _ hw.counts o x hx
    have h3 : x.1 + T.keys.len x.2.keys ≤ o + i.count := this.2
    simp only [content]
    rw [List.getElem?_replicate, if_pos (by omega)]
  refine ⟨rfl, hl, ?_, ?_, fun _ => .purgedBranch _, fun _ x hx _ => hwipe x hx, fun _ _ => by omega,
    fun _ _ x hx _ => hwipe x hx, fun x hx hsl => (by rw [(AllSealed.of_sealed hw hs).leavesAt o x hx] at hsl; cases hsl), fun _ => trivial⟩
  · intro L hL
    have hc : i.isSealed = true ∧ (i.level : Int) ≤ L := ⟨hs, by omega⟩
    simp only [rootsOf, PurgeOk]
    rw [if_pos (by simpa using hc), if_pos (by simpa using hc)]
    exact ⟨rfl, Int.le_refl _, fun _ => hc⟩
  · intro covers m hcov hq
    simp only [content]
    rw [← hlen]
    refine erased_all fun n k v hn => ?_
    obtain ⟨j, c, hj, hx⟩ := getElem?_contents hn
    obtain ⟨hne, _, _, _, hsum, _⟩ := PTree.All.root hw
    have hcov' := covers_content ht hcov (WF.formed (PTree.All.child hw (List.mem_of_getElem? hj))) hx
    have hjl : j < cs.length := (List.getElem?_eq_some_iff.mp hj).1
    have hslen : T.sums.len i.summaries = cs.length := by
      rw [hsum, ht.sums.len_ofList _ (by simpa using hne), List.length_map]
    have hget : T.sums.get i.summaries j = some c.index.summarize := by
      rw [hsum, ht.sums.get_ofList _ _ (by simpa using hne), List.getElem?_map, hj]; rfl
    refine hq.intersecting o i (List.replicate (T.sums.len i.summaries) true) j _ (by simp) hget
      (by rw [List.getElem?_replicate, if_pos (by omega)]) ?_ (o + n) k (by omega) ?_ hcov'
    · have hql : (q.intersecting o i (List.replicate (T.sums.len i.summaries) true)).length = T.sums.len i.summaries := by
        rw [q.len_intersecting]; simp
      have hjl' : j < (q.intersecting o i (List.replicate (T.sums.len i.summaries) true)).length := by omega
      rw [List.getElem?_eq_getElem hjl']
      have hall := anyTrue_eq_false.mp hm
      rw [hall _ (List.getElem_mem hjl')]
    · have := (List.getElem?_eq_some_iff.mp hn).1
      omega

/-- A leaf that is purged. -/
theorem Retained.purgeLeaf (ht : T.Lawful) {q : Query T} {o : Nat} {i : LeafIndex T} {vs : List V} {l : Int}
    (hw : WF E (.leaf i vs)) (hs : i.isSealed = true) (hl : 0 ≤ l)
    (hm : anyTrue (q.containing o i (List.replicate (T.keys.len i.keys) true)) = false) :
    Retained q o (.leaf i vs) l (.purgedLeaf { i with link := none }) 0 := by
  have hwipe : ∀ x ∈ (PTree.leaf i vs).leavesAt o, Wiped o (PTree.purgedLeaf (V := V) { i with link := none }).content x := by
    intro x hx n h1 h2
    have := leavesAt_bounds _ hw.counts o x hx
    have h3 : x.1 + T.keys.len x.2.keys ≤ o + T.keys.len i.keys := this.2
    simp only [content]
    rw [List.getElem?_replicate, if_pos (by omega)]
  have hlen : (((T.keys.toVec i.keys).zip vs).map some).length = T.keys.len i.keys := by
    have := content_length ht hw.counts
    simpa [content, index, Index.count] using this
  refine ⟨rfl, hl, ?_, ?_, fun _ => .purgedLeaf _, fun _ x hx _ => hwipe x hx, fun _ _ => Int.le_refl _,
    fun _ _ x hx _ => hwipe x hx, fun x hx hsl => (by rw [(AllSealed.of_sealed hw hs).leavesAt o x hx] at hsl; cases hsl), fun _ => trivial⟩
  · intro L hL
    have hc : i.isSealed = true ∧ 0 ≤ L := ⟨hs, by omega⟩
    simp only [rootsOf, PurgeOk]
    rw [if_pos (by simpa using hc), if_pos (by simpa using hc)]
    exact ⟨rfl, Int.le_refl _, fun _ => hc⟩
  · intro covers m hcov hq
    simp only [content]
    rw [← hlen]
    refine erased_all fun n k v hn => ?_
    rw [List.getElem?_map] at hn
    have hn' : ((T.keys.toVec i.keys).zip vs)[n]? = some (k, v) := by
      cases hz : ((T.keys.toVec i.keys).zip vs)[n]? with
      | none => rw [hz] at hn; simp at hn
      | some p => rw [hz] at hn; simpa using hn
    have hk : (T.keys.toVec i.keys)[n]? = some k := (List.getElem?_zip_eq_some.mp hn').1
    have hnl : n < T.keys.len i.keys := by
      have := (List.getElem?_eq_some_iff.mp hk).1
      rwa [CompactSeq.length_toVec ht.keys] at this
    have hget : T.keys.get i.keys n = some k := by
      rw [CompactSeq.get_eq_toVec ht.keys _ _ hnl]; exact hk
    have := hq.containing o i (List.replicate (T.keys.len i.keys) true) n k (by simp) hget
    rw [List.getElem?_replicate, if_pos hnl] at this
    simp only [Option.map_some, Bool.true_and] at this
    have hmem := List.mem_of_getElem? this
    exact anyTrue_eq_false.mp hm _ hmem

/-! ### the functions -/

/-- What is required of the blocks of the nodes of a tree. Branches must be readable, for leaves it may be less. -/
structure Holding (cx : Ctx E) where
  S : E.σ → PTree T V → Prop
  mono : ∀ {a b t}, StoreLe E a b → S a t → S b t
  leaf : ∀ {σ i vs}, S σ (.leaf i vs) → ∃ l, i.link = some l
  branch : ∀ {σ i cs}, S σ (.branch i cs) ↔ ∃ l r, i.link = some l ∧ loadBranchFromLink E cx.sec σ l = .ok ⟨cs.map PTree.index, r⟩
  purgedLeaf : ∀ {σ i}, S σ (.purgedLeaf i) ↔ i.link = none
  purgedBranch : ∀ {σ i}, S σ (.purgedBranch i) ↔ i.link = none

/-- All blocks are readable. -/
def Holding.full (cx : Ctx E) : Holding cx where
  S := StoredAt E cx.sec
  mono := fun h => StoredAt.mono h
  leaf := fun h => by obtain ⟨l, _, _, h, _⟩ := h; exact ⟨l, h⟩
  branch := Iff.rfl
  purgedLeaf := Iff.rfl
  purgedBranch := Iff.rfl

/-- Like `Good`, with other requirements on the blocks. -/
def GoodW (H : Holding cx) (I : NodeInv cx) (σ : E.σ) (t : PTree T V) : Prop :=
  t.All fun n => H.S σ n ∧ WFAt E n ∧ I.J σ n

theorem GoodW.mono {H : Holding cx} {a b : E.σ} (h : StoreLe E a b) {t : PTree T V} (ht : GoodW H I a t) : GoodW H I b t :=
  PTree.All.imp (fun _ x => ⟨H.mono h x.1, x.2.1, I.mono h x.2.2⟩) ht

theorem GoodW.wf {H : Holding cx} {a : E.σ} {t : PTree T V} (h : GoodW H I a t) : WF E t := PTree.All.imp (fun _ x => x.2.1) h

theorem GoodW.counts {H : Holding cx} {a : E.σ} {t : PTree T V} (h : GoodW H I a t) : Counts t := h.wf.counts

theorem GoodW.children {H : Holding cx} {σ : E.σ} {i : BranchIndex T} {cs : List (PTree T V)} (h : GoodW H I σ (.branch i cs)) :
    ∀ c ∈ cs, GoodW H I σ c := PTree.All.children h

theorem retainLoop_spec {H : Holding cx} (h : E.Lawful) (ht : T.Lawful) {R : Err → Prop} {rec : Nat → Index T → Int → M E (Index T × Int)} {q : Query T}
    (hfr : ∀ o i l, Frame cx (rec o i l)) (cs : List (PTree T V)) (o : Nat) (l : Int) (s : St E)
    (hgood : ∀ c ∈ cs, GoodW H I s.store c)
    (hrec : ∀ c ∈ cs, ∀ o l s', StoreLe E s.store s'.store → 
      Post (rec o c.index l) s' (fun r s2 => ∃ t', r.1 = t'.index ∧ GoodW H I s2.store t' ∧ Retained q o c l t' r.2) R) :
    Post (retainLoop rec (cs.map index) o l) s (fun r s' => ∃ cs', r.1 = cs'.map index ∧
      (r.2.1 = false → cs'.map index = cs.map index) ∧ (∀ c ∈ cs', GoodW H I s'.store c) ∧ RetainedL q o cs l cs' r.2.2) R := by
  induction cs generalizing o l s with
  | nil =>
    simp only [List.map_nil, retainLoop]
    exact Post.pure fun _ => ⟨[], rfl, fun _ => rfl, by simp, RetainedL.nil q o l⟩
  | cons c cs ih =>
    simp only [List.map_cons, retainLoop]
    have hfr2 : ∀ r : Index T × Int, Frame cx (retainLoop rec (cs.map index) (o + c.index.count) r.2 >>= fun x =>
        if r.1.link ≠ c.index.link then pure (r.1 :: x.1, true, x.2.2) else pure (c.index :: x.1, x.2.1, x.2.2) :
          M E (List (Index T) × Bool × Int)) := by
      intro r
      refine Frame.bind (frame_retainLoop hfr _ _ _) fun x => ?_
      split <;> exact Frame.pure _
    refine Post.bind (hfr _ _ _) hfr2 (hrec c (by simp) o l s (StoreLe.refl _)) ?_
    rintro ⟨i1, l1⟩ s1 hx1 _ ⟨c', h1, h2, h3⟩
    simp only at h1 h3
    subst h1
    have := ih (o + c.index.count) l1 s1 (fun d hd => (hgood d (by simp [hd])).mono hx1.store)
      (fun d hd o l s' hle => hrec d (by simp [hd]) o l s' (hx1.store.trans hle))
    refine Post.bind (frame_retainLoop hfr _ _ _) (fun x => by
      obtain ⟨a, b, c⟩ := x
      simp only
      split <;> exact Frame.pure _) this ?_
    rintro ⟨is, ch, l2⟩ s2 hx2 _ ⟨cs', k1, k2, k3, k4⟩
    simp only at k1 k2 k4 ⊢
    subst k1
    have hcons : RetainedL q o (c :: cs) l (c' :: cs') l2 := by
      refine RetainedL.cons (fun d hd => (hgood d hd).counts) (content_length ht (hgood c (by simp)).counts) ?_ h3 k4
      rw [content_length ht h2.counts, unlink_count h3.unlink]
    have hg : ∀ d ∈ c' :: cs', GoodW H I s2.store d := by
      intro d hd
      rcases List.mem_cons.mp hd with rfl | hd
      · exact h2.mono hx2.store
      · exact k3 d hd
    by_cases hl : c'.index.link ≠ c.index.link
    · rw [if_pos hl]
      exact Post.pure fun _ => ⟨c' :: cs', rfl, by simp, hg, hcons⟩
    · rw [if_neg hl]
      have heq := unlink_eq h3.unlink (by simpa using hl)
      refine Post.pure fun _ => ⟨c' :: cs', by simp [heq], ?_, hg, hcons⟩
      intro hch
      simp only [List.map_cons, heq, k2 hch]

theorem GoodW.branch_rewrite {H : Holding cx} (h : E.Lawful) (hI : I.Rewrites) {σ : E.σ} {i : BranchIndex T} {cs cs' : List (PTree T V)} {l : T.Link}
    (hg : GoodW H I σ (.branch i cs)) (hcs : ∀ c ∈ cs', GoodW H I σ c)
    (hu : cs'.map (fun c => c.index.unlink) = cs.map (fun c => c.index.unlink)) (hb : BlockAt cx σ l (cs'.map index)) :
    GoodW H I σ (.branch { i with link := some l } cs') := by
  have h0 := PTree.All.root hg
  have hne : cs' ≠ [] := (h0.2.1.relink hu none).1
  refine (all_branch _ _).mpr ⟨⟨?_, h0.2.1.relink hu _, hI.rewrite h0.2.2 hu hb⟩, hcs⟩
  obtain ⟨o, links, h1, h2, h3, _⟩ := hb
  exact H.branch.mpr ⟨l, _, rfl, loadBranchFromLink_of_get h (by simpa using hne) h3 h1 h2⟩

theorem GoodW.branch_same {H : Holding cx} (hI : I.Rewrites) {σ : E.σ} {i : BranchIndex T} {cs cs' : List (PTree T V)}
    (hg : GoodW H I σ (.branch i cs)) (hcs : ∀ c ∈ cs', GoodW H I σ c) (he : cs'.map index = cs.map index) :
    GoodW H I σ (.branch i cs') := by
  have h0 := PTree.All.root hg
  have hu : cs'.map (fun c => c.index.unlink) = cs.map (fun c => c.index.unlink) := by
    have := congrArg (List.map Index.unlink) he
    rwa [map_index_map, map_index_map] at this
  refine (all_branch _ _).mpr ⟨⟨?_, h0.2.1.relink hu i.link, hI.same h0.2.2 he⟩, hcs⟩
  obtain ⟨l, r, h1, h2⟩ := H.branch.mp h0.1
  exact H.branch.mpr ⟨l, r, h1, by rw [he]; exact h2⟩

theorem retain0_leaf (q : Query T) (fuel o : Nat) (i : LeafIndex T) (l : Int) : retain0 cx q (fuel + 1) o (.leaf i) l =
    if (i.isSealed && i.link.isSome && decide (retainLevel (.leaf i) l ≥ 0)) = true then
      if (!(anyTrue (q.containing o i (List.replicate (T.keys.len i.keys) true)))) = true then
        pure (.leaf { i with link := none }, retainLevel (.leaf i) l)
      else pure (.leaf i, retainLevel (.leaf i) l)
    else pure (.leaf i, retainLevel (.leaf i) l) := rfl

theorem retain0_specW {H : Holding cx} (h : E.Lawful) (ht : T.Lawful) (hv : cx.cfg.Valid) (hI : I.Rewrites) {vals : V → Prop} {R : Err → Prop}
    (hR : ∀ e, Allowed E cx.cfg vals e → R e) (q : Query T) (fuel : Nat) (t : PTree T V) (o : Nat) (l : Int) (s : St E)
    (hg : GoodW H I s.store t) (hf : t.index.level < fuel) :
    Post (retain0 cx q fuel o t.index l) s (fun r s' => ∃ t', r.1 = t'.index ∧ GoodW H I s'.store t' ∧ Retained q o t l t' r.2) R := by
  induction fuel generalizing t o l s with
  | zero => omega
  | succ fuel ih =>
    have h0 := PTree.All.root hg
    have hw := hg.wf
    cases t with
    | purgedLeaf i =>
      have hlk : i.link = none := H.purgedLeaf.mp h0.1
      change Post (retain0 cx q (fuel + 1) o (.leaf i) l) s _ R
      have hc : (i.isSealed && i.link.isSome && decide (retainLevel (.leaf i) l ≥ 0)) = false := by simp [hlk]
      rw [retain0_leaf, hc]
      refine Post.pure fun _ => ⟨.purgedLeaf i, rfl, hg, ?_⟩
      exact Retained.leave (t := .purgedLeaf i) (by simp) (by simp) (by simp [leavesAt]) (by simp [leavesAt])
    | purgedBranch i =>
      have hlk : i.link = none := H.purgedBranch.mp h0.1
      have hlv : 0 < i.level := h0.2.1.2.2.1
      unfold retain0
      simp only [index, hlk, Option.isSome_none, Bool.false_and, Bool.false_eq_true, if_false]
      have : loadBranchOpt cx.sec i s = .ok none s := by
        unfold loadBranchOpt loadBranch; rw [hlk]
      unfold Post
      rw [bind_apply, this]
      intro _
      refine ⟨.purgedBranch i, rfl, hg, ?_⟩
      exact Retained.leave (t := .purgedBranch i) (by simp) (by rintro j hj; cases hj; exact hlv) (by simp [leavesAt]) (by simp [leavesAt])
    | leaf i vs =>
      obtain ⟨lk, hlk⟩ := H.leaf h0.1
      change Post (retain0 cx q (fuel + 1) o (.leaf i) l) s _ R
      rw [retain0_leaf]
      have hleave : ¬ (i.isSealed = true ∧ 0 ≤ retainLevel (.leaf i) l ∧ anyTrue (q.containing o i (List.replicate (T.keys.len i.keys) true)) = false) →
          Retained q o (.leaf i vs) l (.leaf i vs) (retainLevel (.leaf i) l) := by
        intro hn
        have hmi : ∀ x ∈ (PTree.leaf i vs).leavesAt o, Missed q x →
            i.isSealed = true ∧ anyTrue (q.containing o i (List.replicate (T.keys.len i.keys) true)) = false := by
          intro x hx hm
          simp only [leavesAt, List.mem_singleton] at hx
          subst hx
          exact ⟨hm.1, anyTrue_eq_false.mpr hm.2⟩
        refine Retained.leave (t := .leaf i vs) (by simp) (by simp) ?_ ?_
        · intro x hx hm hl
          obtain ⟨h1, h2⟩ := hmi x hx hm
          exact absurd ⟨h1, hl, h2⟩ hn
        · intro x hx hm hl
          obtain ⟨h1, h2⟩ := hmi x hx hm
          simp [retainLevel, index, Index.isSealed, Index.level, h1, hl]
      by_cases hc : i.isSealed = true ∧ 0 ≤ retainLevel (.leaf i) l
      · have hcond : (i.isSealed && i.link.isSome && decide (retainLevel (.leaf i) l ≥ 0)) = true := by
          simpa [hlk, hc.1] using hc.2
        rw [if_pos hcond]
        by_cases ha : anyTrue (q.containing o i (List.replicate (T.keys.len i.keys) true)) = false
        · rw [if_pos (by simp [ha])]
          have hl : 0 ≤ l := by have := retainLevel_le (.leaf i) l; omega
          have hl' : retainLevel (.leaf i) l = 0 := by
            simp [retainLevel, Index.isSealed, Index.level, hc.1, hl]
          refine Post.pure fun _ => ⟨.purgedLeaf { i with link := none }, rfl, ?_, ?_⟩
          · have h2 := h0.2.1
            refine (all_purgedLeaf _).mpr ⟨H.purgedLeaf.mpr rfl, ⟨hc.1, ?_⟩, hI.purgeLeaf h0.2.2⟩
            exact WF.count_pos hw
          · simp only [hl']
            exact Retained.purgeLeaf ht hw hc.1 hl ha
        · rw [if_neg (by simpa using ha)]
          exact Post.pure fun _ => ⟨.leaf i vs, rfl, hg, hleave fun h => ha h.2.2⟩
      · have hcond : ¬ (i.isSealed && i.link.isSome && decide (retainLevel (.leaf i) l ≥ 0)) = true := by
          simp only [hlk, Option.isSome_some, Bool.and_true, Bool.and_eq_true, decide_eq_true_eq]; exact hc
        rw [if_neg hcond]
        exact Post.pure fun _ => ⟨.leaf i vs, rfl, hg, hleave fun h => hc ⟨h.1, h.2.1⟩⟩
    | branch i cs =>
      obtain ⟨lk, rg, hlk, hld⟩ := H.branch.mp h0.1
      change Post (retain0 cx q (fuel + 1) o (.branch i) l) s _ R
      unfold retain0
      simp only
      by_cases hc : i.isSealed = true ∧ (i.level : Int) ≤ l ∧
          anyTrue (q.intersecting o i (List.replicate (T.sums.len i.summaries) true)) = false
      · have hl1 : retainLevel (.branch i) l = (i.level : Int) := by
          simp [retainLevel, Index.isSealed, Index.level, hc.1, hc.2.1]
        rw [if_pos (by simp [hlk, hc.1, hc.2.2, hl1])]
        have : loadBranchOpt cx.sec { i with link := none } s = .ok none s := rfl
        unfold Post
        rw [bind_apply, this]
        intro _
        refine ⟨.purgedBranch { i with link := none }, rfl, ?_, ?_⟩
        · obtain ⟨w1, _, w4, _, w6, _⟩ := h0.2.1
          obtain ⟨c, _, hcl⟩ := w4
          refine (all_purgedBranch _).mpr ⟨H.purgedBranch.mpr rfl, ⟨hc.1, WF.count_pos hw, by show 0 < i.level; omega, WF.level_le_count hw hc.1, ?_⟩,
            hI.purgeBranch h0.2.2⟩
          show 0 < T.sums.len i.summaries
          rw [w6, ht.sums.len_ofList _ (by simpa using w1), List.length_map]
          exact List.length_pos_iff.mpr w1
        · simp only [hl1]
          exact Retained.purge ht hw hc.1 hc.2.1 hc.2.2
      · have hcond : ¬ (i.link.isSome && i.isSealed && !(anyTrue (q.intersecting o i (List.replicate (T.sums.len i.summaries) true))) &&
            decide ((i.level : Int) ≤ retainLevel (.branch i) l)) = true := by
          intro hh
          simp only [Bool.and_eq_true, decide_eq_true_eq, Bool.not_eq_true'] at hh
          have := retainLevel_le (.branch i) l
          exact hc ⟨hh.1.1.2, by omega, hh.1.2⟩
        rw [if_neg hcond]
        have hlb : loadBranchOpt cx.sec i s = .ok (some ⟨cs.map index, rg⟩) s := by
          unfold loadBranchOpt loadBranch; rw [hlk]; simp only [hld]
        have hbind : ∀ f : Option (Branch T) → M E (Index T × Int), (loadBranchOpt cx.sec i >>= f) s = f (some ⟨cs.map index, rg⟩) s := by
          intro f; rw [bind_apply, hlb]
        unfold Post
        rw [hbind]
        change Post _ s _ R
        have hch : ∀ c ∈ cs, GoodW H I s.store c := hg.children
        have hlvl : ∀ c ∈ cs, c.index.level < fuel := by
          intro c hc
          have := h0.2.1.2.1 c hc
          have : i.level < fuel + 1 := hf
          omega
        have hloop := retainLoop_spec (I := I) (H := H) (R := R) h ht (frame_retain0 h q fuel) cs o (retainLevel (.branch i) l) s hch
          (fun c hc o l s' hle => ih c o l s' ((hch c hc).mono hle) (hlvl c hc))
        refine Post.bind (frame_retainLoop (frame_retain0 h q fuel) _ _ _) (fun r => by
          obtain ⟨a, b, c⟩ := r
          simp only
          split
          · exact Frame.bind (frame_persistBranch h _) fun _ => Frame.pure _
          · exact Frame.pure _) hloop ?_
        rintro ⟨is, ch, l2⟩ s1 hx1 _ ⟨cs', k1, k2, k3, k4⟩
        simp only at k1 k2 k4 ⊢
        subst k1
        by_cases hch' : ch = true
        · rw [if_pos hch']
          refine Post.bind (frame_persistBranch h _) (fun _ => Frame.pure _) (persistBranch_spec h hR _ s1) ?_
          rintro ⟨lk', n⟩ s2 hx2 _ ⟨o', links, p1, p2, p3, p4, p5⟩
          refine Post.pure fun _ => ⟨.branch { i with link := some lk' } cs', rfl, ?_, Retained.branch hw _ k4⟩
          exact GoodW.branch_rewrite h hI (hg.mono (hx1.store.trans hx2.store)) (fun c hc => (k3 c hc).mono hx2.store) k4.unlink
            ⟨o', links, p1, p2, p4, p5⟩
        · rw [if_neg hch']
          refine Post.pure fun _ => ⟨.branch i cs', rfl, ?_, Retained.branch hw i.link k4⟩
          exact GoodW.branch_same hI (hg.mono hx1.store) k3 (k2 (by simpa using hch'))

theorem retain0_spec (h : E.Lawful) (ht : T.Lawful) (hv : cx.cfg.Valid) (hI : I.Rewrites) {vals : V → Prop} {R : Err → Prop}
    (hR : ∀ e, Allowed E cx.cfg vals e → R e) (q : Query T) (fuel : Nat) (t : PTree T V) (o : Nat) (l : Int) (s : St E)
    (hg : Good I s.store t) (hf : t.index.level < fuel) :
    Post (retain0 cx q fuel o t.index l) s (fun r s' => ∃ t', r.1 = t'.index ∧ Good I s'.store t' ∧ Retained q o t l t' r.2) R :=
  retain0_specW (H := .full cx) h ht hv hI hR q fuel t o l s hg hf

/-- The result of retaining at the root. -/
def OptRetained (q : Query T) : Option (PTree T V) → Option (PTree T V) → Prop
  | none, none => True
  | some t, some t' => ∃ l', Retained q 0 t i32max t' l'
  | _, _ => False

theorem OptRetained.level {q : Query T} {t t' : Option (PTree T V)} (h : OptRetained q t t') :
    rootLevel (t'.map index) = rootLevel (t.map index) := by
  cases t <;> cases t' <;> try exact h.elim
  · rfl
  · obtain ⟨l', h⟩ := h
    exact unlink_level h.unlink

theorem OptRetained.purgeOk {q : Query T} {t t' : Option (PTree T V)} (h : OptRetained q t t') (hp : OptPurgeOk t)
    (hl : (rootLevel (t.map index) : Int) ≤ i32max) : OptPurgeOk t' := by
  have hlev := h.level
  cases t <;> cases t' <;> try exact h.elim
  · trivial
  · rename_i t t'
    obtain ⟨l', h⟩ := h
    have hl' : (t.index.level : Int) ≤ i32max := hl
    have he : t'.index.level = t.index.level := unlink_level h.unlink
    have := (h.roots i32max (Int.le_refl _)).2.2 (purgeOk_of_le hp (Int.le_refl _) hl')
    exact purgeOk_of_le this (by omega) (by omega)

theorem OptRetained.minRoot {q : Query T} {t t' : Option (PTree T V)} (h : OptRetained q t t') (hp : OptMinRoot t) : OptMinRoot t' := by
  cases t <;> cases t' <;> try exact h.elim
  · trivial
  · obtain ⟨l', h⟩ := h
    exact h.minRoot hp

theorem OptRetained.packed {q : Query T} {t t' : Option (PTree T V)} (h : OptRetained q t t') (hp : OptPacked t) : OptPacked t' := by
  cases t <;> cases t' <;> try exact h.elim
  · trivial
  · obtain ⟨l', h⟩ := h
    exact h.packed hp

theorem OptRetained.erased {q : Query T} {t t' : Option (PTree T V)} (h : OptRetained q t t') {covers : T.Summary → T.Key → Prop}
    {m : Nat → T.Key → Bool} (hc : Covering T covers) (hq : QueryFor q covers m) : Erased m 0 (optContent t) (optContent t') := by
  cases t <;> cases t' <;> try exact h.elim
  · trivial
  · obtain ⟨l', h⟩ := h
    exact h.erased covers m hc hq

/-- The specification of `retain`. -/
theorem retain_spec (h : E.Lawful) (ht : T.Lawful) (hv : cx.cfg.Valid) (hI : I.Rewrites) {vals : V → Prop} {R : Err → Prop}
    (hR : ∀ e, Allowed E cx.cfg vals e → R e) (q : Query T) (fuel : Nat) (t : Option (PTree T V)) (s : St E)
    (hh : HoldsI I s t) (hf : rootLevel s.root < fuel) :
    Post (retain cx fuel q) s (fun _ s' => ∃ t', HoldsI I s' t' ∧ OptRetained q t t') R := by
  unfold retain
  refine Post.getIndexBind ?_
  have hr := hh.root
  cases t with
  | none =>
    rw [hr]
    exact Post.pure fun _ => ⟨none, hh, trivial⟩
  | some t =>
    rw [hh.level] at hf
    rw [hr]
    simp only [Option.map_some]
    refine Post.bind0 (frame_retain0 h q fuel 0 t.index i32max).frame0 (fun _ => frame0_setIndex _)
      (retain0_spec (I := I) h ht hv hI hR q fuel t 0 i32max s (hh.good t rfl) hf) ?_
    rintro ⟨i, l⟩ s' hx _ ⟨t', h1, h2, h3⟩
    simp only at h1 h3 ⊢
    subst h1
    show Small E _ → _
    intro _
    exact ⟨some t', ⟨rfl, hx.coherent hh.coherent, fun t2 h2' => by cases h2'; exact h2⟩, l, h3⟩

end Banyan
