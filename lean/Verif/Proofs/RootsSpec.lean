import Verif.Proofs.Extend
/-
The roots of a tree: the maximal packed sealed subtrees at its start (specification side).
-/
namespace Banyan

variable {T : TreeTypes} {V : Type} {E : Env T V} {cx : Ctx E}

open PTree

theorem rootsOfL_append (a b : List (PTree T V)) (l : Int) :
    rootsOfL (a ++ b) l = ((rootsOfL b (rootsOfL a l).1).1, (rootsOfL a l).2 ++ (rootsOfL b (rootsOfL a l).1).2) := by
  induction a generalizing l with
  | nil => rfl
  | cons c a ih =>
    simp only [List.cons_append, rootsOfL]
    rw [ih]
    simp

theorem purgeOkL_append (a b : List (PTree T V)) (l : Int) :
    PurgeOkL (a ++ b) l ↔ PurgeOkL a l ∧ PurgeOkL b (rootsOfL a l).1 := by
  induction a generalizing l with
  | nil => simp [PurgeOkL, rootsOfL]
  | cons c a ih =>
    simp only [List.cons_append, PurgeOkL, rootsOfL]
    rw [ih, and_assoc]

/-- The traversal only depends on the level up to the level of the tree. -/
theorem rootsOf_min (t : PTree T V) (l : Int) : rootsOf t (min l (t.index.level : Int)) =
    (if t.index.isSealed = true ∧ (t.index.level : Int) ≤ l then rootsOf t l else rootsOf t l) := by
  have h0 : ∀ n : Nat, (0 : Int) ≤ min l (n : Int) ↔ 0 ≤ l := by intro n; omega
  have h1 : ∀ n : Nat, (n : Int) ≤ min l (n : Int) ↔ (n : Int) ≤ l := by intro n; omega
  have h2 : ∀ n : Nat, min (min l (n : Int)) ((n : Int) - 1) = min l ((n : Int) - 1) := by intro n; omega
  rw [ite_self]
  cases t with
  | leaf i vs =>
    simp only [rootsOf, index, Index.level, h0]
    rw [show min (min l ((0 : Nat) : Int)) (-1) = min l (-1) by omega]
  | purgedLeaf i =>
    simp only [rootsOf, index, Index.level, h0]
    rw [show min (min l ((0 : Nat) : Int)) (-1) = min l (-1) by omega]
  | purgedBranch i =>
    simp only [rootsOf, index, Index.level, h1, h2]
  | branch i cs =>
    simp only [rootsOf, index, Index.level, h1, h2]

theorem purgeOk_min (t : PTree T V) (l : Int) : PurgeOk t (min l (t.index.level : Int)) ↔ PurgeOk t l := by
  have h0 : ∀ n : Nat, (0 : Int) ≤ min l (n : Int) ↔ 0 ≤ l := by intro n; omega
  have h1 : ∀ n : Nat, (n : Int) ≤ min l (n : Int) ↔ (n : Int) ≤ l := by intro n; omega
  have h2 : ∀ n : Nat, min (min l (n : Int)) ((n : Int) - 1) = min l ((n : Int) - 1) := by intro n; omega
  cases t with
  | leaf i vs => simp [PurgeOk]
  | purgedLeaf i => simp only [PurgeOk, index, Index.level, h0]
  | purgedBranch i => simp only [PurgeOk, index, Index.level, h1]
  | branch i cs => simp only [PurgeOk, index, Index.level, h1, h2]

theorem purgeOk_of_le {t : PTree T V} {l l' : Int} (h : PurgeOk t l) (h1 : (t.index.level : Int) ≤ l)
    (h2 : (t.index.level : Int) ≤ l') : PurgeOk t l' := by
  rw [← purgeOk_min] at h ⊢
  rw [show min l' (t.index.level : Int) = min l (t.index.level : Int) by omega]
  exact h

/-! ### the level only decreases -/

theorem rootsOf_le (t : PTree T V) : ∀ l : Int, (rootsOf t l).1 ≤ l := by
  induction t using PTree.induct with
  | leaf i vs => intro l; simp only [rootsOf]; split <;> simp only <;> omega
  | purgedLeaf i => intro l; simp only [rootsOf]; split <;> simp only <;> omega
  | purgedBranch i => intro l; simp only [rootsOf]; split <;> simp only <;> omega
  | branch i cs ih =>
    intro l
    simp only [rootsOf]
    split
    · simp only; omega
    · have : ∀ (cs : List (PTree T V)), (∀ c ∈ cs, ∀ l : Int, (rootsOf c l).1 ≤ l) → ∀ l : Int, (rootsOfL cs l).1 ≤ l := by
        intro cs
        induction cs with
        | nil => intro _ l; exact Int.le_refl _
        | cons c cs ihc =>
          intro h l
          simp only [rootsOfL]
          have h1 := h c (by simp) l
          have h2 := ihc (fun c hc => h c (by simp [hc])) (rootsOf c l).1
          omega
      have := this cs ih (min l ((i.level : Int) - 1))
      omega

theorem rootsOfL_le (cs : List (PTree T V)) (l : Int) : (rootsOfL cs l).1 ≤ l := by
  induction cs generalizing l with
  | nil => exact Int.le_refl _
  | cons c cs ihc =>
    simp only [rootsOfL]
    have h1 := rootsOf_le c l
    have h2 := ihc (rootsOf c l).1
    omega

/-! ### what is known about roots -/

/-- The facts about the roots found by a traversal. -/
structure RootsInfo (l l' : Int) (rs : List (PTree T V)) (inn : PTree T V → Prop) : Prop where
  mem : ∀ r ∈ rs, inn r
  sealed : ∀ r ∈ rs, r.index.isSealed = true
  hi : ∀ r ∈ rs, (r.index.level : Int) ≤ l
  lo : ∀ r ∈ rs, l' ≤ (r.index.level : Int)
  sorted : rs.Pairwise (fun a b => a.index.level ≥ b.index.level)

theorem RootsInfo.nil {l l' : Int} {inn : PTree T V → Prop} : RootsInfo l l' [] inn := by
  constructor <;> simp

theorem RootsInfo.single {l : Int} {r : PTree T V} {inn : PTree T V → Prop} (h1 : inn r) (h2 : r.index.isSealed = true)
    (h3 : (r.index.level : Int) ≤ l) : RootsInfo l (r.index.level : Int) [r] inn := by
  constructor <;> simp [h1, h2, h3]

theorem RootsInfo.append {l l1 l2 : Int} {a b : List (PTree T V)} {inn : PTree T V → Prop} (h1 : RootsInfo l l1 a inn)
    (h2 : RootsInfo l1 l2 b inn) (hl1 : l1 ≤ l) (hl2 : l2 ≤ l1) : RootsInfo l l2 (a ++ b) inn := by
  constructor
  · intro r hr
    rcases List.mem_append.mp hr with hr | hr
    · exact h1.mem r hr
    · exact h2.mem r hr
  · intro r hr
    rcases List.mem_append.mp hr with hr | hr
    · exact h1.sealed r hr
    · exact h2.sealed r hr
  · intro r hr
    rcases List.mem_append.mp hr with hr | hr
    · exact h1.hi r hr
    · have := h2.hi r hr; omega
  · intro r hr
    rcases List.mem_append.mp hr with hr | hr
    · have := h1.lo r hr; omega
    · exact h2.lo r hr
  · rw [List.pairwise_append]
    refine ⟨h1.sorted, h2.sorted, fun a ha b hb => ?_⟩
    have := h1.lo a ha
    have := h2.hi b hb
    omega

theorem RootsInfo.weaken {l m l' : Int} {rs : List (PTree T V)} {inn inn' : PTree T V → Prop} (h : RootsInfo l l' rs inn)
    (hm : l ≤ m) (hi : ∀ r, inn r → inn' r) : RootsInfo m l' rs inn' :=
  ⟨fun r hr => hi r (h.mem r hr), h.sealed, fun r hr => by have := h.hi r hr; omega, h.lo, h.sorted⟩

theorem rootsOf_info (t : PTree T V) : ∀ l : Int, RootsInfo l (rootsOf t l).1 (rootsOf t l).2 (fun r => r ∈ t.nodes) := by
  induction t using PTree.induct with
  | leaf i vs =>
    intro l
    simp only [rootsOf]
    split
    · rename_i h
      exact RootsInfo.single (r := .leaf i vs) (self_mem_nodes _) h.1 h.2
    · exact RootsInfo.nil
  | purgedLeaf i =>
    intro l
    simp only [rootsOf]
    split
    · rename_i h
      exact RootsInfo.single (r := .purgedLeaf i) (self_mem_nodes _) h.1 h.2
    · exact RootsInfo.nil
  | purgedBranch i =>
    intro l
    simp only [rootsOf]
    split
    · rename_i h
      exact RootsInfo.single (r := .purgedBranch i) (self_mem_nodes _) h.1 h.2
    · exact RootsInfo.nil
  | branch i cs ih =>
    intro l
    simp only [rootsOf]
    split
    · rename_i h
      exact RootsInfo.single (r := .branch i cs) (self_mem_nodes _) h.1 h.2
    · have key : ∀ (ds : List (PTree T V)), (∀ c ∈ ds, c ∈ cs) → ∀ l : Int,
          RootsInfo l (rootsOfL ds l).1 (rootsOfL ds l).2 (fun r => r ∈ (PTree.branch i cs).nodes) := by
        intro ds
        induction ds with
        | nil => intro _ l; exact RootsInfo.nil
        | cons d ds ihd =>
          intro hd l
          simp only [rootsOfL]
          refine RootsInfo.append ((ih d (hd d (by simp)) l).weaken (Int.le_refl _) ?_) (ihd (fun c hc => hd c (by simp [hc])) _)
            (rootsOf_le _ _) (rootsOfL_le _ _)
          intro r hr
          exact mem_nodes_branch.mpr (Or.inr ⟨d, hd d (by simp), hr⟩)
      exact (key cs (fun _ h => h) _).weaken (by omega) (fun _ h => h)

/-! ### no purged nodes after the end of the traversal -/

/-- The content of the roots is a prefix of the content of the tree. If it is not everything then the traversal has
ended, and there are no purged elements in the rest. -/
theorem rootsOf_content (t : PTree T V) : ∀ l : Int, PurgeOk t l →
    ∃ rest, t.content = contents (rootsOf t l).2 ++ rest.map some ∧ (rest = [] ∨ (rootsOf t l).1 < 0) ∧
      (l < 0 → (rootsOf t l).2 = []) := by
  induction t using PTree.induct with
  | leaf i vs =>
    intro l _
    simp only [rootsOf]
    split
    · rename_i h
      exact ⟨[], by simp, Or.inl rfl, fun hl => by omega⟩
    · exact ⟨(T.keys.toVec i.keys).zip vs, by simp [content], Or.inr (by simp only; omega), fun _ => rfl⟩
  | purgedLeaf i =>
    intro l h
    simp only [PurgeOk] at h
    simp only [rootsOf]
    rw [if_pos h]
    exact ⟨[], by simp, Or.inl rfl, fun hl => by omega⟩
  | purgedBranch i =>
    intro l h
    simp only [PurgeOk] at h
    simp only [rootsOf]
    rw [if_pos h]
    exact ⟨[], by simp, Or.inl rfl, fun hl => by omega⟩
  | branch i cs ih =>
    intro l h
    simp only [rootsOf]
    split
    · rename_i h'
      exact ⟨[], by simp, Or.inl rfl, fun hl => by omega⟩
    · rename_i h'
      simp only [PurgeOk] at h
      have h := h.resolve_left h'
      have key : ∀ (ds : List (PTree T V)), (∀ c ∈ ds, c ∈ cs) → ∀ l : Int, PurgeOkL ds l →
          ∃ rest, contents ds = contents (rootsOfL ds l).2 ++ rest.map some ∧ (rest = [] ∨ (rootsOfL ds l).1 < 0) ∧
            (l < 0 → (rootsOfL ds l).2 = []) := by
        intro ds
        induction ds with
        | nil => intro _ l _; exact ⟨[], by simp [rootsOfL], Or.inl rfl, fun _ => rfl⟩
        | cons d ds ihd =>
          intro hd l hp
          simp only [PurgeOkL] at hp
          obtain ⟨r1, e1, c1, n1⟩ := ih d (hd d (by simp)) l hp.1
          obtain ⟨r2, e2, c2, n2⟩ := ihd (fun c hc => hd c (by simp [hc])) _ hp.2
          simp only [rootsOfL]
          have hle := rootsOfL_le ds (rootsOf d l).1
          rcases c1 with c1 | c1
          · subst c1
            refine ⟨r2, by simp [e1, e2], c2, fun hl => ?_⟩
            have := rootsOf_le d l
            rw [n1 hl, n2 (by omega)]; rfl
          · refine ⟨r1 ++ r2, ?_, Or.inr (by omega), fun hl => ?_⟩
            · have := n2 c1
              rw [this] at e2
              simp only [contents_nil, List.nil_append] at e2
              rw [contents_cons, this, e1, e2]
              simp
            · rw [n1 hl, n2 c1]; rfl
      obtain ⟨rest, e, c, n⟩ := key cs (fun _ h => h) _ h
      exact ⟨rest, by simp [content, e], c, fun hl => n (by omega)⟩

/-- The content of the roots, in any tree: some elements of the tree, in order. -/
theorem rootsOf_sublist (t : PTree T V) : ∀ l : Int, (contents (rootsOf t l).2).Sublist t.content := by
  induction t using PTree.induct with
  | leaf i vs => intro l; simp only [rootsOf]; split <;> simp
  | purgedLeaf i => intro l; simp only [rootsOf]; split <;> simp
  | purgedBranch i => intro l; simp only [rootsOf]; split <;> simp
  | branch i cs ih =>
    intro l
    simp only [rootsOf]
    split
    · simp
    · have key : ∀ (ds : List (PTree T V)), (∀ c ∈ ds, c ∈ cs) → ∀ l : Int, (contents (rootsOfL ds l).2).Sublist (contents ds) := by
        intro ds
        induction ds with
        | nil => intro _ l; simp [rootsOfL]
        | cons d ds ihd =>
          intro hd l
          simp only [rootsOfL]
          rw [contents_append, contents_cons]
          exact (ih d (hd d (by simp)) l).append (ihd (fun c hc => hd c (by simp [hc])) _)
      simpa [content] using key cs (fun _ h => h) _

/-! ### trees without purged nodes, packed trees -/

/-- No node of the tree is purged. -/
def NoPurge (t : PTree T V) : Prop := t.All fun
  | .purgedLeaf _ => False
  | .purgedBranch _ => False
  | _ => True

theorem NoPurge.purgeOk {t : PTree T V} : NoPurge t → ∀ l, PurgeOk t l := by
  induction t using PTree.induct with
  | leaf i vs => intro _ _; simp [PurgeOk]
  | purgedLeaf i => intro h; exact (PTree.All.root h).elim
  | purgedBranch i => intro h; exact (PTree.All.root h).elim
  | branch i cs ih =>
    intro h l
    simp only [PurgeOk]
    right
    have key : ∀ (ds : List (PTree T V)), (∀ c ∈ ds, c ∈ cs) → ∀ l : Int, PurgeOkL ds l := by
      intro ds
      induction ds with
      | nil => intro _ _; trivial
      | cons d ds ihd =>
        intro hd l
        exact ⟨ih d (hd d (by simp)) (PTree.All.children h d (hd d (by simp))) l, ihd (fun c hc => hd c (by simp [hc])) _⟩
    exact key cs (fun _ h => h) _

theorem purgeOkL_of_noPurge {cs : List (PTree T V)} (h : ∀ c ∈ cs, NoPurge c) (l : Int) : PurgeOkL cs l := by
  induction cs generalizing l with
  | nil => trivial
  | cons c cs ih => exact ⟨(h c (by simp)).purgeOk l, ih (fun c hc => h c (by simp [hc])) _⟩

/-- A tree without purged elements has no purged nodes. -/
theorem noPurge_of_content {t : PTree T V} (hw : WF E t) {xs : List (T.Key × V)}
    (h : t.content = xs.map some) : NoPurge t := by
  have key : ∀ t : PTree T V, WF E t → (none ∉ t.content) → NoPurge t := by
    intro t
    induction t using PTree.induct with
    | leaf i vs => intro _ _; simp [NoPurge]
    | purgedLeaf i =>
      intro hw h
      have := (PTree.All.root hw).2
      exact absurd (List.mem_replicate.mpr ⟨by omega, rfl⟩) h
    | purgedBranch i =>
      intro hw h
      have := (PTree.All.root hw).2.1
      exact absurd (List.mem_replicate.mpr ⟨by omega, rfl⟩) h
    | branch i cs ih =>
      intro hw h
      unfold NoPurge
      rw [all_branch]
      refine ⟨trivial, fun c hc => ih c hc (PTree.All.children hw c hc) ?_⟩
      intro hn
      apply h
      simp only [content, contents_eq, List.mem_flatMap]
      exact ⟨c, hc, hn⟩
  refine key t hw ?_
  rw [h]
  simp

theorem noPurge_of_contents {cs : List (PTree T V)} (hw : ∀ c ∈ cs, WF E c) {xs : List (T.Key × V)}
    (h : contents cs = xs.map some) : ∀ c ∈ cs, NoPurge c := by
  intro c hc
  have hn : none ∉ c.content := by
    intro hn
    have : none ∈ contents cs := by
      simp only [contents_eq, List.mem_flatMap]
      exact ⟨c, hc, hn⟩
    rw [h] at this
    simp at this
  have : ∃ ys : List (T.Key × V), c.content = ys.map some := by
    generalize c.content = l at hn
    induction l with
    | nil => exact ⟨[], rfl⟩
    | cons a l ih =>
      obtain ⟨ys, hy⟩ := ih (fun h => hn (by simp [h]))
      cases a with
      | none => simp at hn
      | some a => exact ⟨a :: ys, by simp [hy]⟩
  obtain ⟨ys, hy⟩ := this
  exact noPurge_of_content (hw c hc) hy

theorem NewChildren.noPurge {I : NodeInv cx} {σ : E.σ} {l : Nat} {new : List (PTree T V)} {taken rest : List (T.Key × V)}
    (h : NewChildren I σ l new taken rest) : ∀ c ∈ new, NoPurge c :=
  noPurge_of_contents (fun c hc => (h.good c hc).1.wf) h.content

/-- All purged nodes are sealed. -/
def PurgedSealed (t : PTree T V) : Prop := t.All fun
  | .purgedLeaf i => i.isSealed = true
  | .purgedBranch i => i.isSealed = true
  | _ => True

theorem WF.purgedSealed {t : PTree T V} (h : WF E t) : PurgedSealed t := by
  refine PTree.All.imp ?_ h
  intro n hn
  cases n with
  | leaf => trivial
  | branch => trivial
  | purgedLeaf i => exact hn.1
  | purgedBranch i => exact hn.1

theorem rootsOf_closed {t : PTree T V} {l : Int} (h1 : t.index.isSealed = true) (h2 : (t.index.level : Int) ≤ l) :
    rootsOf t l = ((t.index.level : Int), [t]) := by
  cases t with
  | leaf i vs =>
    simp only [rootsOf]
    simp only [index, Index.isSealed, Index.level] at h1 h2 ⊢
    rw [if_pos ⟨h1, by omega⟩]; rfl
  | purgedLeaf i =>
    simp only [rootsOf]
    simp only [index, Index.isSealed, Index.level] at h1 h2 ⊢
    rw [if_pos ⟨h1, by omega⟩]; rfl
  | purgedBranch i =>
    simp only [rootsOf]
    simp only [index, Index.isSealed, Index.level] at h1 h2 ⊢
    rw [if_pos ⟨h1, by omega⟩]
  | branch i cs =>
    simp only [rootsOf]
    simp only [index, Index.isSealed, Index.level] at h1 h2 ⊢
    rw [if_pos ⟨h1, by omega⟩]

theorem purgeOk_closed {t : PTree T V} {l : Int} (h1 : t.index.isSealed = true) (h2 : (t.index.level : Int) ≤ l) :
    PurgeOk t l := by
  cases t with
  | leaf i vs => simp [PurgeOk]
  | purgedLeaf i =>
    simp only [PurgeOk, index, Index.isSealed, Index.level] at h1 h2 ⊢
    exact ⟨h1, by omega⟩
  | purgedBranch i => exact ⟨h1, h2⟩
  | branch i cs => exact Or.inl ⟨h1, h2⟩

theorem rootsOfL_closed {cs : List (PTree T V)} {l : Int} {n : Nat} (h : ∀ c ∈ cs, c.index.isSealed = true ∧ c.index.level = n)
    (hl : (n : Int) ≤ l) : PurgeOkL cs l ∧ (n : Int) ≤ (rootsOfL cs l).1 := by
  induction cs generalizing l with
  | nil => exact ⟨trivial, hl⟩
  | cons c cs ih =>
    have hc := h c (by simp)
    have e := rootsOf_closed hc.1 (l := l) (by omega)
    simp only [PurgeOkL, rootsOfL, e, hc.2]
    have := ih (l := (n : Int)) (fun c hc => h c (by simp [hc])) (Int.le_refl _)
    exact ⟨⟨purgeOk_closed hc.1 (by omega), this.1⟩, this.2⟩

/-- In a packed tree all purged nodes are inside of the roots. -/
theorem Packed.purgeOk {t : PTree T V} (h : Packed t) : PurgedSealed t → ∀ l : Int, (t.index.level : Int) ≤ l → PurgeOk t l := by
  induction h with
  | leaf i vs => intro _ _ _; simp [PurgeOk]
  | purgedLeaf i => intro hp l hl; exact purgeOk_closed (t := .purgedLeaf i) (PTree.All.root hp) hl
  | purgedBranch i => intro hp l hl; exact purgeOk_closed (t := .purgedBranch i) (PTree.All.root hp) hl
  | closed i cs hs => intro _ l hl; exact purgeOk_closed (t := .branch i cs) hs hl
  | unclosed i init last h1 h2 h3 ih =>
    intro hp l hl
    simp only [PurgeOk]
    right
    rw [purgeOkL_append]
    simp only [index, Index.level] at hl
    by_cases hn : init = []
    · subst hn
      exact ⟨trivial, ih (PTree.All.children hp last (by simp)) _ (by simp only [rootsOfL]; omega), trivial⟩
    · have := rootsOfL_closed (cs := init) (l := min l ((i.level : Int) - 1)) (n := i.level - 1)
        (fun c hc => ⟨(h1 c hc).1, by have := (h1 c hc).2; omega⟩) (by omega)
      exact ⟨this.1, ih (PTree.All.children hp last (by simp)) _ (by omega), trivial⟩

end Banyan
