import Verif.Proofs.PackEdge
/-
What `extend_unpacked` makes of new elements consists of new blocks only: two runs side by side, continued.
-/
set_option autoImplicit false
namespace Banyan

open PTree

variable {T : TreeTypes} {V : Type} {E : Env T V} {cx : Ctx E} {α β : Type}

/-- The blocks of all nodes that are not purged are known. -/
inductive AllKnown (E : Env T V) (sec : Secrets E) (K : Known T) : Index T → Prop
  | purged (i : Index T) : i.link = none → AllKnown E sec K i
  | leaf (i : LeafIndex T) (l : T.Link) (b : Bytes) : i.link = some l → K l b → AllKnown E sec K (.leaf i)
  | branch (i : BranchIndex T) (l : T.Link) (b : Bytes) (cs : List (Index T)) (r : Nat × Nat) : i.link = some l → K l b →
      (∀ σ, E.get σ l = .ok b → loadBranchFromLink E sec σ l = .ok ⟨cs, r⟩) → (∀ c ∈ cs, AllKnown E sec K c) →
      AllKnown E sec K (.branch i)

theorem AllKnown.mono {sec : Secrets E} {K K' : Known T} (hk : ∀ l b, K l b → K' l b) {i : Index T} (h : AllKnown E sec K i) :
    AllKnown E sec K' i := by
  induction h with
  | purged i h => exact .purged i h
  | leaf i l b h1 h2 => exact .leaf i l b h1 (hk _ _ h2)
  | branch i l b cs r h1 h2 h3 _ ih => exact .branch i l b cs r h1 (hk _ _ h2) h3 ih

section
variable {K : Known T} {p : Origin T} {p2 : List Bytes} {s s2 : St E}

theorem leafFromIter_fresh (he : E.Lawful) (h : Twin E cx.sec K p p2 s s2) (xs : List (T.Key × V)) :
    Both cx.sec K p p2 (leafFromIter cx xs) s s2 fun K' r => AllKnown E cx.sec K' (.leaf r.1) := by
  unfold leafFromIter
  refine Both.assertBind h fun _ => ?_
  unfold extendLeaf
  refine Both.assertBind h fun _ => Both.bind (Both.lift h _) ?_
  rintro K1 ⟨z, sealed, ks, rest⟩ s1 s21 hk1 h1 -
  refine Both.bind (Both.encrypt h1 z _) fun K2 b s2' s22 hk2 h2 _ => Both.bind (Both.put he h2 b) fun K3 l s3 s23 hk3 h3 hq => ?_
  exact Both.pure h3 fun _ hs _ _ => .leaf _ l b rfl (hq hs).2

/-- A new branch is a known block with the given children. -/
theorem newBranch_block (he : E.Lawful) (h : Twin E cx.sec K p p2 s s2) (children : List (Index T)) (mode : CreateMode) :
    Both cx.sec K p p2 (newBranch cx children mode) s s2 fun K' i => ∃ m l b x, maxLevel children = some m ∧ i.level = m + 1 ∧ i.link = some l ∧ K' l b ∧
      ∀ σ, E.get σ l = .ok b → loadBranchFromLink E cx.sec σ l = .ok ⟨children, x⟩ := by
  unfold newBranch
  refine Both.assertBind h fun hne => Both.assertBind h fun _ => ?_
  have hne : children ≠ [] := by simpa using hne
  cases hm : maxLevel children with
  | none => exact Both.throw h _
  | some m =>
    refine Both.bind (persistBranch_both he h children hne) ?_
    rintro K1 ⟨l, n⟩ s1 s21 hk1 h1 hq1
    refine Both.pure h1 fun _ hs => ?_
    obtain ⟨hs0, b, x, g1, g2⟩ := hq1 hs
    exact ⟨m, l, b, x, rfl, rfl, rfl, g1, g2⟩

theorem newBranch_fresh (he : E.Lawful) (h : Twin E cx.sec K p p2 s s2) (children : List (Index T)) (mode : CreateMode)
    (hk : Small E s → ∀ c ∈ children, AllKnown E cx.sec K c) :
    Both cx.sec K p p2 (newBranch cx children mode) s s2 fun K' i => AllKnown E cx.sec K' (.branch i) := by
  unfold newBranch
  refine Both.assertBind h fun hne => Both.assertBind h fun _ => ?_
  have hne : children ≠ [] := by simpa using hne
  cases maxLevel children with
  | none => exact Both.throw h _
  | some m =>
    refine Both.bind (persistBranch_both he h children hne) ?_
    rintro K1 ⟨l, n⟩ s1 s21 hk1 h1 hq1
    refine Both.pure h1 fun _ hs => ?_
    obtain ⟨hs0, b, x, g1, g2⟩ := hq1 hs
    exact .branch _ l b children x rfl g1 g2 fun c hc => (hk hs0 c hc).mono hk1

/-- Functions that make a new node of the elements. -/
def FillFresh (cx : Ctx E) (f : List (T.Key × V) → M E (Index T × List (T.Key × V))) : Prop :=
  ∀ (K : Known T) p p2 (s s2 : St E) xs, Twin E cx.sec K p p2 s s2 →
    Both cx.sec K p p2 (f xs) s s2 fun K' r => AllKnown E cx.sec K' r.1

theorem extendBranchLoop_fresh {f : List (T.Key × V) → M E (Index T × List (T.Key × V))} (hf : FillFresh cx f) (n : Nat)
    (children : List (Index T)) (xs : List (T.Key × V)) (h : Twin E cx.sec K p p2 s s2)
    (hk : Small E s → ∀ c ∈ children, AllKnown E cx.sec K c) :
    Both cx.sec K p p2 (extendBranchLoop f n children xs) s s2 fun K' r => ∀ c ∈ r.1, AllKnown E cx.sec K' c := by
  induction n generalizing K s s2 children xs with
  | zero => exact Both.pure h hk
  | succ n ih =>
    unfold extendBranchLoop
    by_cases hx : xs.isEmpty = true
    · rw [if_pos hx]; exact Both.pure h hk
    · rw [if_neg hx]
      refine Both.bind (hf K p p2 s s2 xs h) ?_
      rintro K1 ⟨child, rest⟩ s1 s21 hk1 h1 hq1
      refine (ih (children ++ [child]) rest h1 ?_).weaken fun K2 r hr _ => hr
      intro hs c hc
      rcases List.mem_append.1 hc with hc | hc
      · exact (hk (hq1 hs).1 c hc).mono hk1
      · rw [List.mem_singleton.1 hc]
        exact (hq1 hs).2

theorem extendBranchWith_fresh (he : E.Lawful) {f : List (T.Key × V) → M E (Index T × List (T.Key × V))} (hf : FillFresh cx f)
    (children : List (Index T)) (level : Nat) (xs : List (T.Key × V)) (mode : CreateMode) (h : Twin E cx.sec K p p2 s s2)
    (hk : Small E s → ∀ c ∈ children, AllKnown E cx.sec K c) :
    Both cx.sec K p p2 (extendBranchWith cx f children level xs mode) s s2 fun K' r => AllKnown E cx.sec K' (.branch r.1) := by
  unfold extendBranchWith
  refine Both.assertBind h fun _ => Both.assertBind h fun _ => Both.bind (extendBranchLoop_fresh hf _ children xs h hk) ?_
  rintro K1 ⟨cs, rest⟩ s1 s21 hk1 h1 hq1
  refine Both.bind (newBranch_fresh he h1 cs mode fun hs => (hq1 hs).2) ?_
  rintro K2 i s3 s23 hk2 h2 hq2
  exact Both.assertBind h2 fun _ => Both.pure h2 fun _ hs _ => (hq2 hs).2

theorem fillNode_fresh (he : E.Lawful) (level : Nat) : FillFresh cx (fillNode cx level) := by
  induction level with
  | zero =>
    intro K p p2 s s2 xs h
    unfold fillNode
    refine Both.assertBind h fun _ => Both.bind (leafFromIter_fresh he h xs) ?_
    rintro K1 ⟨l, rest⟩ s1 s21 hk1 h1 hq1
    exact Both.pure h1 fun _ hs => (hq1 hs).2
  | succ level ih =>
    intro K p p2 s s2 xs h
    unfold fillNode
    refine Both.assertBind h fun _ => Both.bind (extendBranchWith_fresh he ih [] _ xs _ h fun _ c hc => by cases hc) ?_
    rintro K1 ⟨l, rest⟩ s1 s21 hk1 h1 hq1
    exact Both.pure h1 fun _ hs => (hq1 hs).2

theorem extendBranch_fresh (he : E.Lawful) (children : List (Index T)) (level : Nat) (xs : List (T.Key × V)) (mode : CreateMode)
    (h : Twin E cx.sec K p p2 s s2) (hk : Small E s → ∀ c ∈ children, AllKnown E cx.sec K c) :
    Both cx.sec K p p2 (extendBranch cx children level xs mode) s s2 fun K' r => AllKnown E cx.sec K' (.branch r.1) := by
  unfold extendBranch
  cases level with
  | zero => exact Both.throw h _
  | succ l => exact extendBranchWith_fresh he (fillNode_fresh he l) children _ xs mode h hk

theorem extendAboveLoop_fresh (he : E.Lawful) (level fuel : Nat) (node : Index T) (xs : List (T.Key × V))
    (h : Twin E cx.sec K p p2 s s2) (hk : Small E s → AllKnown E cx.sec K node) :
    Both cx.sec K p p2 (extendAboveLoop cx level fuel node xs) s s2 fun K' r => AllKnown E cx.sec K' r.1 := by
  induction fuel generalizing K s s2 node xs with
  | zero =>
    unfold extendAboveLoop
    split
    · exact Both.throw h _
    · exact Both.pure h hk
  | succ fuel ih =>
    unfold extendAboveLoop
    split
    · refine Both.bind (extendBranch_fresh he [node] _ xs _ h fun hs c hc => by rw [List.mem_singleton.1 hc]; exact hk hs) ?_
      rintro K1 ⟨b, rest⟩ s1 s21 hk1 h1 hq1
      exact (ih (.branch b) rest h1 fun hs => (hq1 hs).2).weaken fun K2 r hr _ => hr
    · exact Both.pure h hk

/-- A new tree consists of new blocks. (Nothing remains of the elements if the tree may have any level.) -/
theorem extendAboveWith_fresh (he : E.Lawful) (f : Index T → List (T.Key × V) → M E (Index T × List (T.Key × V)))
    (level : Nat) (xs : List (T.Key × V)) (h : Twin E cx.sec K p p2 s s2) :
    Both cx.sec K p p2 (extendAboveWith cx f none level xs) s s2 fun K' r => AllKnown E cx.sec K' r.1 := by
  unfold extendAboveWith
  refine Both.ensureBind h fun _ => Both.assertBind h fun _ => Both.bind (Q := fun K' r => AllKnown E cx.sec K' r.1) ?_ ?_
  · unfold extendStart
    refine Both.bind (leafFromIter_fresh he h xs) ?_
    rintro K1 ⟨l, rest⟩ s1 s21 hk1 h1 hq1
    exact Both.pure h1 fun _ hs => (hq1 hs).2
  · rintro K1 ⟨i, rest⟩ s1 s21 hk1 h1 hq1
    refine Both.bind (extendAboveLoop_fresh he level _ i rest h1 fun hs => (hq1 hs).2) ?_
    rintro K2 ⟨i, rest⟩ s3 s23 hk2 h2 hq2
    exact Both.assertBind h2 fun _ => Both.pure h2 fun _ hs _ => (hq2 hs).2

theorem Both.grows {m : M E α} {Q : Known T → α → Prop} (h : Both cx.sec K p p2 m s s2 Q) :
    Both cx.sec K p p2 m s s2 fun K' a => (∀ l b, K l b → K' l b) ∧ Q K' a := by
  unfold Both at h ⊢
  cases h1 : m s with
  | ok a s' =>
    rw [h1] at h
    obtain ⟨K', s2', g1, g2, g3, g4⟩ := h
    exact ⟨K', s2', g1, g2, g3, fun hs => ⟨(g4 hs).1, g2, (g4 hs).2⟩⟩
  | error e s' => rw [h1] at h; exact h

theorem extendBranchLoop_appends {f : List (T.Key × V) → M E (Index T × List (T.Key × V))} (hf : FillFresh cx f) (n : Nat)
    (children : List (Index T)) (xs : List (T.Key × V)) (h : Twin E cx.sec K p p2 s s2) :
    Both cx.sec K p p2 (extendBranchLoop f n children xs) s s2 fun K' r => ∃ more, r.1 = children ++ more ∧ ∀ c ∈ more, AllKnown E cx.sec K' c := by
  induction n generalizing K s s2 children xs with
  | zero => exact Both.pure h fun _ => ⟨[], by simp, by simp⟩
  | succ n ih =>
    unfold extendBranchLoop
    by_cases hx : xs.isEmpty = true
    · rw [if_pos hx]; exact Both.pure h fun _ => ⟨[], by simp, by simp⟩
    · rw [if_neg hx]
      refine Both.bind (hf K p p2 s s2 xs h) ?_
      rintro K1 ⟨child, rest⟩ s1 s21 hk1 h1 hq1
      refine (ih (children ++ [child]) rest h1).grows.weaken fun K2 r hr hs => ?_
      obtain ⟨hk2, more, g1, g2⟩ := hr
      refine ⟨child :: more, by rw [g1]; simp, fun c hc => ?_⟩
      rcases List.mem_cons.1 hc with rfl | hc
      · exact (hq1 hs).2.mono hk2
      · exact g2 c hc

/-- Appending below a new root: the block of the new root is known, and so is everything behind the old tree. -/
theorem extendBranch_appends (he : E.Lawful) (a b : Index T) (level : Nat) (xs : List (T.Key × V)) (mode : CreateMode)
    (h : Twin E cx.sec K p p2 s s2) (hk : Small E s → AllKnown E cx.sec K b) :
    Both cx.sec K p p2 (extendBranch cx [a, b] level xs mode) s s2 fun K' r => ∃ more l d x, r.1.link = some l ∧ K' l d ∧ a.level < r.1.level ∧
      (∀ σ, E.get σ l = .ok d → loadBranchFromLink E cx.sec σ l = .ok ⟨a :: more, x⟩) ∧ ∀ c ∈ more, AllKnown E cx.sec K' c := by
  unfold extendBranch
  cases level with
  | zero => exact Both.throw h _
  | succ n =>
    simp only
    unfold extendBranchWith
    refine Both.assertBind h fun _ => Both.assertBind h fun _ => Both.bind (extendBranchLoop_appends (fillNode_fresh he n) _ [a, b] xs h).grows ?_
    rintro K1 ⟨cs, rest⟩ s1 s21 hk1 h1 hq1
    refine Both.bind (newBranch_block he h1 cs mode).grows ?_
    rintro K2 i s3 s23 hk2 h2 hq2
    refine Both.assertBind h2 fun _ => Both.pure h2 fun _ hs hs1 => ?_
    obtain ⟨hs0, -, more, g1, g2⟩ := hq1 hs1
    obtain ⟨-, -, m, l, d, x, k1, k2, k3, k4, k5⟩ := hq2 hs
    simp only at g1
    subst g1
    refine ⟨b :: more, l, d, x, k3, k4, ?_, k5, fun c hc => ?_⟩
    · rw [k2]
      have := (maxLevel_some k1).1 a (by simp)
      omega
    · rcases List.mem_cons.1 hc with rfl | hc
      · exact ((hk hs0).mono hk1).mono hk2
      · exact (g2 c hc).mono hk2

end

/-! ### the part of the tree outside of the packed sealed subtrees -/

theorem sameBlocks_of_all {sec : Secrets E} {σ σ2 : E.σ} {K : Known T} (hl : ∀ l b, K l b → E.get σ l = .ok b)
    (hr : ∀ l b, K l b → E.get σ2 l = .ok b) (t : PTree T V) (hs : Stored E sec σ t) (h : AllKnown E sec K t.index) :
    SameBlocks E σ σ2 t.nodes := by
  induction t using PTree.induct with
  | leaf i vs =>
    intro n hn l hnl
    rw [nodes, List.mem_singleton] at hn
    subst hn
    cases h with
    | purged _ h1 => rw [hnl] at h1; cases h1
    | leaf _ l' b h1 h2 =>
      rw [show (PTree.leaf i vs).index.link = i.link from rfl, h1] at hnl
      cases hnl
      rw [hl _ _ h2, hr _ _ h2]
  | purgedLeaf i =>
    intro n hn l hnl
    rw [nodes, List.mem_singleton] at hn
    subst hn
    have : i.link = none := stored_here hs
    rw [show (PTree.purgedLeaf (V := V) i).index.link = i.link from rfl, this] at hnl
    cases hnl
  | purgedBranch i =>
    intro n hn l hnl
    rw [nodes, List.mem_singleton] at hn
    subst hn
    have : i.link = none := stored_here hs
    rw [show (PTree.purgedBranch (V := V) i).index.link = i.link from rfl, this] at hnl
    cases hnl
  | branch i cs ih =>
    obtain ⟨l0, r0, g1, g2⟩ := (stored_here hs)
    intro n hn l hnl
    cases h with
    | purged _ h1 => rw [show (PTree.branch i cs).index.link = i.link from rfl, g1] at h1; cases h1
    | branch _ l' b cs' r h1 h2 h3 h4 =>
      rw [g1] at h1
      cases h1
      rcases mem_nodes_branch.mp hn with rfl | ⟨c, hc, hn⟩
      · rw [show (PTree.branch i cs).index.link = i.link from rfl, g1] at hnl
        cases hnl
        rw [hl _ _ h2, hr _ _ h2]
      · have h5 := h3 σ (hl _ _ h2)
        rw [g2] at h5
        injection h5 with h5
        injection h5 with h5 _
        exact ih c hc (stored_child hs hc) (h4 _ (h5 ▸ List.mem_map_of_mem hc)) n hn l hnl

/-- Which nodes are loose does not depend on the limit above the level of the tree. -/
theorem loose_limit (t : PTree T V) {l l' : Int} (h : (t.index.level : Int) ≤ l) (h' : (t.index.level : Int) ≤ l') : t.loose l = t.loose l' := by
  cases t with
  | leaf i vs =>
    have e : ((PTree.leaf i vs).index.level : Int) = 0 := rfl
    rw [e] at h h'
    simp [loose, h, h']
  | purgedLeaf i => rfl
  | purgedBranch i => rfl
  | branch i cs =>
    have e : ((PTree.branch i cs).index.level : Int) = i.level := rfl
    rw [e] at h h'
    have e1 : min l ((i.level : Int) - 1) = (i.level : Int) - 1 := by omega
    have e2 : min l' ((i.level : Int) - 1) = (i.level : Int) - 1 := by omega
    simp only [loose, h, h', e1, e2]

theorem looseL_nodes (cs : List (PTree T V)) : ∀ l : Int, ∀ n ∈ looseL cs l, ∃ c ∈ cs, n ∈ c.nodes := by
  induction cs with
  | nil => intro l n hn; cases hn
  | cons c cs ih =>
    intro l n hn
    unfold looseL at hn
    rcases List.mem_append.1 hn with hn | hn
    · exact ⟨c, by simp, loose_nodes c l n hn⟩
    · obtain ⟨d, hd, hn⟩ := ih _ n hn
      exact ⟨d, by simp [hd], hn⟩

/-- What is outside of the packed sealed subtrees of a tree below a new root. -/
theorem sameBlocks_appended {sec : Secrets E} {σ σ2 : E.σ} {K : Known T} (hl : ∀ l b, K l b → E.get σ l = .ok b)
    (hr : ∀ l b, K l b → E.get σ2 l = .ok b) {i : BranchIndex T} {l : T.Link} {d : Bytes} {x : Nat × Nat} {more : List (Index T)}
    {t0 t : PTree T V} (ht : t.index = .branch i) (hs : Stored E sec σ t) (h1 : i.link = some l) (h2 : K l d) (h3 : t0.index.level < i.level)
    (h4 : ∀ σ, E.get σ l = .ok d → loadBranchFromLink E sec σ l = .ok ⟨t0.index :: more, x⟩) (h5 : ∀ c ∈ more, AllKnown E sec K c)
    (h6 : ∀ c, Stored E sec σ c → c.index = t0.index → c = t0) (h7 : (t0.index.level : Int) ≤ i32max)
    (h8 : ∀ n ∈ t0.loose i32max, ∀ l, n.index.link = some l → ∃ b, K l b) : SameBlocks E σ σ2 (t.loose i32max) := by
  cases t with
  | leaf j vs => cases ht
  | purgedLeaf j => cases ht
  | purgedBranch j => exact fun n hn => by cases hn
  | branch j cs =>
    have ht : j = i := by injection ht
    subst ht
    obtain ⟨l0, r0, g1, g2⟩ := (stored_here hs)
    rw [h1] at g1
    cases g1
    rw [h4 σ (hl _ _ h2)] at g2
    injection g2 with g2
    injection g2 with g2 _
    cases cs with
    | nil => cases g2
    | cons c cs =>
      rw [List.map_cons] at g2
      injection g2 with g3 g4
      have hc := h6 c (stored_child hs (by simp)) g3.symm
      subst hc
      unfold loose
      split
      · exact fun n hn => by cases hn
      · intro n hn k hk
        rcases List.mem_cons.1 hn with rfl | hn
        · rw [show (PTree.branch j (c :: cs)).index.link = j.link from rfl, h1] at hk
          cases hk
          rw [hl _ _ h2, hr _ _ h2]
        · unfold looseL at hn
          rcases List.mem_append.1 hn with hn | hn
          · rw [loose_limit c (l' := i32max) (by omega) h7] at hn
            obtain ⟨b, hb⟩ := h8 n hn k hk
            rw [hl _ _ hb, hr _ _ hb]
          · obtain ⟨e, he, hn⟩ := looseL_nodes _ _ n hn
            exact sameBlocks_of_all hl hr e (stored_child hs (by simp [he])) (h5 _ (g4 ▸ List.mem_map_of_mem he)) n hn k hk

/-- The block of a stored node. -/
theorem stored_block {sec : Secrets E} {σ : E.σ} {n : PTree T V} (h : StoredAt E sec σ n) {l : T.Link} (hl : n.index.link = some l) :
    ∃ b, E.get σ l = .ok b := by
  cases n with
  | leaf i vs =>
    obtain ⟨l', z, r, h1, h2, -⟩ := h
    rw [show (PTree.leaf i vs).index.link = i.link from rfl, h1] at hl
    cases hl
    exact loadLeafFromLink_block h2
  | branch i cs =>
    obtain ⟨l', r, h1, h2⟩ := h
    rw [show (PTree.branch i cs).index.link = i.link from rfl, h1] at hl
    cases hl
    unfold loadBranchFromLink getBlock at h2
    cases hb : E.get σ l with
    | ok b => exact ⟨b, rfl⟩
    | error e => rw [hb] at h2; cases h2
  | purgedLeaf i =>
    have h1 : i.link = none := h
    rw [show (PTree.purgedLeaf (V := V) i).index.link = i.link from rfl, h1] at hl
    cases hl
  | purgedBranch i =>
    have h1 : i.link = none := h
    rw [show (PTree.purgedBranch (V := V) i).index.link = i.link from rfl, h1] at hl
    cases hl

theorem sameBlocks_loose {sec : Secrets E} {σ σ2 : E.σ} {K : Known T} (hl : ∀ l b, K l b → E.get σ l = .ok b)
    (hr : ∀ l b, K l b → E.get σ2 l = .ok b) (t : PTree T V) (hs : Stored E sec σ t) (h : AllKnown E sec K t.index) (l : Int) :
    SameBlocks E σ σ2 (t.loose l) := fun n hn => sameBlocks_of_all hl hr t hs h n (loose_nodes t l n hn)

/-- `extend_unpacked` side by side: below the new root there is the old tree, and everything behind it is new. -/
theorem extendUnpacked_fresh (he : E.Lawful) {K : Known T} {p : Origin T} {p2 : List Bytes} {s s2 : St E} (h : Twin E cx.sec K p p2 s s2) (fuel : Nat)
    (xs : List (T.Key × V)) :
    match extendUnpacked cx fuel xs s with
    | .ok _ s' => ∃ K' s2', extendUnpacked cx fuel xs s2 = .ok () s2' ∧ (∀ l b, K l b → K' l b) ∧ Twin E cx.sec K' p p2 s' s2' ∧
        (Small E s' → xs = [] ∧ s'.root = s.root ∨ (s.root = none ∧ ∃ i, s'.root = some i ∧ AllKnown E cx.sec K' i) ∨
          ∃ a i more l d x, s.root = some a ∧ s'.root = some (.branch i) ∧ i.link = some l ∧ K' l d ∧ a.level < i.level ∧
            (∀ σ, E.get σ l = .ok d → loadBranchFromLink E cx.sec σ l = .ok ⟨a :: more, x⟩) ∧ ∀ c ∈ more, AllKnown E cx.sec K' c)
    | .error e s' => ∃ K' s2', extendUnpacked cx fuel xs s2 = .error e s2' ∧ Twin E cx.sec K' p p2 s' s2' := by
  have h1 : Both cx.sec K p p2 (extendUnpacked0 cx fuel s.root xs) s s2
      fun K' r => xs = [] ∧ r = s.root ∨ (s.root = none ∧ ∃ i, r = some i ∧ AllKnown E cx.sec K' i) ∨
          ∃ a i more l d x, s.root = some a ∧ r = some (.branch i) ∧ i.link = some l ∧ K' l d ∧ a.level < i.level ∧
            (∀ σ, E.get σ l = .ok d → loadBranchFromLink E cx.sec σ l = .ok ⟨a :: more, x⟩) ∧ ∀ c ∈ more, AllKnown E cx.sec K' c := by
    unfold extendUnpacked0
    by_cases hx : xs.isEmpty = true
    · rw [if_pos hx]
      exact Both.pure h fun _ => .inl ⟨List.isEmpty_iff.1 hx, rfl⟩
    · rw [if_neg hx]
      unfold extendAbove
      refine Both.bind (extendAboveWith_fresh he (extend0 cx fuel) u32max xs h) ?_
      rintro K1 ⟨b, rest⟩ s1 s21 hk1 h1 hq1
      cases s.root with
      | none => exact Both.pure h1 fun _ hs => .inr (.inl ⟨rfl, b, rfl, (hq1 hs).2⟩)
      | some a =>
        refine Both.bind (extendBranch_appends he a b _ rest _ h1 fun hs => (hq1 hs).2) ?_
        rintro K2 ⟨r, rest⟩ s3 s23 hk2 h2 hq2
        refine Both.pure h2 fun _ hs _ => ?_
        obtain ⟨-, more, l, d, x, k⟩ := hq2 hs
        exact .inr (.inr ⟨a, r, more, l, d, x, rfl, rfl, k⟩)
  have e1 : ∀ s : St E, extendUnpacked cx fuel xs s = (extendUnpacked0 cx fuel s.root xs >>= fun x => setIndex x) s := fun _ => rfl
  rw [e1, e1, h.root]
  unfold Both at h1
  rw [bind_apply]
  cases h2 : extendUnpacked0 cx fuel s.root xs s with
  | ok a s' =>
    rw [h2] at h1
    obtain ⟨K', s2', g1, g2, g3, g4⟩ := h1
    refine ⟨K', { s2' with root := a }, ?_, g2, ?_, fun hs => (g4 hs).2⟩
    · show EStateM.bind _ _ s2 = _
      unfold EStateM.bind
      rw [g1]
      rfl
    · exact ⟨rfl, g3.offset, g3.puts, g3.alike, g3.left, g3.right, g3.new, Coherent.mono (fun _ _ h => h) rfl g3.co,
        Coherent.mono (fun _ _ h => h) rfl g3.co2⟩
  | error e s' =>
    rw [h2] at h1
    obtain ⟨K', s2', g1, _, g3⟩ := h1
    refine ⟨K', s2', ?_, g3⟩
    show EStateM.bind _ _ s2 = _
    unfold EStateM.bind
    rw [g1]

end Banyan
