import Verif.Proofs.Fresh
import Verif.Proofs.Unique
/-
What `extend` makes of a tree that may be unpacked, two runs side by side: nodes that are not at the right edge stay what they are, and all
other nodes are known.
-/
set_option autoImplicit false
namespace Banyan

open PTree

variable {T : TreeTypes} {V : Type} {E : Env T V} {cx : Ctx E}

/-- The second node is the first one after elements were added at its right edge. -/
inductive EdgeGrown (E : Env T V) (sec : Secrets E) (K : Known T) : Index T → Index T → Prop
  | same (i : Index T) : EdgeGrown E sec K i i
  | fresh (i i' : Index T) : i.level ≤ i'.level → AllKnown E sec K i' → EdgeGrown E sec K i i'
  | branch (i i' : BranchIndex T) (l l' : T.Link) (b b' : Bytes) (init : List (Index T)) (c c' : Index T) (more : List (Index T)) (r r' : Nat × Nat) :
      i.isSealed = false → i.link = some l → K l b → (∀ σ, E.get σ l = .ok b → loadBranchFromLink E sec σ l = .ok ⟨init ++ [c], r⟩) →
      i'.link = some l' → K l' b' → (∀ σ, E.get σ l' = .ok b' → loadBranchFromLink E sec σ l' = .ok ⟨init ++ c' :: more, r'⟩) →
      i'.level ≤ i.level → (∀ d ∈ init, d.level < i'.level) → c'.level < i'.level → EdgeGrown E sec K c c' → (∀ d ∈ more, AllKnown E sec K d) →
      EdgeGrown E sec K (.branch i) (.branch i')
  | above (i c' : Index T) (i' : BranchIndex T) (l' : T.Link) (b' : Bytes) (more : List (Index T)) (r' : Nat × Nat) : EdgeGrown E sec K i c' →
      i'.link = some l' → K l' b' → (∀ σ, E.get σ l' = .ok b' → loadBranchFromLink E sec σ l' = .ok ⟨c' :: more, r'⟩) →
      c'.level < i'.level → (∀ d ∈ more, AllKnown E sec K d) → EdgeGrown E sec K i (.branch i')
  | empty (i : BranchIndex T) (i' : Index T) (l : T.Link) (b : Bytes) (r : Nat × Nat) : i.link = some l → K l b →
      (∀ σ, E.get σ l = .ok b → loadBranchFromLink E sec σ l = .ok ⟨[], r⟩) → EdgeGrown E sec K (.branch i) i'

theorem EdgeGrown.mono {sec : Secrets E} {K K' : Known T} (hk : ∀ l b, K l b → K' l b) {i i' : Index T} (h : EdgeGrown E sec K i i') : EdgeGrown E sec K' i i' := by
  induction h with
  | same i => exact .same i
  | fresh i i' h1 h2 => exact .fresh i i' h1 (h2.mono hk)
  | branch i i' l l' b b' init c c' more r r' h1 h2 h3 h4 h5 h6 h7 h8 h9 h10 _ h12 ih =>
    exact .branch i i' l l' b b' init c c' more r r' h1 h2 (hk _ _ h3) h4 h5 (hk _ _ h6) h7 h8 h9 h10 ih fun d hd => (h12 d hd).mono hk
  | above i c' i' l' b' more r' _ h3 h4 h5 h6 h7 ih =>
    exact .above i c' i' l' b' more r' ih h3 (hk _ _ h4) h5 h6 fun d hd => (h7 d hd).mono hk
  | empty i i' l b r h1 h2 h3 => exact .empty i i' l b r h1 (hk _ _ h2) h3

theorem dropLast_append_last {α : Type} {a : α} {l : List α} (h : l.getLast? = some a) : l.dropLast ++ [a] = l := by
  have hne : l ≠ [] := by rintro rfl; cases h
  rw [List.getLast?_eq_some_getLast hne] at h
  cases h
  exact List.dropLast_concat_getLast hne

section
variable {K : Known T} {p : Origin T} {p2 : List Bytes} {s s2 : St E}

theorem extendLeaf_fresh (he : E.Lawful) (h : Twin E cx.sec K p p2 s s2) (compressed : Bytes) (keys : Option T.KeySeq)
    (xs : List (T.Key × V)) :
    Both cx.sec K p p2 (extendLeaf cx compressed keys xs) s s2 fun K' r => AllKnown E cx.sec K' (.leaf r.1) := by
  unfold extendLeaf
  refine Both.assertBind h fun _ => Both.bind (Both.lift h _) ?_
  rintro K1 ⟨z, sealed, ks, rest⟩ s1 s21 hk1 h1 -
  refine Both.bind (Both.encrypt h1 z _) fun K2 b s2' s22 hk2 h2 _ => Both.bind (Both.put he h2 b) fun K3 l s3 s23 hk3 h3 hq => ?_
  exact Both.pure h3 fun _ hs _ _ => .leaf _ l b rfl (hq hs).2

/-- Extending a branch: the new one is a known block with the given children and others that are known. -/
theorem extendBranch_grown (he : E.Lawful) (children : List (Index T)) (level : Nat) (xs : List (T.Key × V)) (mode : CreateMode)
    (h : Twin E cx.sec K p p2 s s2) :
    Both cx.sec K p p2 (extendBranch cx children level xs mode) s s2 fun K' r => ∃ more l d x, r.1.link = some l ∧ K' l d ∧
      r.1.level ≤ level ∧ (∀ c ∈ children, c.level < r.1.level) ∧
      (∀ σ, E.get σ l = .ok d → loadBranchFromLink E cx.sec σ l = .ok ⟨children ++ more, x⟩) ∧ ∀ c ∈ more, AllKnown E cx.sec K' c := by
  unfold extendBranch
  cases level with
  | zero => exact Both.throw h _
  | succ n =>
    simp only
    unfold extendBranchWith
    refine Both.assertBind h fun _ => Both.assertBind h fun _ => Both.bind (extendBranchLoop_appends (fillNode_fresh he n) _ children xs h) ?_
    rintro K1 ⟨cs, rest⟩ s1 s21 hk1 h1 hq1
    refine Both.bind (newBranch_block he h1 cs mode).grows ?_
    rintro K2 i s3 s23 hk2 h2 hq2
    refine Both.assertBind h2 fun ha => Both.pure h2 fun _ hs hs1 => ?_
    obtain ⟨hs0, more, g1, g2⟩ := hq1 hs1
    obtain ⟨-, -, m, l, d, x, k1, k2, k3, k4, k5⟩ := hq2 hs
    simp only at g1
    subst g1
    refine ⟨more, l, d, x, k3, k4, ?_, fun c hc => ?_, k5, fun c hc => (g2 c hc).mono hk2⟩
    · show i.level ≤ n + 1
      cases hr : rest.isEmpty with
      | true => simpa [hr] using ha
      | false =>
        have : i.level = n + 1 := by simp [hr] at ha; exact ha.1
        omega
    · have := (maxLevel_some k1).1 c (List.mem_append_left _ hc)
      show c.level < i.level
      omega

theorem extendAboveLoop_grown (he : E.Lawful) (a : Index T) (level fuel : Nat) (node : Index T) (xs : List (T.Key × V))
    (h : Twin E cx.sec K p p2 s s2) (hk : Small E s → EdgeGrown E cx.sec K a node) :
    Both cx.sec K p p2 (extendAboveLoop cx level fuel node xs) s s2 fun K' r => EdgeGrown E cx.sec K' a r.1 := by
  induction fuel generalizing K s s2 node xs with
  | zero =>
    unfold extendAboveLoop
    split
    · exact Both.throw h _
    · exact Both.pure h hk
  | succ fuel ih =>
    unfold extendAboveLoop
    split
    · refine Both.bind (extendBranch_grown he [node] _ xs _ h) ?_
      rintro K1 ⟨b, rest⟩ s1 s21 hk1 h1 hq1
      refine (ih (.branch b) rest h1 fun hs => ?_).weaken fun K2 r hr _ => hr
      obtain ⟨hs0, more, l, d, x, g1, g2, g3, g4, g5, g6⟩ := hq1 hs
      exact .above a node b l d more x ((hk hs0).mono hk1) g1 g2 g5 (g4 node (by simp)) g6
    · exact Both.pure h hk

/-- Functions that extend a node at the right edge, and leave the rest as it is. -/
def GrowGrown (cx : Ctx E) (f : Index T → List (T.Key × V) → M E (Index T × List (T.Key × V))) : Prop :=
  ∀ (K : Known T) p p2 (s s2 : St E) i xs, Twin E cx.sec K p p2 s s2 → EdgeKnown E cx.sec K i →
    Both cx.sec K p p2 (f i xs) s s2 fun K' r => EdgeGrown E cx.sec K' i r.1

theorem extendAboveWith_grown (he : E.Lawful) {f : Index T → List (T.Key × V) → M E (Index T × List (T.Key × V))} (hf : GrowGrown cx f)
    (i : Index T) (level : Nat) (xs : List (T.Key × V)) (h : Twin E cx.sec K p p2 s s2) (hk : EdgeKnown E cx.sec K i) :
    Both cx.sec K p p2 (extendAboveWith cx f (some i) level xs) s s2 fun K' r => EdgeGrown E cx.sec K' i r.1 ∧ r.1.level ≤ level := by
  unfold extendAboveWith
  refine Both.ensureBind h fun _ => Both.assertBind h fun _ => Both.bind (Q := fun K' r => EdgeGrown E cx.sec K' i r.1) ?_ ?_
  · exact hf K p p2 s s2 i xs h hk
  · rintro K1 ⟨j, rest⟩ s1 s21 hk1 h1 hq1
    refine Both.bind (extendAboveLoop_grown he i level _ j rest h1 fun hs => (hq1 hs).2) ?_
    rintro K2 ⟨j, rest⟩ s3 s23 hk2 h2 hq2
    refine Both.assertBind h2 fun ha => Both.pure h2 fun _ hs _ => ⟨(hq2 hs).2, ?_⟩
    show j.level ≤ level
    cases hr : rest.isEmpty with
    | true => simpa [hr] using ha
    | false =>
      have : j.level = level := by simp [hr] at ha; exact ha.1
      omega

theorem extend0_grown (he : E.Lawful) (fuel : Nat) : GrowGrown cx (extend0 cx fuel) := by
  induction fuel with
  | zero => intro K p p2 s s2 i xs h hk; exact Both.throw h _
  | succ fuel ih =>
    intro K p p2 s s2 i xs h hk
    unfold extend0
    by_cases hx : (i.isSealed || xs.isEmpty) = true
    · rw [if_pos hx]; exact Both.pure h fun _ => .same i
    · rw [if_neg hx]
      have hns : i.isSealed = false := by
        cases hi : i.isSealed with
        | false => rfl
        | true => rw [hi] at hx; exact absurd rfl hx
      cases i with
      | leaf i =>
        cases hl : i.link with
        | none => simp only [hl]; exact Both.pure h fun _ => .same _
        | some l =>
          simp only [hl]
          have hk' : ∃ b, K l b := by
            cases hk with
            | full _ h1 => rw [hns] at h1; cases h1
            | purged _ h1 => rw [show (Index.leaf i).link = i.link from rfl, hl] at h1; cases h1
            | leaf _ l' b h1 h2 => rw [hl] at h1; cases h1; exact ⟨b, h2⟩
          obtain ⟨b, hb⟩ := hk'
          refine Both.bind (Both.loadLeaf h hb) fun K1 leaf s1 s21 hk1 h1 _ => Both.bind (extendLeaf_fresh he h1 _ _ xs) ?_
          rintro K2 ⟨l, rest⟩ s3 s23 hk2 h2 hq2
          exact Both.pure h2 fun _ hs _ => .fresh _ _ (Nat.zero_le _) (hq2 hs).2
      | branch i =>
        cases hl : i.link with
        | none => simp only [hl]; exact Both.pure h fun _ => .same _
        | some l =>
          simp only [hl]
          cases hk with
          | full _ h1 => rw [hns] at h1; cases h1
          | purged _ h1 => rw [show (Index.branch i).link = i.link from rfl, hl] at h1; cases h1
          | branch _ l' b cs r h1 h2 h3 h4 =>
            rw [hl] at h1
            cases h1
            refine Both.loadBranch he h h2 h3 fun s1 s21 _ h1 => ?_
            refine Both.bind (Q := fun K' r => cs = [] ∨ ∃ init c c', cs = init ++ [c] ∧ r.1 = init ++ [c'] ∧ EdgeGrown E cx.sec K' c c') ?_ ?_
            · unfold extendLast
              cases hc : cs.getLast? with
              | none => simp only; exact Both.pure h1 fun _ => .inl (List.getLast?_eq_none_iff.1 hc)
              | some c =>
                simp only
                refine Both.bind (extendAboveWith_grown he ih c _ xs h1 (h4 c hc)) ?_
                rintro K2 ⟨i2, rest⟩ s3 s23 hk2 h2 hq2
                exact Both.pure h2 fun _ hs => .inr ⟨cs.dropLast, c, i2, (dropLast_append_last hc).symm, rfl, (hq2 hs).2.1⟩
            · rintro K2 ⟨cs', rest⟩ s3 s23 hk2 h2' hq2
              refine Both.bind (extendBranch_grown he cs' _ rest _ h2').grows ?_
              rintro K3 ⟨b', rest⟩ s4 s24 hk3 h3' hq3
              refine Both.pure h3' fun hs _ _ => ?_
              obtain ⟨hs3, -, more, l', d, x, k1, k2, k3, k4, k5, k6⟩ := hq3 hs
              rcases (hq2 hs3).2 with rfl | ⟨init, c, c', e1, e2, e3⟩
              · exact .empty i _ l b r hl (hk3 _ _ (hk2 _ _ h2)) h3
              · simp only at e2
                subst e1 e2
                exact .branch i b' l l' b d init c c' more r x hns hl (hk3 _ _ (hk2 _ _ h2)) h3 k1 k2 (by simpa using k5) k3
                  (fun d hd => k4 d (by simp [hd])) (k4 c' (by simp)) (e3.mono hk3) k6

end

/-! ### the part of the tree outside of the packed sealed subtrees -/

/-- The right edge is outside of the packed sealed subtrees. -/
theorem edge_loose (t : PTree T V) : ∀ l : Int, ∀ n ∈ t.edge, n ∈ t.loose l := by
  induction t using PTree.induct with
  | leaf i vs =>
    intro l n hn
    unfold edge at hn
    unfold loose
    split at hn
    · cases hn
    · rename_i h
      rwa [if_neg fun h' => h h'.1]
  | purgedLeaf i => intro l n hn; cases hn
  | purgedBranch i => intro l n hn; cases hn
  | branch i cs ih =>
    intro l n hn
    unfold edge at hn
    unfold loose
    split at hn
    · cases hn
    · rename_i h
      rw [if_neg fun h' => h h'.1]
      rcases List.mem_cons.1 hn with rfl | hn
      · exact List.mem_cons_self ..
      · refine List.mem_cons_of_mem _ ?_
        have key : ∀ (cs : List (PTree T V)), (∀ c ∈ cs, ∀ l : Int, ∀ n ∈ c.edge, n ∈ c.loose l) → ∀ l : Int, ∀ n ∈ edgeL cs, n ∈ looseL cs l := by
          intro cs
          induction cs with
          | nil => intro _ l n hn; cases hn
          | cons c cs ih2 =>
            intro ih l n hn
            unfold looseL
            cases cs with
            | nil => exact List.mem_append_left _ (ih c (by simp) l n hn)
            | cons d cs => exact List.mem_append_right _ (ih2 (fun c hc => ih c (List.mem_cons_of_mem _ hc)) _ n hn)
        exact key cs ih _ n hn

theorem looseL_grown {P : PTree T V → Prop} {c c' : PTree T V} {more : List (PTree T V)} (hc : ∀ l : Int, ∀ n ∈ c'.loose l, P n ∨ n ∈ c.loose l)
    (hm : ∀ d ∈ more, ∀ n ∈ d.nodes, P n) (init : List (PTree T V)) :
    ∀ l : Int, ∀ n ∈ looseL (init ++ c' :: more) l, P n ∨ n ∈ looseL (init ++ [c]) l := by
  induction init with
  | nil =>
    intro l n hn
    rw [List.nil_append] at hn ⊢
    unfold looseL at hn ⊢
    rcases List.mem_append.1 hn with hn | hn
    · exact (hc l n hn).imp id (List.mem_append_left _)
    · obtain ⟨d, hd, hn⟩ := looseL_nodes _ _ n hn
      exact .inl (hm d hd n hn)
  | cons a init ih =>
    intro l n hn
    rw [List.cons_append] at hn ⊢
    unfold looseL at hn ⊢
    rcases List.mem_append.1 hn with hn | hn
    · exact .inr (List.mem_append_left _ hn)
    · exact (ih _ n hn).imp id (List.mem_append_right _)

/-- The blocks of all nodes that are not purged are known. -/
theorem allKnown_nodes {sec : Secrets E} {σ : E.σ} {K : Known T} (hl : ∀ l b, K l b → E.get σ l = .ok b)
    (t : PTree T V) (hs : Stored E sec σ t) (h : AllKnown E sec K t.index) :
    ∀ n ∈ t.nodes, ∀ l, n.index.link = some l → ∃ b, K l b := by
  induction t using PTree.induct with
  | leaf i vs =>
    intro n hn l hnl
    rw [nodes, List.mem_singleton] at hn
    subst hn
    cases h with
    | purged _ h1 => rw [hnl] at h1; cases h1
    | leaf _ l' b h1 h2 =>
      rw [show (PTree.leaf i vs).index.link = i.link from rfl, h1] at hnl
      cases hnl
      exact ⟨b, h2⟩
  | purgedLeaf i =>
    intro n hn l hnl
    rw [nodes, List.mem_singleton] at hn
    subst hn
    have : i.link = none := stored_here hs
    rw [show (PTree.purgedLeaf (V := V) i).index.link = i.link from rfl, this] at hnl
    cases hnl
  | purgedBranch i =>
    intro n hn l hnl
    rw [nodes, List.mem_singleton] at hn
    subst hn
    have : i.link = none := stored_here hs
    rw [show (PTree.purgedBranch (V := V) i).index.link = i.link from rfl, this] at hnl
    cases hnl
  | branch i cs ih =>
    obtain ⟨l0, r0, g1, g2⟩ := (stored_here hs)
    intro n hn l hnl
    cases h with
    | purged _ h1 => rw [show (PTree.branch i cs).index.link = i.link from rfl, g1] at h1; cases h1
    | branch _ l' b cs' r h1 h2 h3 h4 =>
      rw [g1] at h1
      cases h1
      rcases mem_nodes_branch.mp hn with rfl | ⟨c, hc, hn⟩
      · rw [show (PTree.branch i cs).index.link = i.link from rfl, g1] at hnl
        cases hnl
        exact ⟨b, h2⟩
      · have h5 := h3 σ (hl _ _ h2)
        rw [g2] at h5
        injection h5 with h5
        injection h5 with h5 _
        exact ih c hc (stored_child hs hc) (h4 _ (h5 ▸ List.mem_map_of_mem hc)) n hn l hnl

theorem stored_list_unique (he : E.Lawful) {sec : Secrets E} {σ : E.σ} : {a b : List (PTree T V)} → (∀ c ∈ a, Stored E sec σ c) →
    (∀ c ∈ b, Stored E sec σ c) → a.map index = b.map index → a = b
  | [], [], _, _, _ => rfl
  | [], _ :: _, _, _, h => by cases h
  | _ :: _, [], _, _, h => by cases h
  | x :: a, y :: b, ha, hb, h => by
    rw [List.map_cons, List.map_cons] at h
    injection h with h1 h2
    rw [Stored.unique he (ha x (by simp)) (hb y (by simp)) h1,
      stored_list_unique he (fun c hc => ha c (List.mem_cons_of_mem _ hc)) (fun c hc => hb c (List.mem_cons_of_mem _ hc)) h2]

/-- The children of a stored branch. -/
theorem stored_children {sec : Secrets E} {σ : E.σ} {t : PTree T V} {i : BranchIndex T} {l : T.Link} {b : Bytes} {is : List (Index T)} {r : Nat × Nat}
    (hs : Stored E sec σ t) (ht : t.index = .branch i) (h1 : i.link = some l) (h2 : E.get σ l = .ok b)
    (h3 : ∀ σ, E.get σ l = .ok b → loadBranchFromLink E sec σ l = .ok ⟨is, r⟩) : ∃ cs, t = .branch i cs ∧ cs.map index = is := by
  cases t with
  | leaf j vs => cases ht
  | purgedLeaf j => cases ht
  | purgedBranch j =>
    have hj : j.link = none := stored_here hs
    have : j = i := by injection ht
    subst this
    rw [h1] at hj
    cases hj
  | branch j cs =>
    have : j = i := by injection ht
    subst this
    obtain ⟨l0, r0, g1, g2⟩ := (stored_here hs)
    rw [h1] at g1
    cases g1
    rw [h3 σ h2] at g2
    injection g2 with g2
    injection g2 with g2 _
    exact ⟨cs, rfl, g2.symm⟩

/-- What is outside of the packed sealed subtrees of a tree at whose right edge elements were added: known nodes, and nodes that were outside of
the packed sealed subtrees before. -/
theorem EdgeGrown.loose (he : E.Lawful) {sec : Secrets E} {σ : E.σ} {K : Known T} (hl : ∀ l b, K l b → E.get σ l = .ok b) {i i' : Index T}
    (h : EdgeGrown E sec K i i') {t t' : PTree T V} (hs : Stored E sec σ t) (hw : WF E t) (hs' : Stored E sec σ t') (ht : t.index = i)
    (ht' : t'.index = i') : i.level ≤ i'.level ∧
    ∀ l : Int, ∀ n ∈ t'.loose l, (∀ k, n.index.link = some k → ∃ b, K k b) ∨ n ∈ t.loose l := by
  induction h generalizing t t' with
  | same i =>
    have := Stored.unique he hs hs' (ht.trans ht'.symm)
    subst this
    exact ⟨Nat.le_refl _, fun _ _ h => .inr h⟩
  | fresh i i' h1 h2 =>
    exact ⟨h1, fun l n hn => .inl (allKnown_nodes hl t' hs' (ht' ▸ h2) n (loose_nodes t' l n hn))⟩
  | empty i i' l b r h1 h2 h3 =>
    obtain ⟨cs, rfl, hcs⟩ := stored_children hs ht h1 (hl _ _ h2) h3
    exact absurd (List.map_eq_nil_iff.1 hcs) (All.root hw).1
  | above i c' i' l' b' more r' _ h3 h4 h5 h6 h7 ih =>
    obtain ⟨cs, rfl, hcs⟩ := stored_children hs' ht' h3 (hl _ _ h4) h5
    obtain ⟨c, more', rfl, hc, hm⟩ := List.map_eq_cons_iff.1 hcs
    obtain ⟨k1, k2⟩ := ih hs hw (stored_child hs' (by simp)) ht hc
    have hlev : i.level < i'.level := by omega
    refine ⟨Nat.le_of_lt hlev, fun l n hn => ?_⟩
    unfold PTree.loose at hn
    split at hn
    · cases hn
    · rcases List.mem_cons.1 hn with rfl | hn
      · exact .inl fun k hk => by
          rw [show (PTree.branch i' (c :: more')).index.link = i'.link from rfl, h3] at hk
          cases hk
          exact ⟨b', h4⟩
      · have e : t.loose (min l ((i'.level : Int) - 1)) = t.loose l := by
          by_cases hle : l ≤ (i'.level : Int) - 1
          · rw [Int.min_eq_left hle]
          · rw [Int.min_eq_right (by omega)]
            exact loose_limit t (by rw [ht]; omega) (by rw [ht]; omega)
        unfold looseL at hn
        rcases List.mem_append.1 hn with hn | hn
        · rw [← e]
          exact k2 _ n hn
        · obtain ⟨d, hd, hn⟩ := looseL_nodes _ _ n hn
          exact .inl (allKnown_nodes hl d (stored_child hs' (by simp [hd])) (h7 _ (hm ▸ List.mem_map_of_mem hd)) n hn)
  | branch i i' l l' b b' init c c' more r r' h1 h2 h3 h4 h5 h6 h7 h8 h9 h10 _ h12 ih =>
    obtain ⟨cs, rfl, hcs⟩ := stored_children hs ht h2 (hl _ _ h3) h4
    obtain ⟨cs', rfl, hcs'⟩ := stored_children hs' ht' h5 (hl _ _ h6) h7
    obtain ⟨ts, us, rfl, hts, hus⟩ := List.map_eq_append_iff.1 hcs
    obtain ⟨u, us, rfl, hu, hnil⟩ := List.map_eq_cons_iff.1 hus
    have := List.map_eq_nil_iff.1 hnil
    subst this
    obtain ⟨ts', us', rfl, hts', hus'⟩ := List.map_eq_append_iff.1 hcs'
    obtain ⟨u', more', rfl, hu', hm⟩ := List.map_eq_cons_iff.1 hus'
    have := stored_list_unique he (a := ts') (b := ts) (fun c hc => stored_child hs' (by simp [hc])) (fun c hc => stored_child hs (by simp [hc]))
      (hts'.trans hts.symm)
    subst this
    obtain ⟨-, -, ⟨d, hd, hdl⟩, -⟩ := All.root hw
    obtain ⟨k1, k2⟩ := ih (stored_child hs (by simp)) (All.child hw (by simp)) (stored_child hs' (by simp)) hu hu'
    have hlev : i.level = i'.level := by
      rcases List.mem_append.1 hd with hd | hd
      · have := h9 d.index (hts ▸ List.mem_map_of_mem hd)
        omega
      · rw [List.mem_singleton.1 hd, hu] at hdl
        omega
    refine ⟨Nat.le_of_eq hlev, fun l n hn => ?_⟩
    unfold PTree.loose at hn ⊢
    rw [if_neg fun h' => by rw [h1] at h'; exact absurd h'.1 (by simp)]
    split at hn
    · cases hn
    · rcases List.mem_cons.1 hn with rfl | hn
      · exact .inl fun k hk => by
          rw [show (PTree.branch i' (ts' ++ u' :: more')).index.link = i'.link from rfl, h5] at hk
          cases hk
          exact ⟨b', h6⟩
      · rw [← hlev] at hn
        exact (looseL_grown (P := fun n => ∀ k, n.index.link = some k → ∃ b, K k b) k2 (fun d hd => allKnown_nodes hl d (stored_child hs' (by simp [hd]))
          (h12 _ (hm ▸ List.mem_map_of_mem hd))) ts' _ n hn).imp id (List.mem_cons_of_mem _)

/-- `extend` side by side. -/
theorem extend_grown (he : E.Lawful) {K : Known T} {p : Origin T} {p2 : List Bytes} {s s2 : St E} (h : Twin E cx.sec K p p2 s s2) (fuel : Nat)
    (xs : List (T.Key × V)) (hk : ∀ i, s.root = some i → EdgeKnown E cx.sec K i) :
    match extend cx fuel xs s with
    | .ok _ s' => ∃ K' s2', extend cx fuel xs s2 = .ok () s2' ∧ (∀ l b, K l b → K' l b) ∧ Twin E cx.sec K' p p2 s' s2' ∧
        (Small E s' → s'.root = s.root ∨ (s.root = none ∧ ∃ i, s'.root = some i ∧ AllKnown E cx.sec K' i) ∨
          ∃ a i, s.root = some a ∧ s'.root = some i ∧ EdgeGrown E cx.sec K' a i)
    | .error e s' => ∃ K' s2', extend cx fuel xs s2 = .error e s2' ∧ Twin E cx.sec K' p p2 s' s2' := by
  unfold extend
  by_cases hx : xs.isEmpty = true
  · simp only [if_pos hx]
    exact ⟨K, s2, rfl, fun _ _ h => h, h, fun _ => .inl rfl⟩
  · simp only [if_neg hx]
    have h1 : Both cx.sec K p p2 (extendAboveWith cx (extend0 cx fuel) s.root u32max xs) s s2 fun K' r =>
        (s.root = none ∧ AllKnown E cx.sec K' r.1) ∨ ∃ a, s.root = some a ∧ EdgeGrown E cx.sec K' a r.1 := by
      cases hr : s.root with
      | none => exact (extendAboveWith_fresh he (extend0 cx fuel) u32max xs h).weaken fun K' r hr => .inl ⟨rfl, hr⟩
      | some a =>
        exact (extendAboveWith_grown he (extend0_grown he fuel) a u32max xs h (hk a hr)).weaken fun K' r hr => .inr ⟨a, rfl, hr.1⟩
    have e1 : ∀ s : St E, (getIndex >>= fun index => extendAbove cx fuel index u32max xs >>= fun x => setIndex (some x.1)) s =
        (extendAboveWith cx (extend0 cx fuel) s.root u32max xs >>= fun x => setIndex (some x.1)) s := fun _ => rfl
    rw [e1, e1, h.root]
    unfold Both at h1
    rw [bind_apply]
    cases h2 : extendAboveWith cx (extend0 cx fuel) s.root u32max xs s with
    | ok a s' =>
      rw [h2] at h1
      obtain ⟨K', s2', g1, g2, g3, g4⟩ := h1
      refine ⟨K', { s2' with root := some a.1 }, ?_, g2, ?_, fun hs => ?_⟩
      · show EStateM.bind _ _ s2 = _
        unfold EStateM.bind
        rw [g1]
        rfl
      · exact ⟨rfl, g3.offset, g3.puts, g3.alike, g3.left, g3.right, g3.new, Coherent.mono (fun _ _ h => h) rfl g3.co,
          Coherent.mono (fun _ _ h => h) rfl g3.co2⟩
      · rcases (g4 hs).2 with ⟨e, h⟩ | ⟨b, e, h⟩
        · exact .inr (.inl ⟨e, a.1, rfl, h⟩)
        · exact .inr (.inr ⟨b, a.1, e, rfl, h⟩)
    | error e s' =>
      rw [h2] at h1
      obtain ⟨K', s2', g1, _, g3⟩ := h1
      refine ⟨K', s2', ?_, g3⟩
      show EStateM.bind _ _ s2 = _
      unfold EStateM.bind
      rw [g1]

end Banyan
