import Verif.Proofs.Observe
/-
The loaded tree is determined by the store and the root.
-/
set_option autoImplicit false
namespace Banyan

open PTree

variable {T : TreeTypes} {V : Type} {E : Env T V} {cx : Ctx E}

theorem encV_inj (h : E.Lawful) : ∀ vs ws : List V, (vs.map E.encV).flatten = (ws.map E.encV).flatten → vs = ws
  | [], [], _ => rfl
  | [], w :: ws, he => by
    simp only [List.map_nil, List.flatten_nil, List.map_cons, List.flatten_cons] at he
    exact absurd (List.append_eq_nil_iff.mp he.symm).1 (h.encV_ne w)
  | v :: vs, [], he => by
    simp only [List.map_nil, List.flatten_nil, List.map_cons, List.flatten_cons] at he
    exact absurd (List.append_eq_nil_iff.mp he).1 (h.encV_ne v)
  | v :: vs, w :: ws, he => by
    simp only [List.map_cons, List.flatten_cons] at he
    have h1 := h.item_encV v (vs.map E.encV).flatten
    rw [he, h.item_encV w] at h1
    simp only [Except.ok.injEq, Prod.mk.injEq] at h1
    have h2 := h.decV_encV v
    rw [← h1.1, h.decV_encV w] at h2
    cases h2
    rw [encV_inj h vs ws h1.2.symm]

theorem Stored.unique (h : E.Lawful) {sec : Secrets E} {σ : E.σ} {t t' : PTree T V} (h1 : Stored E sec σ t)
    (h2 : Stored E sec σ t') (hi : t.index = t'.index) : t = t' := by
  induction t using PTree.induct generalizing t' with
  | leaf i vs =>
    obtain ⟨l, z, r, a1, a2, a3, a4⟩ := All.root h1
    cases t' with
    | leaf j ws =>
      simp only [PTree.index, Index.leaf.injEq] at hi
      subst hi
      obtain ⟨l', z', r', b1, b2, b3, b4⟩ := All.root h2
      rw [a1] at b1
      cases b1
      rw [a2] at b2
      cases b2
      rw [a4] at b4
      simp only [Except.ok.injEq] at b4
      rw [encV_inj h _ _ b4]
    | purgedLeaf j =>
      simp only [PTree.index, Index.leaf.injEq] at hi
      subst hi
      have := All.root h2
      simp only [StoredAt] at this
      rw [this] at a1
      cases a1
    | branch j cs => simp [PTree.index] at hi
    | purgedBranch j => simp [PTree.index] at hi
  | purgedLeaf i =>
    have a1 : i.link = none := All.root h1
    cases t' with
    | purgedLeaf j =>
      simp only [PTree.index, Index.leaf.injEq] at hi
      rw [hi]
    | leaf j ws =>
      simp only [PTree.index, Index.leaf.injEq] at hi
      subst hi
      obtain ⟨l', z', r', b1, _⟩ := All.root h2
      rw [a1] at b1
      cases b1
    | branch j cs => simp [PTree.index] at hi
    | purgedBranch j => simp [PTree.index] at hi
  | purgedBranch i =>
    have a1 : i.link = none := All.root h1
    cases t' with
    | purgedBranch j =>
      simp only [PTree.index, Index.branch.injEq] at hi
      rw [hi]
    | branch j cs =>
      simp only [PTree.index, Index.branch.injEq] at hi
      subst hi
      obtain ⟨l', r', b1, _⟩ := All.root h2
      rw [a1] at b1
      cases b1
    | leaf j cs => simp [PTree.index] at hi
    | purgedLeaf j => simp [PTree.index] at hi
  | branch i cs ih =>
    obtain ⟨l, r, a1, a2⟩ := All.root h1
    cases t' with
    | branch j ds =>
      simp only [PTree.index, Index.branch.injEq] at hi
      subst hi
      obtain ⟨l', r', b1, b2⟩ := All.root h2
      rw [a1] at b1
      cases b1
      rw [a2] at b2
      simp only [Except.ok.injEq, Branch.mk.injEq] at b2
      have hb := b2.1
      have h3 : ∀ c ∈ cs, Stored E sec σ c := fun c hc => All.child h1 hc
      have h4 : ∀ c ∈ ds, Stored E sec σ c := fun c hc => All.child h2 hc
      suffices cs = ds by rw [this]
      clear h1 h2 a2 b2
      induction cs generalizing ds with
      | nil => cases ds with
        | nil => rfl
        | cons d ds => cases hb
      | cons c cs ih2 => cases ds with
        | nil => cases hb
        | cons d ds =>
          simp only [List.map_cons, List.cons.injEq] at hb
          rw [ih c (by simp) (h3 c (by simp)) (h4 d (by simp)) hb.1,
            ih2 (fun c hc => ih c (by simp [hc])) ds hb.2 (fun c hc => h3 c (by simp [hc])) (fun c hc => h4 c (by simp [hc]))]
    | purgedBranch j =>
      simp only [PTree.index, Index.branch.injEq] at hi
      subst hi
      have := All.root h2
      simp only [StoredAt] at this
      rw [this] at a1
      cases a1
    | leaf j cs => simp [PTree.index] at hi
    | purgedLeaf j => simp [PTree.index] at hi

theorem Loaded.unique (h : E.Lawful) {s : St E} {t t' : Option (PTree T V)} (h1 : Loaded cx s t) (h2 : Loaded cx s t') : t = t' := by
  have hr := h1.root
  rw [h2.root] at hr
  cases t <;> cases t' <;> simp at hr
  · rfl
  · rw [Stored.unique h (h1.stored _ rfl) (h2.stored _ rfl) hr.symm]

end Banyan
