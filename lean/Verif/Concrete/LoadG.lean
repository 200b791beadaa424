import Verif.Proofs.Unique
/-
Loading whole trees in any environment, to evaluate statements about loaded trees in the examples.
-/
set_option autoImplicit false
namespace Banyan.Concrete

open PTree

variable {T : TreeTypes} {V : Type}

def loadG (E : Env T V) (sec : Secrets E) (σ : E.σ) : Nat → Index T → Option (PTree T V)
  | 0, _ => none
  | _ + 1, .leaf i =>
    match i.link with
    | none => some (.purgedLeaf i)
    | some l =>
      match loadLeafFromLink E sec σ l with
      | .error _ => none
      | .ok lf =>
        match ZSeq.items E lf.items, decompress E lf.items.data with
        | .ok vs, .ok b => if lf.items.data = [] ∨ b ≠ (vs.map E.encV).flatten then none else some (.leaf i vs)
        | _, _ => none
  | fuel + 1, .branch i =>
    match i.link with
    | none => some (.purgedBranch i)
    | some l =>
      match loadBranchFromLink E sec σ l with
      | .error _ => none
      | .ok b => (b.children.mapM (loadG E sec σ fuel)).map (.branch i)

theorem loadG_stored (E : Env T V) (sec : Secrets E) (σ : E.σ) : ∀ fuel i t, loadG E sec σ fuel i = some t →
    Stored E sec σ t ∧ t.index = i
  | 0, _, _, h => by cases h
  | fuel + 1, .leaf i, t, h => by
    unfold loadG at h
    split at h
    · rename_i hl
      cases h
      exact ⟨(all_purgedLeaf i).mpr hl, rfl⟩
    · rename_i l hl
      split at h
      · cases h
      · rename_i lf hlf
        split at h
        · rename_i vs b h1 h2
          split at h
          · cases h
          · rename_i h3
            cases h
            refine ⟨(all_leaf i vs).mpr ⟨l, lf.items, lf.byteRange, hl, hlf, fun h => h3 (Or.inl h), ?_⟩, rfl⟩
            rw [h2]
            congr 1
            exact Decidable.byContradiction fun h => h3 (Or.inr h)
        · cases h
  | fuel + 1, .branch i, t, h => by
    unfold loadG at h
    split at h
    · rename_i hl
      cases h
      exact ⟨(all_purgedBranch i).mpr hl, rfl⟩
    · rename_i l hl
      split at h
      · cases h
      · rename_i b hb
        cases hm : b.children.mapM (loadG E sec σ fuel) with
        | none => rw [hm] at h; cases h
        | some cs =>
          rw [hm] at h
          cases h
          have hcs : ∀ (is : List (Index T)) (cs : List (PTree T V)), is.mapM (loadG E sec σ fuel) = some cs →
              (∀ c ∈ cs, Stored E sec σ c) ∧ cs.map PTree.index = is := by
            intro is
            induction is with
            | nil => intro cs h; simp at h; subst h; simp
            | cons x is ih =>
              intro cs h
              rw [List.mapM_cons] at h
              cases h1 : loadG E sec σ fuel x with
              | none => rw [h1] at h; simp at h
              | some c =>
                cases h2 : is.mapM (loadG E sec σ fuel) with
                | none => rw [h1, h2] at h; simp at h
                | some cs' =>
                  rw [h1, h2] at h
                  simp at h
                  subst h
                  obtain ⟨a1, a2⟩ := ih cs' h2
                  obtain ⟨b1, b2⟩ := loadG_stored E sec σ fuel x c h1
                  refine ⟨?_, by simp [a2, b2]⟩
                  intro c' hc'
                  simp only [List.mem_cons] at hc'
                  rcases hc' with rfl | hc'
                  · exact b1
                  · exact a1 c' hc'
          obtain ⟨a1, a2⟩ := hcs _ _ hm
          refine ⟨(all_branch i cs).mpr ⟨⟨l, b.byteRange, hl, by rw [hb, a2]⟩, a1⟩, rfl⟩

/-- The loaded tree of a builder. -/
theorem shows_of_loadG {E : Env T V} {cx : Ctx E} {s : St E} {t : PTree T V} (h : s.root.bind (loadG E cx.sec s.store 100) = some t) :
    s.root = some t.index ∧ Stored E cx.sec s.store t := by
  cases hr : s.root with
  | none => rw [hr] at h; cases h
  | some i =>
    rw [hr] at h
    obtain ⟨h1, h2⟩ := loadG_stored E cx.sec s.store 100 i t h
    exact ⟨by rw [h2], h1⟩

end Banyan.Concrete
