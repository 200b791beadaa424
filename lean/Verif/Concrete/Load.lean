import Verif.Proofs.Unique
import Verif.Concrete.States
/-
Loading whole trees, to evaluate statements about loaded trees in the examples.
-/
set_option autoImplicit false
namespace Banyan.Concrete

open PTree

def loadP (cfg : Config) (s : St env) : Nat → Index types → Option (PTree types Nat)
  | 0, _ => none
  | _ + 1, .leaf i =>
    match i.link with
    | none => some (.purgedLeaf i)
    | some l =>
      match loadLeafFromLink env (ctx cfg).sec s.store l with
      | .error _ => none
      | .ok lf =>
        match ZSeq.items env lf.items, decompress env lf.items.data with
        | .ok vs, .ok b => if lf.items.data = [] ∨ b ≠ (vs.map env.encV).flatten then none else some (.leaf i vs)
        | _, _ => none
  | fuel + 1, .branch i =>
    match i.link with
    | none => some (.purgedBranch i)
    | some l =>
      match loadBranchFromLink env (ctx cfg).sec s.store l with
      | .error _ => none
      | .ok b => (b.children.mapM (loadP cfg s fuel)).map (.branch i)

theorem loadP_stored (cfg : Config) (s : St env) : ∀ fuel i t, loadP cfg s fuel i = some t →
    Stored env (ctx cfg).sec s.store t ∧ t.index = i
  | 0, _, _, h => by cases h
  | fuel + 1, .leaf i, t, h => by
    unfold loadP at h
    split at h
    · rename_i hl
      cases h
      exact ⟨(all_purgedLeaf i).mpr hl, rfl⟩
    · rename_i l hl
      split at h
      · cases h
      · rename_i lf hlf
        split at h
        · rename_i vs b h1 h2
          split at h
          · cases h
          · rename_i h3
            cases h
            refine ⟨(all_leaf i vs).mpr ⟨l, lf.items, lf.byteRange, hl, hlf, fun h => h3 (Or.inl h), ?_⟩, rfl⟩
            rw [h2]
            congr 1
            exact Decidable.byContradiction fun h => h3 (Or.inr h)
        · cases h
  | fuel + 1, .branch i, t, h => by
    unfold loadP at h
    split at h
    · rename_i hl
      cases h
      exact ⟨(all_purgedBranch i).mpr hl, rfl⟩
    · rename_i l hl
      split at h
      · cases h
      · rename_i b hb
        cases hm : b.children.mapM (loadP cfg s fuel) with
        | none => rw [hm] at h; cases h
        | some cs =>
          rw [hm] at h
          cases h
          have hcs : ∀ (is : List (Index types)) (cs : List (PTree types Nat)), is.mapM (loadP cfg s fuel) = some cs →
              (∀ c ∈ cs, Stored env (ctx cfg).sec s.store c) ∧ cs.map PTree.index = is := by
            intro is
            induction is with
            | nil => intro cs h; simp at h; subst h; simp
            | cons x is ih =>
              intro cs h
              rw [List.mapM_cons] at h
              cases h1 : loadP cfg s fuel x with
              | none => rw [h1] at h; simp at h
              | some c =>
                cases h2 : is.mapM (loadP cfg s fuel) with
                | none => rw [h1, h2] at h; simp at h
                | some cs' =>
                  rw [h1, h2] at h
                  simp at h
                  subst h
                  obtain ⟨a1, a2⟩ := ih cs' h2
                  obtain ⟨b1, b2⟩ := loadP_stored cfg s fuel x c h1
                  refine ⟨?_, by simp [a2, b2]⟩
                  intro c' hc'
                  simp only [List.mem_cons] at hc'
                  rcases hc' with rfl | hc'
                  · exact b1
                  · exact a1 c' hc'
          obtain ⟨a1, a2⟩ := hcs _ _ hm
          refine ⟨(all_branch i cs).mpr ⟨⟨l, b.byteRange, hl, by rw [hb, a2]⟩, a1⟩, rfl⟩

/-- The loaded tree of a builder (`none` also if something cannot be loaded). -/
def loaded (cfg : Config) (s : St env) : Option (PTree types Nat) := s.root.bind (loadP cfg s 100)

/-- What `loaded` returns for a reachable tree is the loaded tree of the specification. -/
theorem loaded_spec {cfg : Config} (ok : (ctx cfg).Ok) {s : St env} (hr : Reach (ctx cfg) s) (hs : Small env s)
    (h : (loaded cfg s).isSome = true) : Loaded (ctx cfg) s (loaded cfg s) := by
  obtain ⟨t, hi⟩ := ok.inv hr hs
  have hl := hi.holds.loaded
  suffices loaded cfg s = t by rw [this]; exact hl
  have hroot := hl.root
  unfold loaded at h ⊢
  rw [hroot] at h ⊢
  cases t with
  | none => rfl
  | some t =>
    simp only [Option.map_some, Option.bind_some] at h ⊢
    cases hx : loadP cfg s 100 t.index with
    | none => rw [hx] at h; cases h
    | some u =>
      obtain ⟨h1, h2⟩ := loadP_stored cfg s 100 _ u hx
      rw [Stored.unique env_lawful h1 (hl.stored t rfl) h2]

/-- The leaves of the tree of a builder, with offsets. -/
def leaves (cfg : Config) (s : St env) : List (Nat × LeafIndex types) :=
  match loaded cfg s with
  | some t => t.leavesAt 0
  | none => []

end Banyan.Concrete
