import Verif.Concrete.States
/-
A query by key for the concrete tree types, like the ones in `banyan/tests/ops.rs`.
-/
set_option autoImplicit false
namespace Banyan.Concrete

def maskWith : List Bool → List Bool → List Bool
  | [], _ => []
  | m :: ms, [] => m :: ms
  | m :: ms, p :: ps => (m && p) :: maskWith ms ps

theorem length_maskWith : ∀ a b, (maskWith a b).length = a.length
  | [], _ => rfl
  | _ :: _, [] => rfl
  | _ :: ms, _ :: ps => by simp [maskWith, length_maskWith ms ps]

theorem maskWith_get : ∀ (a b : List Bool) (j : Nat) (p : Bool), b[j]? = some p → (maskWith a b)[j]? = (a[j]?).map (· && p)
  | [], _, _, _, _ => by simp [maskWith]
  | _ :: _, [], _, _, h => by simp at h
  | m :: ms, q :: ps, 0, p, h => by
    simp only [List.getElem?_cons_zero, Option.some.injEq] at h
    simp [maskWith, h]
  | m :: ms, q :: ps, j + 1, p, h => by
    simp only [List.getElem?_cons_succ] at h
    simpa [maskWith] using maskWith_get ms ps j p h

theorem maskWith_none : ∀ (a b : List Bool) (j : Nat), b[j]? = none → (maskWith a b)[j]? = a[j]?
  | [], _, _, _ => by simp [maskWith]
  | _ :: _, [], _, _ => by simp [maskWith]
  | m :: ms, q :: ps, 0, h => by simp at h
  | m :: ms, q :: ps, j + 1, h => by
    simp only [List.getElem?_cons_succ] at h
    simpa [maskWith] using maskWith_none ms ps j h

def keyBits (lo hi : Nat) (ks : List Nat) : List Bool := ks.map fun k => decide (lo ≤ k ∧ k ≤ hi)
def sumBits (lo hi : Nat) (ss : List (Nat × Nat)) : List Bool := ss.map fun s => decide (lo ≤ s.2 ∧ s.1 ≤ hi)

theorem keyBits_get {lo hi : Nat} {ks : List Nat} {j k : Nat} (h : ks[j]? = some k) :
    (keyBits lo hi ks)[j]? = some (decide (lo ≤ k ∧ k ≤ hi)) := by
  unfold keyBits
  rw [List.getElem?_map, h]
  rfl

theorem sumBits_get {lo hi : Nat} {ks : List (Nat × Nat)} {j : Nat} {s : Nat × Nat} (h : ks[j]? = some s) :
    (sumBits lo hi ks)[j]? = some (decide (lo ≤ s.2 ∧ s.1 ≤ hi)) := by
  unfold sumBits
  rw [List.getElem?_map, h]
  rfl

/-- The elements whose key is in the given range (inclusive). -/
def keyRange (lo hi : Nat) : Query types where
  containing := fun _ i mask => maskWith mask (keyBits lo hi i.keys)
  intersecting := fun _ i mask => maskWith mask (sumBits lo hi i.summaries)
  len_containing := fun _ _ _ => length_maskWith _ _
  len_intersecting := fun _ _ _ => length_maskWith _ _

theorem keyRange_queryFor (lo hi : Nat) :
    QueryFor (keyRange lo hi) covers (fun _ (k : Nat) => decide (lo ≤ k ∧ k ≤ hi)) where
  containing := by
    intro o i mask j (k : Nat) hm hk
    exact maskWith_get _ _ _ _ (keyBits_get hk)
  intersecting_le := by
    intro o i mask j hm h
    have h' : (maskWith mask (sumBits lo hi i.summaries))[j]? = some true := h
    cases hb : (sumBits lo hi i.summaries)[j]? with
    | none => rw [maskWith_none _ _ _ hb] at h'; exact h'
    | some p =>
      rw [maskWith_get _ _ _ _ hb] at h'
      cases hmj : mask[j]? with
      | none => rw [hmj] at h'; cases h'
      | some b =>
        rw [hmj] at h'
        cases b with
        | true => rfl
        | false => simp at h'
  intersecting := by
    intro o i mask j (s : Nat × Nat) hm hs hmj h o' (k : Nat) h1 h2 hc
    have h' : (maskWith mask (sumBits lo hi i.summaries))[j]? = some false := h
    rw [maskWith_get _ _ _ (decide (lo ≤ s.2 ∧ s.1 ≤ hi)) (sumBits_get hs), hmj] at h'
    obtain ⟨c1, c2⟩ := hc
    simp only [Option.map_some, Bool.true_and, Option.some.injEq, decide_eq_false_iff_not] at h'
    simp only [decide_eq_false_iff_not]
    omega

end Banyan.Concrete
