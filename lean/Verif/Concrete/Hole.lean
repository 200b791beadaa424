import Verif.Concrete.States
import Verif.Spec.Damage
import Verif.Spec.Repair
/-
Damaged states of the concrete environment.
-/
set_option autoImplicit false
namespace Banyan.Concrete

def punch (ns : List Nat) (σ : Store) : Store := { σ with blocks := ns.foldl (fun b n => b.set n none) σ.blocks }

/-- The same state, but some blocks are lost, and nothing is cached. -/
def hole (ns : List Nat) (s : St env) : St env := { s with store := punch ns s.store, cache := [] }

theorem punch_get (ns : List Nat) (σ : Store) (l : Nat) (b : Bytes) (h : (punch ns σ).get l = .ok b) : σ.get l = .ok b := by
  have key : ∀ (ns : List Nat) (bs : List (Option Bytes)), (ns.foldl (fun b n => b.set n none) bs)[l]? = some (some b) → bs[l]? = some (some b) := by
    intro ns
    induction ns with
    | nil => intro bs h; exact h
    | cons n ns ih =>
      intro bs h
      have h2 := ih _ h
      rw [List.getElem?_set] at h2
      split at h2
      · split at h2 <;> cases h2
      · exact h2
  unfold Store.get at h ⊢
  cases hx : (punch ns σ).blocks[l]? with
  | none => rw [hx] at h; cases h
  | some x =>
    cases x with
    | none => rw [hx] at h; cases h
    | some y =>
      rw [hx] at h
      cases h
      rw [key ns _ hx]

theorem hole_faulty (cfg : Config) (ns : List Nat) (s : St env) : Faulty (ctx cfg).sec s.store (hole ns s) :=
  ⟨fun l b h => punch_get ns s.store l b h, fun l b h => by cases h⟩

theorem punch_length (ns : List Nat) (bs : List (Option Bytes)) : (ns.foldl (fun b n => b.set n none) bs).length = bs.length := by
  induction ns generalizing bs with
  | nil => rfl
  | cons n ns ih => rw [List.foldl_cons, ih, List.length_set]

theorem puts_blocks {δ τ : env.σ} (h : PutsTo env δ τ) :
    ∃ more, Store.blocks (show Store from τ) = Store.blocks (show Store from δ) ++ more := by
  induction h with
  | refl => exact ⟨[], by simp⟩
  | @put τ x _ ih =>
    obtain ⟨more, ih⟩ := ih
    show ∃ more', (Store.put (show Store from τ) x).2.blocks = _
    unfold Store.put
    split
    · exact ⟨more, ih⟩
    · exact ⟨more ++ [some x], by rw [ih, List.append_assoc]⟩

theorem get_some {σ : Store} {l : Nat} {b : Bytes} : σ.get l = .ok b ↔ σ.blocks[l]? = some (some b) := by
  unfold Store.get
  split <;> simp_all

theorem punch_same (ns : List Nat) (σ τ : Store) (more : List (Option Bytes)) (hm : τ.blocks = (punch ns σ).blocks ++ more)
    (l : Nat) (b b' : Bytes) (h1 : σ.get l = .ok b) (h2 : τ.get l = .ok b') : b' = b := by
  have hlt := (List.getElem?_eq_some_iff.mp (get_some.mp h1)).1
  rw [get_some, hm, List.getElem?_append_left (by rw [show (punch ns σ).blocks.length = _ from punch_length ns σ.blocks]; exact hlt), ← get_some] at h2
  have h4 := punch_get ns σ l b' h2
  rw [h1] at h4
  cases h4
  rfl

/-- Losing blocks is damage in the sense of the specification. -/
theorem hole_damaged (cfg : Config) (ns : List Nat) (s : St env) : Damaged (ctx cfg) s (hole ns s) := by
  refine ⟨rfl, rfl, ?_, by intro l b h; cases h⟩
  intro τ hτ l b b' h1 h2
  obtain ⟨more, hm⟩ := puts_blocks hτ
  exact punch_same ns s.store τ more hm l b b' h1 h2

theorem hole_coherent (cfg : Config) (ns : List Nat) (s : St env) : Coherent env (ctx cfg).sec (hole ns s) := by
  intro l b h; cases h

end Banyan.Concrete
