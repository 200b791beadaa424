import Verif.Concrete.Generic
import Verif.Model.Tags
import Verif.Proofs.TagSeq
/-
A concrete environment for trees of tagged elements. Nothing in this file corresponds to code in the repository.
-/
set_option autoImplicit false
namespace Banyan.Concrete

open Tag

instance finOrd (n : Nat) : TotalOrd (Fin n) where
  decEq := inferInstance
  lt a b := decide (a.val < b.val)
  irrefl a := by simp
  trans a b c := by simp; omega
  total a b := by simp only [decide_eq_false_iff_not]; intro h1 h2; exact Fin.ext (by omega)

/-- Four tags. -/
abbrev Four := Fin 4

theorem four_vocabulary : Vocabulary Four := by
  intro l hl
  have : l.length ≤ (List.finRange 4).length := length_le_of_subset hl fun x _ => List.mem_finRange x
  rw [List.length_finRange] at this
  omega

def natFour (n : Nat) : Option Four := if h : n < 4 then some ⟨n, h⟩ else none

theorem natFour_val (a : Four) : natFour a.val = some a := by
  unfold natFour
  rw [dif_pos a.isLt]

def fourS : Serial Four := Serial.nat.via Fin.val natFour natFour_val

def validSeq (p : List Nat × List Nat × List Nat × List Four × List (List Nat)) : Option { s : KeySeq Four // s.Valid } :=
  match KeySeq.ofParts p with
  | none => none
  | some s => if h : s.Valid then some ⟨s, h⟩ else none

theorem ofParts_parts {α : Type} [TotalOrd α] {s : KeySeq α} (h : s.Valid) : KeySeq.ofParts s.parts = some s := by
  obtain ⟨a, b, c, t, e⟩ := s
  have hv := h.2.2.2
  unfold KeySeq.ofParts KeySeq.parts TagIndex.ofParts TagIndex.parts
  simp only
  have he : (e.map VecSet.elems).map VecSet.ofList = e := by
    rw [List.map_map]
    conv => rhs; rw [← List.map_id e]
    exact List.map_congr_left fun x _ => VecSet.ofList_elems x
  rw [he, VecSet.ofList_elems, if_pos]
  · rfl
  · rw [List.all_eq_true]
    intro s hs
    rw [List.all_eq_true]
    intro x hx
    exact decide_eq_true (hv s hs x hx)

theorem validSeq_parts (s : { s : KeySeq Four // s.Valid }) : validSeq s.1.parts = some s := by
  unfold validSeq
  rw [ofParts_parts s.2]
  simp only
  rw [dif_pos s.2]

def seqS : Serial { s : KeySeq Four // s.Valid } :=
  (Serial.pair (.list .nat) (.pair (.list .nat) (.pair (.list .nat) (.pair (.list fourS) (.list (.list .nat)))))).via
    (fun s => s.1.parts) validSeq validSeq_parts

def tagged : Params where
  Key := Key Four
  Summary := Key Four
  keys := keySeq Four
  sums := keySeq Four
  sumKeys := summaryOf
  sumSums := summaryOf
  sumDec := inferInstanceAs (DecidableEq (Key Four))
  keysS := seqS
  sumsS := seqS

theorem tagged_types : tagged.types = tagTypes Four Nat := rfl

def tagEnv : Env (tagTypes Four Nat) Nat := tagged.env

theorem tagEnv_lawful : tagEnv.Lawful := tagged.env_lawful

def tagCtx : Ctx tagEnv := tagged.ctx tiny

theorem tag_ok : tagCtx.Ok := ⟨tagEnv_lawful, tagTypes_lawful four_vocabulary, tiny_valid⟩

def tagStart : St tagEnv := tagged.start 100

theorem tagStart_reach : Reach tagCtx tagStart := Reach.fresh _ rfl (by intro l b h; cases h)

/-- An event with the given time and tags. -/
def event (t : Nat) (tags : List Four) : Key Four × Nat := (Key.single t t (VecSet.ofList tags), 10 * t)

theorem tag_reach_extend {s : St tagEnv} (h : Reach tagCtx s) (fuel : Nat) (xs : List (Key Four × Nat)) (h1 : rootLevel s.root < fuel)
    (h2 : rootCount s.root + xs.length ≤ maxElements) : Reach tagCtx (endState (extend tagCtx fuel xs) s) :=
  h.run (.extend fuel xs (.refl _) h1 h2)

/-- The times of the elements delivered for a query. -/
def timesFor (q : List (Key Four)) (s : St tagEnv) : Option (List Nat) :=
  (Params.valueOf (P := tagged) (Tree.elements (dnfQuery q) .forward (fun _ s => s) 100 100 (snapshot tagCtx s)) s).map fun r =>
    r.filterMap fun
      | .ok (_, k, _) => some k.time.minTime
      | .error _ => none

end Banyan.Concrete
