import Verif.Model.Varint
/-
A small codec for lists of natural numbers, used by the concrete environment of the examples. Nothing in this file
corresponds to code in the repository.
-/
set_option autoImplicit false
namespace Banyan.Concrete

def encNats : List Nat → List UInt8
  | [] => []
  | n :: ns => varint n ++ encNats ns

def decNats : Nat → List UInt8 → Option (List Nat)
  | _, [] => some []
  | 0, _ :: _ => none
  | f + 1, b :: bs =>
    match unvar (b :: bs) with
    | none => none
    | some (n, r) =>
      match decNats f r with
      | none => none
      | some ns => some (n :: ns)

theorem decNats_encNats : ∀ ns f, (encNats ns).length ≤ f → decNats f (encNats ns) = some ns
  | [], f, _ => by cases f <;> rfl
  | n :: ns, f, h => by
    have hu := unvar_varint n (encNats ns)
    have hl : (encNats (n :: ns)).length = (varint n).length + (encNats ns).length := by simp [encNats]
    have hp : 0 < (varint n).length := List.length_pos_iff.mpr (varint_ne n)
    cases f with
    | zero => omega
    | succ f =>
      have : encNats (n :: ns) = varint n ++ encNats ns := rfl
      rw [← this] at hu
      cases he : encNats (n :: ns) with
      | nil => rw [he] at hl; simp at hl; omega
      | cons b bs =>
        rw [he] at hu
        unfold decNats
        rw [hu]
        simp only
        rw [decNats_encNats ns f (by omega)]

/-- Length prefixed bytes. -/
def frame (p : List UInt8) : List UInt8 := varint p.length ++ p

def unframe (b : List UInt8) : Option (List UInt8 × List UInt8) :=
  match unvar b with
  | none => none
  | some (n, r) => if n ≤ r.length then some (r.take n, r.drop n) else none

theorem unframe_frame (p r : List UInt8) : unframe (frame p ++ r) = some (p, r) := by
  unfold unframe frame
  rw [List.append_assoc, unvar_varint]
  simp

theorem frame_ne (p : List UInt8) : frame p ≠ [] := by
  unfold frame
  simp [varint_ne]

/-- A list of byte strings. -/
def encStrs : List (List UInt8) → List UInt8
  | [] => []
  | s :: ss => frame s ++ encStrs ss

def decStrs : Nat → List UInt8 → Option (List (List UInt8) × List UInt8)
  | 0, b => some ([], b)
  | n + 1, b =>
    match unframe b with
    | none => none
    | some (s, r) =>
      match decStrs n r with
      | none => none
      | some (ss, r) => some (s :: ss, r)

theorem decStrs_encStrs : ∀ ss r, decStrs ss.length (encStrs ss ++ r) = some (ss, r)
  | [], r => rfl
  | s :: ss, r => by
    simp only [List.length_cons, encStrs, decStrs, List.append_assoc]
    rw [unframe_frame]
    simp only
    rw [decStrs_encStrs ss r]

def pairs : List (Nat × Nat) → List Nat
  | [] => []
  | (a, b) :: r => a :: b :: pairs r

def unpairs : List Nat → Option (List (Nat × Nat))
  | [] => some []
  | [_] => none
  | a :: b :: r =>
    match unpairs r with
    | some l => some ((a, b) :: l)
    | none => none

theorem unpairs_pairs : ∀ l, unpairs (pairs l) = some l
  | [] => rfl
  | (a, b) :: r => by simp only [pairs, unpairs, unpairs_pairs r]

end Banyan.Concrete
