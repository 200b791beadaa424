import Verif.Model.Types
/-
The sequence types of `banyan/src/index.rs`.
-/
set_option autoImplicit false
namespace Banyan

/-- `VecSeq`, `banyan/src/index.rs:512-541`. -/
def vecSeq (α : Type) : CompactSeq α where
  Carrier := List α
  len := List.length
  get := fun l i => l[i]?
  ofList := fun l => l

/-- `UnitSeq`, `banyan/src/index.rs:474-507`. -/
def unitSeq : CompactSeq Unit where
  Carrier := Nat
  len := fun n => n
  get := fun n i => if i < n then some () else none
  ofList := List.length

/-- `Encode` and `Decode` of `UnitSeq`, `banyan/src/index.rs:477-489`: a number; on the platforms considered a `usize` has
64 bits, so the conversion cannot fail. -/
def unitSeqNumber (s : unitSeq.Carrier) : Nat := s

/-- See `unitSeqNumber`. -/
def unitSeqOfNumber (n : Nat) : unitSeq.Carrier := n

theorem vecSeq_lawful (α : Type) : (vecSeq α).Lawful where
  get_some := fun (c : List α) i (h : i < c.length) => by
    show (c[i]?).isSome = true
    simp [h]
  len_ofList := fun _ _ => rfl
  get_ofList := fun _ _ _ => rfl

theorem unitSeq_lawful : unitSeq.Lawful where
  get_some := fun (c : Nat) i (h : i < c) => by
    show (if i < c then some () else none).isSome = true
    rw [if_pos h]
    rfl
  len_ofList := fun _ _ => rfl
  get_ofList := fun l i _ => by
    show (if i < l.length then some () else none) = l[i]?
    split
    · rename_i h
      rw [List.getElem?_eq_getElem h]
    · rename_i h
      rw [List.getElem?_eq_none (by omega)]

end Banyan
