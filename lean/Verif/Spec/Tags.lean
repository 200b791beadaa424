import Verif.Model.TagIndex
/-
The meaning of tag expressions and of their normal forms.
-/
set_option autoImplicit false
namespace Banyan

variable {α : Type}

mutual
/-- A set of tags (given by membership) satisfies the expression. -/
def Expression.Holds (has : α → Prop) : Expression α → Prop
  | .literal a => has a
  | .and es => Expression.HoldAll has es
  | .or es => Expression.HoldSome has es
/-- All of the expressions are satisfied. -/
def Expression.HoldAll (has : α → Prop) : List (Expression α) → Prop
  | [] => True
  | e :: es => e.Holds has ∧ Expression.HoldAll has es
/-- One of the expressions is satisfied. -/
def Expression.HoldSome (has : α → Prop) : List (Expression α) → Prop
  | [] => False
  | e :: es => e.Holds has ∨ Expression.HoldSome has es
end

mutual
/-- No conjunction and no disjunction is empty. -/
def Expression.Proper : Expression α → Prop
  | .literal _ => True
  | .and es => es ≠ [] ∧ Expression.AllProper es
  | .or es => es ≠ [] ∧ Expression.AllProper es
/-- The same for several expressions. -/
def Expression.AllProper : List (Expression α) → Prop
  | [] => True
  | e :: es => e.Proper ∧ Expression.AllProper es
end

/-- A set of tags satisfies a normal form if it includes one of the conjunctions. -/
def Dnf.Holds [TotalOrd α] (has : α → Prop) (d : Dnf α) : Prop := ∃ c ∈ d.elems, ∀ x ∈ c.elems, has x

/-- A table whose sets refer only to tags of the table. -/
def TagIndex.Valid [TotalOrd α] (t : TagIndex α) : Prop := ∀ is ∈ t.elements, ∀ i ∈ is.elems, i < t.tags.elems.length

/-- There are at most 2^32 different tags in the list of sets. -/
def FewTags [TotalOrd α] (e : List (VecSet α)) : Prop := ∀ l : List α, l.Nodup → (∀ x ∈ l, ∃ a ∈ e, x ∈ a.elems) → l.length ≤ 2 ^ 32

/-- There are at most 2^32 tags. -/
def Vocabulary (α : Type) : Prop := ∀ l : List α, l.Nodup → l.length ≤ 2 ^ 32

end Banyan
