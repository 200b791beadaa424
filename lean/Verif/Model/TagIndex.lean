/-
`banyan-utils/src/tag_index.rs`: compressed tables of tag sets, tag expressions and their normal form.

Tags (`SmolStr`) are an arbitrary type with a decidable total order. `VecSet` (crate `vec_collections`) and `BTreeSet` (standard library)
are sorted lists without duplicates; their operations are external code and have their documented meaning. Not modelled: `Display` for
expressions (`tag_index.rs:186-212`), the serde implementations (`tag_index.rs:71-94`, the same check as in `Decode`).
-/
set_option autoImplicit false
namespace Banyan

/-- A decidable total order (`Ord`). -/
class TotalOrd (α : Type) where
  decEq : DecidableEq α
  lt : α → α → Bool
  irrefl : ∀ a, lt a a = false
  trans : ∀ a b c, lt a b = true → lt b c = true → lt a c = true
  total : ∀ a b, lt a b = false → lt b a = false → a = b

attribute [instance_reducible, instance] TotalOrd.decEq

variable {α : Type} [TotalOrd α]

/-- A sorted list without duplicates: `VecSet` and `BTreeSet`. -/
structure VecSet (α : Type) [TotalOrd α] where
  elems : List α
  sorted : elems.Pairwise fun a b => TotalOrd.lt a b = true

instance : DecidableEq (VecSet α) := fun a b =>
  if h : a.elems = b.elems then .isTrue (by cases a; cases b; cases h; rfl) else .isFalse (by rintro rfl; exact h rfl)

/-- Insertion into a sorted list. -/
def insertSorted (a : α) : List α → List α
  | [] => [a]
  | x :: xs => if TotalOrd.lt a x then a :: x :: xs else if TotalOrd.lt x a then x :: insertSorted a xs else x :: xs

theorem mem_insertSorted (a b : α) (l : List α) : b ∈ insertSorted a l ↔ b = a ∨ b ∈ l := by
  induction l with
  | nil => simp [insertSorted]
  | cons x xs ih =>
    unfold insertSorted
    split
    · simp
    · split
      · simp only [List.mem_cons, ih]
        constructor
        · rintro (h | h | h)
          · exact .inr (.inl h)
          · exact .inl h
          · exact .inr (.inr h)
        · rintro (h | h | h)
          · exact .inr (.inl h)
          · exact .inl h
          · exact .inr (.inr h)
      · rename_i h1 h2
        have : a = x := TotalOrd.total a x (by simpa using h1) (by simpa using h2)
        subst this
        simp

theorem insertSorted_sorted (a : α) (l : List α) (h : l.Pairwise fun a b => TotalOrd.lt a b = true) :
    (insertSorted a l).Pairwise fun a b => TotalOrd.lt a b = true := by
  induction l with
  | nil => exact List.pairwise_singleton _ _
  | cons x xs ih =>
    obtain ⟨h1, h2⟩ := List.pairwise_cons.mp h
    unfold insertSorted
    split
    · rename_i hlt
      refine List.pairwise_cons.mpr ⟨fun y hy => ?_, h⟩
      rcases List.mem_cons.mp hy with rfl | hy
      · exact hlt
      · exact TotalOrd.trans _ _ _ hlt (h1 y hy)
    · split
      · rename_i hlt
        refine List.pairwise_cons.mpr ⟨fun y hy => ?_, ih h2⟩
        rcases (mem_insertSorted a y xs).mp hy with rfl | hy
        · exact hlt
        · exact h1 y hy
      · exact h

namespace VecSet

/-- The empty set (`default`, `new`). -/
def empty : VecSet α := ⟨[], .nil⟩

/-- `insert` -/
def insert (s : VecSet α) (a : α) : VecSet α := ⟨insertSorted a s.elems, insertSorted_sorted a s.elems s.sorted⟩

/-- `extend` -/
def extend (s : VecSet α) (l : List α) : VecSet α := l.foldl insert s

/-- `FromIterator` -/
def ofList (l : List α) : VecSet α := extend empty l

/-- `remove` -/
def remove (s : VecSet α) (a : α) : VecSet α := ⟨s.elems.filter (· != a), s.sorted.sublist List.filter_sublist⟩

/-- `is_subset` -/
def isSubset (a b : VecSet α) : Bool := a.elems.all fun x => b.elems.contains x

/-- `is_superset` -/
def isSuperset (a b : VecSet α) : Bool := b.isSubset a

/-- `is_disjoint` -/
def isDisjoint (a b : VecSet α) : Bool := a.elems.all fun x => !b.elems.contains x

/-- `binary_search(..).ok()` on the sorted elements. -/
def search (s : VecSet α) (a : α) : Option Nat := s.elems.findIdx? (· == a)

end VecSet

/-- Lexicographic order of lists. -/
def lexLt : List α → List α → Bool
  | [], [] => false
  | [], _ :: _ => true
  | _ :: _, [] => false
  | a :: as, b :: bs => if TotalOrd.lt a b then true else if TotalOrd.lt b a then false else lexLt as bs

theorem lexLt_irrefl (a : List α) : lexLt a a = false := by
  induction a with
  | nil => rfl
  | cons x a ih => simp [lexLt, TotalOrd.irrefl, ih]

theorem lexLt_cons (a b : α) (as bs : List α) : lexLt (a :: as) (b :: bs) = true ↔ TotalOrd.lt a b = true ∨ (a = b ∧ lexLt as bs = true) := by
  rw [show lexLt (a :: as) (b :: bs) = if TotalOrd.lt a b then true else if TotalOrd.lt b a then false else lexLt as bs from rfl]
  split
  · rename_i h; simp [h]
  · split
    · rename_i h1 h2
      simp only [Bool.false_eq_true, false_iff, not_or, not_and]
      refine ⟨h1, ?_⟩
      rintro rfl
      rw [TotalOrd.irrefl] at h2
      cases h2
    · rename_i h1 h2
      have : a = b := TotalOrd.total a b (by simpa using h1) (by simpa using h2)
      simp [TotalOrd.irrefl, this]

theorem lexLt_trans : ∀ a b c : List α, lexLt a b = true → lexLt b c = true → lexLt a c = true
  | [], _, [], h1, h2 => by rename_i b; cases b <;> simp [lexLt] at h1 h2
  | [], _, _ :: _, _, _ => rfl
  | _ :: _, [], _, h1, _ => by simp [lexLt] at h1
  | _ :: _, _ :: _, [], _, h2 => by simp [lexLt] at h2
  | a :: as, b :: bs, c :: cs, h1, h2 => by
    rw [lexLt_cons] at h1 h2 ⊢
    rcases h1 with h1 | ⟨rfl, h1⟩ <;> rcases h2 with h2 | ⟨rfl, h2⟩
    · exact .inl (TotalOrd.trans _ _ _ h1 h2)
    · exact .inl h1
    · exact .inl h2
    · exact .inr ⟨rfl, lexLt_trans as bs cs h1 h2⟩

theorem lexLt_total : ∀ a b : List α, lexLt a b = false → lexLt b a = false → a = b
  | [], [], _, _ => rfl
  | [], _ :: _, h, _ => by simp [lexLt] at h
  | _ :: _, [], _, h => by simp [lexLt] at h
  | a :: as, b :: bs, h1, h2 => by
    rw [← Bool.not_eq_true, lexLt_cons, not_or] at h1 h2
    have hab : a = b := TotalOrd.total a b (by simpa using h1.1) (by simpa using h2.1)
    subst hab
    simp only [true_and] at h1 h2
    rw [lexLt_total as bs (by simpa using h1.2) (by simpa using h2.2)]

/-- Sets are compared as slices. -/
instance : TotalOrd (VecSet α) where
  decEq := inferInstance
  lt a b := lexLt a.elems b.elems
  irrefl a := lexLt_irrefl _
  trans a b c := lexLt_trans _ _ _
  total a b h1 h2 := by
    have := lexLt_total _ _ h1 h2
    cases a; cases b; cases this; rfl

/-- Indices are compared as numbers. -/
instance : TotalOrd Nat where
  decEq := inferInstance
  lt a b := decide (a < b)
  irrefl a := by simp
  trans a b c := by simp; omega
  total a b := by simp; omega

/-- `as u32` -/
def asU32 (n : Nat) : Nat := n % 2 ^ 32

/-- `struct TagIndex`, `tag_index.rs:22-28`. -/
structure TagIndex (α : Type) [TotalOrd α] where
  tags : VecSet α
  elements : List (VecSet Nat)
deriving DecidableEq

/-- `map_to_index_set`, `tag_index.rs:99-103`. -/
def mapToIndexSet (table tags : VecSet α) : Option (VecSet Nat) :=
  (tags.elems.mapM fun t => (table.search t).map asU32).map VecSet.ofList

namespace TagIndex

/-- What `Encode` writes, `tag_index.rs:30-46` (the encoding of lists, strings and numbers is external). -/
def parts (t : TagIndex α) : List α × List (List Nat) := (t.tags.elems, t.elements.map VecSet.elems)

/-- `Decode`, `tag_index.rs:48-69`, after the two lists have been decoded; `none` is the error "invalid string index". -/
def ofParts (p : List α × List (List Nat)) : Option (TagIndex α) :=
  let tags := VecSet.ofList p.1
  let elements := p.2.map VecSet.ofList
  if elements.all fun s => s.elems.all fun x => decide (x < tags.elems.length) then some ⟨tags, elements⟩ else none

/-- `matching`, `tag_index.rs:107-133`. -/
def matching (t : TagIndex α) (query : VecSet (VecSet α)) : List Nat :=
  let query := query.elems.filterMap (mapToIndexSet t.tags)
  if query.isEmpty then []
  else t.elements.zipIdx.filterMap fun (e, i) => if query.any fun x => x.isSubset e then some i else none

/-- The expansion of one index set in `iter_elements` and `get`, `tag_index.rs:141-143`, `165-167`; `none` is the panic of an index out of
bounds. -/
def expand (t : TagIndex α) (is : VecSet Nat) : Option (VecSet α) := (is.elems.mapM fun i => t.tags.elems[i]?).map VecSet.ofList

/-- `iter_elements`, `as_elements`, `tag_index.rs:135-145`; `none` is a panic. -/
def asElements (t : TagIndex α) : Option (List (VecSet α)) := t.elements.mapM t.expand

/-- `from_elements`, `tag_index.rs:147-162`; `none` is the panic of `unwrap`. -/
def fromElements (e : List (VecSet α)) : Option (TagIndex α) := do
  let tags := e.foldl (fun tags a => tags.extend a.elems) VecSet.empty
  let elements ← e.mapM fun a => (a.elems.mapM fun x => (tags.search x).map asU32).map VecSet.ofList
  pure ⟨tags, elements⟩

/-- `get`, `tag_index.rs:164-170`; the outer `none` is a panic. -/
def get (t : TagIndex α) (index : Nat) : Option (Option (VecSet α)) :=
  match t.elements[index]? with
  | none => some none
  | some is => (t.expand is).map some

end TagIndex

/-- `enum Expression`, `tag_index.rs:178-183`. -/
inductive Expression (α : Type) where
  | literal (a : α)
  | and (es : List (Expression α))
  | or (es : List (Expression α))

/-- `Reduce::reduce` of the crate `reduce`: `none` for an empty iterator. -/
def reduce {β : Type} (f : β → β → β) : List β → Option β
  | [] => none
  | x :: xs => some (xs.foldl f x)

namespace Expression

omit [TotalOrd α]

/-- The closure of `or`, `tag_index.rs:228-231`. -/
def orParts : Expression α → List (Expression α)
  | or es => es
  | x => [x]

/-- The closure of `and`, `tag_index.rs:239-242`. -/
def andParts : Expression α → List (Expression α)
  | and es => es
  | x => [x]

/-- `Expression::or`, `tag_index.rs:225-234`. -/
def mkOr (e : List (Expression α)) : Expression α := or (e.flatMap orParts)

/-- `Expression::and`, `tag_index.rs:236-245`. -/
def mkAnd (e : List (Expression α)) : Expression α := and (e.flatMap andParts)

/-- `BitOr`, `tag_index.rs:306-311`. -/
def bitor (a b : Expression α) : Expression α := mkOr [a, b]

/-- `BitAnd`, `tag_index.rs:313-318`. -/
def bitand (a b : Expression α) : Expression α := mkAnd [a, b]

/-- The last step of `simplify`, `tag_index.rs:262-266`, `280-284`. -/
def single (mk : List (Expression α) → Expression α) (v : List (Expression α)) : Expression α :=
  match v with
  | [x] => x
  | v => mk v

mutual
/-- `simplify`, `tag_index.rs:247-287`. -/
def simplify : Expression α → Expression α
  | literal a => literal a
  | and v => single and (simplifyAnd v)
  | or v => single or (simplifyOr v)
/-- The `flat_map` of the case `And`, `tag_index.rs:251-261`. -/
def simplifyAnd : List (Expression α) → List (Expression α)
  | [] => []
  | e :: es => andParts (simplify e) ++ simplifyAnd es
/-- The `flat_map` of the case `Or`, `tag_index.rs:269-279`. -/
def simplifyOr : List (Expression α) → List (Expression α)
  | [] => []
  | e :: es => orParts (simplify e) ++ simplifyOr es
end

end Expression

/-- `struct Dnf`, `tag_index.rs:325`. -/
abbrev Dnf (α : Type) [TotalOrd α] := VecSet (VecSet α)

/-- The loop of `insert_unless_redundant`, `tag_index.rs:344-354`; `none`: the function returns. -/
def redundantLoop (b : VecSet α) : List (VecSet α) → Option (VecSet α) → Option (Option (VecSet α))
  | [], toRemove => some toRemove
  | a :: rest, toRemove =>
    if a.isSubset b then none
    else if a.isSuperset b then redundantLoop b rest (some a)
    else redundantLoop b rest toRemove

/-- `insert_unless_redundant`, `tag_index.rs:342-359`. -/
def insertUnlessRedundant (aa : Dnf α) (b : VecSet α) : Dnf α :=
  match redundantLoop b aa.elems none with
  | none => aa
  | some none => aa.insert b
  | some (some r) => (aa.remove r).insert b

namespace Dnf

/-- `Dnf::literal`, `tag_index.rs:328-330`. -/
def literal (a : α) : Dnf α := VecSet.ofList [VecSet.ofList [a]]

/-- `BitAnd`, `tag_index.rs:367-381`. -/
def bitand (a b : Dnf α) : Dnf α :=
  a.elems.foldl (fun rs x => b.elems.foldl (fun rs y => insertUnlessRedundant rs ((VecSet.empty.extend x.elems).extend y.elems)) rs) VecSet.empty

/-- `BitOr`, `tag_index.rs:383-392`. -/
def bitor (a b : Dnf α) : Dnf α := b.elems.foldl insertUnlessRedundant a

/-- `and_expr`, `tag_index.rs:337-339`; `none` is the panic of `unwrap`. -/
def andExpr (v : VecSet α) : Option (Expression α) := reduce Expression.bitand (v.elems.map Expression.literal)

/-- `expression`, `tag_index.rs:333-335`; `none` is a panic. -/
def expression (d : Dnf α) : Option (Expression α) := do
  let es ← d.elems.mapM andExpr
  reduce Expression.bitor es

end Dnf

mutual
/-- `dnf`, `tag_index.rs:293-303`; `none` is the panic of `unwrap`. -/
def Expression.dnf : Expression α → Option (Dnf α)
  | .literal a => some (Dnf.literal a)
  | .or es => (Expression.dnfs es).bind (reduce Dnf.bitor)
  | .and es => (Expression.dnfs es).bind (reduce Dnf.bitand)
/-- The normal forms of the operands. -/
def Expression.dnfs : List (Expression α) → Option (List (Dnf α))
  | [] => some []
  | e :: es => do
    let d ← e.dnf
    let ds ← Expression.dnfs es
    pure (d :: ds)
end

end Banyan
