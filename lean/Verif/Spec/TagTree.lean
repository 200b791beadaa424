import Verif.Model.Tags
/-
When a tag query can be answered.
-/
set_option autoImplicit false
namespace Banyan.Tag

variable {α L : Type} [TotalOrd α] [DecidableEq L]

/-- All tags of the query occur in the summary of the node, that is in some key (or some summary) of the node. -/
def FindsTags (q : List (Key α)) (i : Index (tagTypes α L)) : Prop :=
  ∀ x ∈ q, ∀ tag ∈ x.tags.elems, tag ∈ (show Key α from i.summarize).tags.elems

end Banyan.Tag
