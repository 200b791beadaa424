import Verif.Spec.Observe
import Verif.Model.Builder
/-
What iterators are expected to deliver.
-/
set_option autoImplicit false
namespace Banyan

variable {T : TreeTypes} {V : Type} {E : Env T V} {X : Type}

/-- The elements of a content starting at offset `o` that are present and match, with their offsets. -/
def matching (m : Nat → T.Key → Bool) : Nat → List (Option (T.Key × V)) → List (Nat × T.Key × V)
  | _, [] => []
  | o, none :: c => matching m (o + 1) c
  | o, some (k, v) :: c => if m o k then (o, k, v) :: matching m (o + 1) c else matching m (o + 1) c

/-- The ranges of the chunks are not empty and follow each other without holes, from `o` to `e`. -/
def Consecutive : Nat → List (Chunk T V X) → Nat → Prop
  | o, [], e => o = e
  | o, ch :: chs, e => ch.range.1 = o ∧ o < ch.range.2 ∧ Consecutive ch.range.2 chs e

/-- What happens between two calls of `next` only adds to the store and leaves the caches correct. -/
def Harmless (sec : Secrets E) (between : Nat → St E → St E) : Prop :=
  ∀ n s, Coherent E sec s → StoreLe E s.store (between n s).store ∧ Coherent E sec (between n s)

/-- The iteration `op` (whose arguments are: what happens between the calls of `next`, the number of calls, the bound on
the number of turns per call, the tree) over `t` delivers `items`: each call succeeds, a consumer making `n` calls gets
the first `n` items, and after the last item nothing. -/
def Delivers {α : Type} (op : (Nat → St E → St E) → Nat → Nat → Tree E → M E (List (Except String α))) (sec : Secrets E)
    (t : Tree E) (s : St E) (items : List α) : Prop :=
  ∀ between n fuel, Harmless sec between → 2 * t.level + 4 ≤ fuel → ∃ s', op between n fuel t s = .ok ((items.take n).map .ok) s'

end Banyan
