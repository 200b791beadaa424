import Verif.Proofs.TagSeq
import Verif.Proofs.SnapIter
/-
Queries by time and tags.
-/
set_option autoImplicit false
namespace Banyan.Tag

variable {α : Type} [TotalOrd α]

theorem anyOf_some {β : Type} {f : β → Option Bool} {g : β → Bool} {l : List β} (h : ∀ x ∈ l, f x = some (g x)) : anyOf f l = some (l.any g) := by
  induction l with
  | nil => rfl
  | cons x l ih =>
    unfold anyOf
    rw [h x (by simp), List.any_cons]
    cases g x with
    | true => rfl
    | false => exact ih fun y hy => h y (List.mem_cons_of_mem _ hy)

theorem maskLoop_some {f : Nat → Option Bool} {g : Nat → Bool} : ∀ {n i : Nat} {m : List Bool}, (∀ j, i ≤ j → j < i + n → f j = some (g j)) →
    ∃ r, maskLoop f n i m = some r ∧ (∀ j, j < n → r[j]? = (m[j]?).map (· && g (i + j))) ∧ ∀ j, n ≤ j → r[j]? = m[j]?
  | 0, _, m, _ => ⟨m, rfl, fun _ hj => by omega, fun _ _ => rfl⟩
  | _ + 1, _, [], _ => ⟨[], rfl, fun _ _ => rfl, fun _ _ => rfl⟩
  | n + 1, i, b :: bs, h => by
    obtain ⟨r, h1, h2, h3⟩ := maskLoop_some (n := n) (i := i + 1) (m := bs) fun j hj1 hj2 => h j (by omega) (by omega)
    have hb : (if b then f i else some false) = some (b && g i) := by
      rw [h i (Nat.le_refl _) (by omega)]
      cases b <;> simp
    refine ⟨(b && g i) :: r, ?_, ?_, ?_⟩
    · unfold maskLoop
      rw [hb, h1]
      rfl
    · intro j hj
      cases j with
      | zero => simp
      | succ j =>
        rw [List.getElem?_cons_succ, List.getElem?_cons_succ, h2 j (by omega), show i + 1 + j = i + (j + 1) by omega]
    · intro j hj
      cases j with
      | zero => omega
      | succ j => rw [List.getElem?_cons_succ, List.getElem?_cons_succ, h3 j (by omega)]

/-- All tags of the query are in the table of the sequence. -/
def known (q : List (Key α)) (s : KeySeq α) : Bool := q.all fun x => x.tags.isSubset s.tags.tags

/-- `t` is the translation of `x`. -/
def Translates (s : KeySeq α) (x : Key α) (t : TranslatedKey) : Prop :=
  t.time = x.time ∧ ∀ j, j ∈ t.indexSet.elems ↔ ∃ y ∈ x.tags.elems, s.tags.tags.elems[j]? = some y

theorem mapInto_known {q : List (Key α)} {s : KeySeq α} (hlen : s.tags.tags.elems.length ≤ 2 ^ 32) (h : known q s = true) :
    ∃ f : Key α → TranslatedKey, mapInto q s = q.map f ∧ ∀ x ∈ q, Translates s x (f x) := by
  refine ⟨fun x => (translate s x).getD ⟨VecSet.empty, x.time⟩, ?_, ?_⟩
  · unfold mapInto
    rw [mapM_map_some (g := fun x => (translate s x).getD ⟨VecSet.empty, x.time⟩)]
    · rfl
    · intro x hx
      obtain ⟨is, h1, _⟩ := mapToIndexSet_some hlen ((VecSet.isSubset_iff _ _).mp (List.all_eq_true.mp h x hx))
      unfold translate
      rw [h1]
      rfl
  · intro x hx
    obtain ⟨is, h1, h2⟩ := mapToIndexSet_some hlen ((VecSet.isSubset_iff _ _).mp (List.all_eq_true.mp h x hx))
    simp only [translate]
    rw [h1]
    exact ⟨rfl, h2⟩

theorem mapInto_unknown {q : List (Key α)} {s : KeySeq α} (h : known q s = false) : mapInto q s = [] := by
  unfold known at h
  rw [List.all_eq_false] at h
  obtain ⟨x, hx, h1⟩ := h
  rw [VecSet.isSubset_iff] at h1
  have : ∃ y ∈ x.tags.elems, y ∉ s.tags.tags.elems := by
    apply Classical.byContradiction
    intro hc
    exact h1 fun y hy => Classical.byContradiction fun hn => hc ⟨y, hy, hn⟩
  obtain ⟨y, hy, hn⟩ := this
  unfold mapInto
  rw [mapM_none hx]
  · rfl
  · unfold translate
    rw [mapToIndexSet_none hy hn]
    rfl

theorem containsKey_spec {s : KeySeq α} {i : Nat} {k x : Key α} {e : VecSet Nat} {t : TranslatedKey} (hr : s.Represents i k e)
    (ht : Translates s x t) : containsKey s i t = some (x.contains k) := by
  unfold containsKey Key.contains
  rw [hr.time, hr.elements, ht.1]
  simp only [Option.join_some, Option.map_some]
  split
  · rename_i hc
    rw [hc, Bool.true_and, Option.some.injEq, Bool.eq_iff_iff, VecSet.isSuperset_iff, VecSet.isSuperset_iff]
    constructor
    · intro h y hy
      obtain ⟨j, hj, hjy⟩ := (hr.tags y).mp hy
      obtain ⟨z, hz, hjz⟩ := (ht.2 j).mp (h j hj)
      rw [hjy] at hjz
      cases hjz
      exact hz
    · intro h j hj
      have hjy := List.getElem?_eq_getElem (hr.bound j hj)
      exact (ht.2 j).mpr ⟨_, h _ ((hr.tags _).mpr ⟨j, hj, hjy⟩), hjy⟩
  · rename_i hc
    simp [hc]

theorem intersectsKey_spec {s : KeySeq α} {i : Nat} {k x : Key α} {e : VecSet Nat} {t : TranslatedKey} (hr : s.Represents i k e)
    (ht : Translates s x t) : intersectsKey s i t = some (x.intersects k) := by
  unfold intersectsKey Key.intersects
  rw [hr.time, hr.elements, ht.1]
  simp only [Option.join_some, Option.map_some]
  split
  · rename_i hc
    rw [hc, Bool.true_and, Option.some.injEq]
    congr 1
    rw [Bool.eq_iff_iff, VecSet.isDisjoint_iff, VecSet.isDisjoint_iff]
    constructor
    · intro h y hy hk
      obtain ⟨j, hj, hjy⟩ := (hr.tags y).mp hk
      exact h j ((ht.2 j).mpr ⟨y, hy, hjy⟩) hj
    · intro h j hj he
      obtain ⟨y, hy, hjy⟩ := (ht.2 j).mp hj
      exact h y hy ((hr.tags y).mpr ⟨j, he, hjy⟩)
  · rename_i hc
    simp [hc]

theorem any_translated {q : List (Key α)} {s : KeySeq α} (hlen : s.tags.tags.elems.length ≤ 2 ^ 32) {f : TranslatedKey → Option Bool} {g : Key α → Bool}
    (h : ∀ x t, Translates s x t → f t = some (g x)) : anyOf f (mapInto q s) = some (known q s && q.any g) := by
  cases hk : known q s with
  | false =>
    rw [mapInto_unknown hk]
    rfl
  | true =>
    obtain ⟨tr, h1, h2⟩ := mapInto_known hlen hk
    rw [h1, Bool.true_and, anyOf_some (g := fun t => (f t).getD false)]
    · rw [List.any_map]
      congr 1
      have key : ∀ l : List (Key α), (∀ x ∈ l, Translates s x (tr x)) → l.any ((fun t => (f t).getD false) ∘ tr) = l.any g := by
        intro l hl
        induction l with
        | nil => rfl
        | cons x l ih =>
          rw [List.any_cons, List.any_cons, ih fun y hy => hl y (List.mem_cons_of_mem _ hy)]
          congr 1
          simp only [Function.comp]
          rw [h x _ (hl x (by simp))]
          rfl
      exact key q h2
    · intro t ht
      obtain ⟨x, hx, rfl⟩ := List.mem_map.mp ht
      rw [h x _ (h2 x hx)]
      rfl

/-- What a query does with a leaf: it asks about each key, but if one of its tags does not occur in the leaf, it selects
nothing. -/
theorem containing_spec {s : KeySeq α} (hv : s.Valid) (hlen : s.tags.tags.elems.length ≤ 2 ^ 32) (q : List (Key α)) (mask : List Bool) :
    ∃ r, containing q s mask = some r ∧ ∀ j k, s.at? j = some k → r[j]? = (mask[j]?).map (· && (known q s && contains q k)) := by
  obtain ⟨r, h1, h2, _⟩ := maskLoop_some (f := fun i => anyOf (containsKey s i) (mapInto q s))
    (g := fun i => match s.at? i with | some k => known q s && contains q k | none => false) (n := s.len) (i := 0) (m := mask) (by
      intro j _ hj
      obtain ⟨k, e, hr⟩ := hv.represents (i := j) (by omega)
      simp only [hr.at?]
      exact any_translated hlen fun x t ht => containsKey_spec hr ht)
  refine ⟨r, h1, fun j k hk => ?_⟩
  have hj : j < s.len := by
    apply Classical.byContradiction
    intro hc
    rw [KeySeq.at?_ge (by omega)] at hk
    cases hk
  rw [h2 j hj, Nat.zero_add]
  simp only [hk]

/-- The same for a branch. -/
theorem intersecting_spec {s : KeySeq α} (hv : s.Valid) (hlen : s.tags.tags.elems.length ≤ 2 ^ 32) (q : List (Key α)) (mask : List Bool) :
    ∃ r, intersecting q s mask = some r ∧ ∀ j k, s.at? j = some k → r[j]? = (mask[j]?).map (· && (known q s && intersects q k)) := by
  obtain ⟨r, h1, h2, _⟩ := maskLoop_some (f := fun i => anyOf (intersectsKey s i) (mapInto q s))
    (g := fun i => match s.at? i with | some k => known q s && intersects q k | none => false) (n := s.len) (i := 0) (m := mask) (by
      intro j _ hj
      obtain ⟨k, e, hr⟩ := hv.represents (i := j) (by omega)
      simp only [hr.at?]
      exact any_translated hlen fun x t ht => intersectsKey_spec hr ht)
  refine ⟨r, h1, fun j k hk => ?_⟩
  have hj : j < s.len := by
    apply Classical.byContradiction
    intro hc
    rw [KeySeq.at?_ge (by omega)] at hk
    cases hk
  rw [h2 j hj, Nat.zero_add]
  simp only [hk]

theorem Vocabulary.table (h : Vocabulary α) (s : KeySeq α) : s.tags.tags.elems.length ≤ 2 ^ 32 := h _ s.tags.tags.nodup

end Banyan.Tag
