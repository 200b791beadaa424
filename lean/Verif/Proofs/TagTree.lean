import Verif.Proofs.TagQuery
import Verif.Spec.TagTree
import Verif.Proofs.ChunkCongr
import Verif.Props.Index
/-
Queries by time and tags on trees.
-/
set_option autoImplicit false
namespace Banyan.Tag

open PTree

variable {α L : Type} [TotalOrd α] [DecidableEq L] {V : Type}

/-- A key with a tag and a proper time range. -/
def proper (k : Key α) : Bool := !k.tags.elems.isEmpty && decide (k.time.minTime ≤ k.time.maxTime)

/-- Decide each position on its own. -/
def eachPosition (g : Key α → Bool) (s : KeySeq α) (mask : List Bool) : List Bool :=
  (maskLoop (fun i => some (match s.at? i with | some k => g k | none => false)) s.len 0 mask).getD mask

theorem length_eachPosition (g : Key α → Bool) (s : KeySeq α) (mask : List Bool) : (eachPosition g s mask).length = mask.length :=
  length_getD fun _ h => length_maskLoop h

theorem eachPosition_get (g : Key α → Bool) (s : KeySeq α) (mask : List Bool) {j : Nat} {k : Key α} (hk : s.at? j = some k) :
    (eachPosition g s mask)[j]? = (mask[j]?).map (· && g k) := by
  obtain ⟨r, h1, h2, _⟩ := maskLoop_some (f := fun i => some (match s.at? i with | some k => g k | none => false))
    (g := fun i => match s.at? i with | some k => g k | none => false) (n := s.len) (i := 0) (m := mask) (fun _ _ _ => rfl)
  unfold eachPosition
  rw [h1]
  have hj : j < s.len := by
    apply Classical.byContradiction
    intro hc
    rw [KeySeq.at?_ge (by omega)] at hk
    cases hk
  simp only [Option.getD_some]
  rw [h2 j hj, Nat.zero_add]
  simp only [hk]

/-- The query that asks about each key and each summary directly. -/
def directQuery (q : List (Key α)) : Query (tagTypes α L) where
  containing := fun _ i mask => eachPosition (fun k => contains q k && proper k) i.keys.1 mask
  intersecting := fun _ i mask => eachPosition (intersects q) i.summaries.1 mask
  len_containing := fun _ _ _ => length_eachPosition _ _ _
  len_intersecting := fun _ _ _ => length_eachPosition _ _ _

/-- A summary of something that is accepted intersects the query. -/
theorem intersects_of_contains {q : List (Key α)} {s k : Key α} (hc : Covers s k) (hq : contains q k = true) (hp : proper k = true) :
    intersects q s = true := by
  obtain ⟨x, hx, h1⟩ := List.any_eq_true.mp hq
  refine List.any_eq_true.mpr ⟨x, hx, ?_⟩
  unfold Key.contains at h1
  rw [Bool.and_eq_true, VecSet.isSuperset_iff] at h1
  unfold proper at hp
  rw [Bool.and_eq_true, decide_eq_true_eq, Bool.not_eq_true', List.isEmpty_eq_false_iff] at hp
  obtain ⟨c1, c2, c3⟩ := hc
  unfold Key.intersects
  rw [Bool.and_eq_true]
  constructor
  · have h2 := h1.1
    unfold TimeData.contains at h2
    unfold TimeData.intersects
    split at h2
    · cases h2
    · split at h2
      · cases h2
      · rw [if_neg (by omega), if_neg (by omega)]
  · rw [Bool.not_eq_true', Bool.eq_false_iff, ne_eq, VecSet.isDisjoint_iff]
    intro hd
    obtain ⟨y, hy⟩ := List.exists_mem_of_ne_nil _ hp.1
    exact hd y (h1.2 y hy) (c3 y hy)

theorem getElem?_of_at? {s : KeySeq α} {mask : List Bool} (hm : mask.length = s.len) {j : Nat} (hj : mask[j]? ≠ none) (hv : s.Valid) :
    ∃ k, s.at? j = some k := by
  have : j < mask.length := by
    apply Classical.byContradiction
    intro hc
    exact hj (List.getElem?_eq_none (by omega))
  obtain ⟨k, e, hr⟩ := hv.represents (i := j) (by omega)
  exact ⟨k, hr.at?⟩

theorem directQuery_queryFor (q : List (Key α)) :
    QueryFor (directQuery q : Query (tagTypes α L)) Covers fun _ k => contains q k && proper k where
  containing := fun o i mask j k _ hk => eachPosition_get _ _ _ hk
  intersecting_le := by
    intro o i mask j hm h
    have hlt : mask[j]? ≠ none := by
      intro hc
      have h1 := List.getElem?_eq_none_iff.mp hc
      rw [List.getElem?_eq_none (by rw [(directQuery q : Query (tagTypes α L)).len_intersecting]; exact h1)] at h
      cases h
    obtain ⟨k, hk⟩ := getElem?_of_at? (s := i.summaries.1) hm hlt i.summaries.2
    have h2 := eachPosition_get (intersects q) i.summaries.1 mask hk
    have h3 : (eachPosition (intersects q) i.summaries.1 mask)[j]? = some true := h
    rw [h2] at h3
    cases hmj : mask[j]? with
    | none => rw [hmj] at h3; cases h3
    | some b =>
      rw [hmj] at h3
      cases b with
      | true => rfl
      | false => simp at h3
  intersecting := by
    intro o i mask j s hm hs hmj h o' k _ _ hc
    have h2 := eachPosition_get (intersects q) i.summaries.1 mask hs
    have h3 : (eachPosition (intersects q) i.summaries.1 mask)[j]? = some false := h
    rw [h2, hmj] at h3
    simp only [Option.map_some, Bool.true_and, Option.some.injEq] at h3
    rw [Bool.and_eq_false_iff]
    cases hq : contains q k with
    | false => exact .inl rfl
    | true =>
      right
      cases hp : proper k with
      | false => rfl
      | true =>
        rw [intersects_of_contains hc hq hp] at h3
        cases h3

theorem dnfQuery_containing (h : Vocabulary α) (q : List (Key α)) (o : Nat) (i : LeafIndex (tagTypes α L)) (mask : List Bool) {j : Nat} {k : Key α}
    (hk : i.keys.1.at? j = some k) :
    ((dnfQuery q).containing o i mask)[j]? = (mask[j]?).map (· && (known q i.keys.1 && contains q k)) := by
  obtain ⟨r, h1, h2⟩ := containing_spec i.keys.2 (Vocabulary.table h i.keys.1) q mask
  have : (dnfQuery q).containing o i mask = r := by
    show (containing q i.keys.1 mask).getD mask = r
    rw [h1]
    rfl
  rw [this]
  exact h2 j k hk

theorem dnfQuery_intersecting (h : Vocabulary α) (q : List (Key α)) (o : Nat) (i : BranchIndex (tagTypes α L)) (mask : List Bool) {j : Nat} {k : Key α}
    (hk : i.summaries.1.at? j = some k) :
    ((dnfQuery q).intersecting o i mask)[j]? = (mask[j]?).map (· && (known q i.summaries.1 && intersects q k)) := by
  obtain ⟨r, h1, h2⟩ := intersecting_spec i.summaries.2 (Vocabulary.table h i.summaries.1) q mask
  have : (dnfQuery q).intersecting o i mask = r := by
    show (intersecting q i.summaries.1 mask).getD mask = r
    rw [h1]
    rfl
  rw [this]
  exact h2 j k hk

theorem summaryOf_tags (s : { s : KeySeq α // s.Valid }) {x : α} (h : x ∈ (summaryOf s).tags.elems) : x ∈ s.1.tags.tags.elems := by
  unfold summaryOf KeySeq.summarize at h
  cases h1 : s.1.maxTime.max? with
  | none => rw [h1] at h; exact absurd h (VecSet.mem_empty x)
  | some a =>
    cases h2 : s.1.minTime.min? with
    | none => rw [h1, h2] at h; exact absurd h (VecSet.mem_empty x)
    | some b =>
      cases h3 : s.1.minLamport.min? with
      | none => rw [h1, h2, h3] at h; exact absurd h (VecSet.mem_empty x)
      | some c => rw [h1, h2, h3] at h; exact h

theorem node_content {T : TreeTypes} {t n : PTree T V} (hn : n ∈ t.nodes) {x : Option (T.Key × V)} (hx : x ∈ n.content) : x ∈ t.content := by
  induction t using PTree.induct with
  | leaf i vs => simp only [nodes, List.mem_singleton] at hn; subst hn; exact hx
  | purgedLeaf i => simp only [nodes, List.mem_singleton] at hn; subst hn; exact hx
  | purgedBranch i => simp only [nodes, List.mem_singleton] at hn; subst hn; exact hx
  | branch i cs ih =>
    rcases PTree.mem_nodes_branch.mp hn with rfl | ⟨c, hc, hn⟩
    · exact hx
    · have := ih c hc hn
      simp only [content]
      clear ih
      rename_i hn0
      clear hn hn0
      induction cs with
      | nil => cases hc
      | cons a cs ih2 =>
        rw [contents_cons, List.mem_append]
        rcases List.mem_cons.mp hc with rfl | hc
        · exact .inl this
        · exact .inr (ih2 hc)

theorem FindsTags.leaf {q : List (Key α)} {i : LeafIndex (tagTypes α L)} (h : FindsTags q (.leaf i)) : known q i.keys.1 = true :=
  List.all_eq_true.mpr fun x hx => (VecSet.isSubset_iff _ _).mpr fun y hy => summaryOf_tags i.keys (h x hx y hy)

theorem FindsTags.branch {q : List (Key α)} {i : BranchIndex (tagTypes α L)} (h : FindsTags q (.branch i)) : known q i.summaries.1 = true :=
  List.all_eq_true.mpr fun x hx => (VecSet.isSubset_iff _ _).mpr fun y hy => summaryOf_tags i.summaries (h x hx y hy)

theorem agree (h : Vocabulary α) {q : List (Key α)} {t : PTree (tagTypes α L) V} (hcnt : Counts t)
    (hf : ∀ n ∈ t.nodes, FindsTags q n.index) (hp : ∀ k v, some (k, v) ∈ t.content → proper (k : Key α) = true) :
    t.All (AgreeOn (dnfQuery q) (directQuery q)) := by
  intro n hn
  have hfn := hf n hn
  have hc : Counts n := fun m hm => hcnt m (PTree.nodes_trans hn hm)
  have ht := tagTypes_lawful (L := L) h
  cases n with
  | leaf i vs =>
    intro o
    apply List.ext_getElem?
    intro j
    rcases Nat.lt_or_ge j ((tagTypes α L).keys.len i.keys) with hj | hj
    · obtain ⟨k, e, hr⟩ := i.keys.2.represents (i := j) hj
      rw [dnfQuery_containing h q o i _ hr.at?]
      refine Eq.trans ?_ (eachPosition_get (fun k => contains q k && proper k) i.keys.1 _ hr.at?).symm
      have hpk : proper k = true := by
        have hl : (tagTypes α L).keys.len i.keys = vs.length := PTree.All.root hc
        refine hp k (vs[j]'(by omega)) (node_content hn (List.mem_of_getElem? (i := j) ?_))
        simp only [content, List.getElem?_map]
        rw [Option.map_eq_some_iff]
        refine ⟨(k, vs[j]'(by omega)), List.getElem?_zip_eq_some.mpr ⟨?_, List.getElem?_eq_getElem _⟩, rfl⟩
        rw [CompactSeq.getElem?_toVec ht.keys, if_pos hj]
        exact hr.at?
      rw [hfn.leaf, hpk]
      simp
    · rw [List.getElem?_eq_none (by rw [(dnfQuery q).len_containing]; simpa using hj),
        List.getElem?_eq_none (by rw [(directQuery q).len_containing]; simpa using hj)]
  | branch i cs =>
    intro o
    apply List.ext_getElem?
    intro j
    rcases Nat.lt_or_ge j ((tagTypes α L).sums.len i.summaries) with hj | hj
    · obtain ⟨k, e, hr⟩ := i.summaries.2.represents (i := j) hj
      rw [dnfQuery_intersecting h q o i _ hr.at?]
      refine Eq.trans ?_ (eachPosition_get (intersects q) i.summaries.1 _ hr.at?).symm
      rw [hfn.branch]
      simp
    · rw [List.getElem?_eq_none (by rw [(dnfQuery q).len_intersecting]; simpa using hj),
        List.getElem?_eq_none (by rw [(directQuery q).len_intersecting]; simpa using hj)]
  | purgedLeaf i => trivial
  | purgedBranch i => trivial

end Banyan.Tag
