import Verif.Proofs.IndexIter
import Verif.Props.Nodes
import Verif.Props.Iter
/-
Iterating over indexes and errors of iterators: C33.
-/
set_option autoImplicit false
namespace Banyan

open PTree Concrete

variable {T : TreeTypes} {V : Type} {E : Env T V} {X : Type} {cx : Ctx E} {s : St E} {t : PTree T V}

/-! ### C33 -/

theorem Shows.inv (ok : cx.Ok) (hr : Reach cx s) (hs : Small E s) (ht : Shows cx s t) : Inv (NodeInv.trivial cx) s (some t) := by
  obtain ⟨t0, hi⟩ := ok.inv hr hs
  rw [← hi.shows ok.env ht]
  exact hi

/-- C33: iterating over the indexes delivers the indexes of the nodes that are not pruned by the query, parents before
children, children from left to right or (backward) from right to left. -/
theorem C33_indexes (ok : cx.Ok) (hr : Reach cx s) (hs : Small E s) (ht : Shows cx s t) (q : Query T) (mode : Mode) :
    Enumerates (fun between n fuel t => Tree.indexes q mode between n fuel t) cx.sec (snapshot cx s) s
      ((visits q mode t 0).map fun x => x.2.index) :=
  (ht.inv ok hr hs).holds.snap.indexes ok.env ok.types mode

/-- C33: on the empty tree, nothing is delivered. -/
theorem C33_empty (hs : s.root = none) (q : Query T) (mode : Mode) (between : Nat → St E → St E) (n fuel : Nat) :
    Tree.indexes q mode between n fuel (snapshot cx s) s = .ok [] s := by
  unfold Tree.indexes snapshot
  rw [hs]
  rfl

/-- C33: with the query for everything, every node is visited exactly once, in the order of the nodes. -/
theorem C33_all (ok : cx.Ok) (hr : Reach cx s) (hs : Small E s) (ht : Shows cx s t) :
    (visits allQuery .forward t 0).map Prod.snd = t.nodes :=
  visits_all ok.types t ((ht.inv ok hr hs).holds.good t rfl).wf.formed 0

/-- C33: forward and backward visit the same nodes. -/
theorem C33_backward (q : Query T) : (visits q .backward t 0).Perm (visits q .forward t 0) := visits_perm t 0

/-- C33: a leaf containing a matching element is visited. -/
theorem C33_match (ok : cx.Ok) (hr : Reach cx s) (hs : Small E s) (ht : Shows cx s t) {c : List (Option (T.Key × V))} (hc : Contains cx s c)
    (q : Query T) (mode : Mode) (covers : T.Summary → T.Key → Prop) (m : Nat → T.Key → Bool) (hcov : Covering T covers) (hq : QueryFor q covers m)
    {n : Nat} {k : T.Key} {v : V} (hn : c[n]? = some (some (k, v))) (hm : m n k = true) :
    ∃ base i vs, (base, PTree.leaf i vs) ∈ visits q mode t 0 ∧ base ≤ n ∧
      (T.keys.toVec i.keys)[n - base]? = some k ∧ vs[n - base]? = some v := by
  have hi := ht.inv ok hr hs
  rw [hi.holds.contains ok.env ok.types] at hc
  subst hc
  obtain ⟨base, i, vs, h1, h2⟩ := visits_match ok.types hcov hq t (hi.holds.good t rfl).wf.formed 0 n k v hn (by rw [Nat.zero_add]; exact hm)
  rw [Nat.zero_add] at h2
  refine ⟨base, i, vs, ?_, h2⟩
  cases mode with
  | forward => exact h1
  | backward => exact (visits_perm t 0).mem_iff.mpr h1

theorem mem_visitsL (q : Query T) (mode : Mode) (cs : List (PTree T V)) (f : List Bool) (o : Nat) (x : Nat × PTree T V) :
    x ∈ visitsL q mode cs f o ↔ ∃ pre c post, cs = pre ++ c :: post ∧ f[pre.length]? = some true ∧ x ∈ visits q mode c (o + sizes pre) := by
  induction cs generalizing f o with
  | nil => simp [visitsL]
  | cons c cs ih =>
    cases f with
    | nil => simp [visitsL]
    | cons b f =>
      have h1 : x ∈ visitsL q mode (c :: cs) (b :: f) o ↔ (b = true ∧ x ∈ visits q mode c o) ∨ x ∈ visitsL q mode cs f (o + c.index.count) := by
        cases mode <;> cases b <;> simp [visitsL, or_comm]
      rw [h1, ih]
      constructor
      · rintro (⟨h2, h3⟩ | ⟨pre, d, post, h2, h3, h4⟩)
        · exact ⟨[], c, cs, rfl, by simp [h2], by simpa [sizes_nil] using h3⟩
        · exact ⟨c :: pre, d, post, by simp [h2], by simpa using h3, by rw [sizes_cons, ← Nat.add_assoc]; exact h4⟩
      · rintro ⟨pre, d, post, h2, h3, h4⟩
        cases pre with
        | nil =>
          simp only [List.nil_append, List.cons.injEq] at h2
          obtain ⟨rfl, rfl⟩ := h2
          exact .inl ⟨by simpa using h3, by simpa [sizes_nil] using h4⟩
        | cons e pre =>
          simp only [List.cons_append, List.cons.injEq] at h2
          obtain ⟨rfl, rfl⟩ := h2
          exact .inr ⟨pre, d, post, rfl, by simpa using h3, by rw [sizes_cons, ← Nat.add_assoc] at h4; exact h4⟩

theorem visits_self (q : Query T) (mode : Mode) (t : PTree T V) (o : Nat) : (o, t) ∈ visits q mode t o := by
  obtain ⟨l, hl⟩ := visits_head (q := q) mode t o
  rw [hl]
  simp

theorem visits_trans (q : Query T) (mode : Mode) {t n : PTree T V} {o o' : Nat} {x : Nat × PTree T V} (h1 : (o', n) ∈ visits q mode t o)
    (h2 : x ∈ visits q mode n o') : x ∈ visits q mode t o := by
  induction t using PTree.induct generalizing o with
  | leaf i vs => simp only [visits, List.mem_singleton, Prod.mk.injEq] at h1; obtain ⟨rfl, rfl⟩ := h1; exact h2
  | purgedLeaf i => simp only [visits, List.mem_singleton, Prod.mk.injEq] at h1; obtain ⟨rfl, rfl⟩ := h1; exact h2
  | purgedBranch i => simp only [visits, List.mem_singleton, Prod.mk.injEq] at h1; obtain ⟨rfl, rfl⟩ := h1; exact h2
  | branch i cs ih =>
    simp only [visits, List.mem_cons, Prod.mk.injEq, mem_visitsL] at h1
    rcases h1 with ⟨rfl, rfl⟩ | ⟨pre, c, post, h3, h4, h5⟩
    · exact h2
    · simp only [visits, List.mem_cons, mem_visitsL]
      exact .inr ⟨pre, c, post, h3, h4, ih c (by simp [h3]) h5⟩

/-- C33: a node is visited if and only if it is the root, or its parent is visited and the bit for the node in the
result of the query on the parent is set. -/
theorem C33_pruned (q : Query T) (mode : Mode) {o : Nat} {n : PTree T V} :
    (o, n) ∈ visits q mode t 0 ↔ (o = 0 ∧ n = t) ∨ ∃ o' i pre post, (o', PTree.branch i (pre ++ n :: post)) ∈ visits q mode t 0 ∧
      o = o' + (pre.map fun c => c.index.count).sum ∧
      (q.intersecting o' i (List.replicate (T.sums.len i.summaries) true))[pre.length]? = some true := by
  have key : ∀ base, (o, n) ∈ visits q mode t base → (o = base ∧ n = t) ∨ ∃ o' i pre post,
      (o', PTree.branch i (pre ++ n :: post)) ∈ visits q mode t base ∧ o = o' + sizes pre ∧
      (q.intersecting o' i (List.replicate (T.sums.len i.summaries) true))[pre.length]? = some true := by
    induction t using PTree.induct with
    | leaf i vs => intro base h; simp only [visits, List.mem_singleton, Prod.mk.injEq] at h; exact .inl h
    | purgedLeaf i => intro base h; simp only [visits, List.mem_singleton, Prod.mk.injEq] at h; exact .inl h
    | purgedBranch i => intro base h; simp only [visits, List.mem_singleton, Prod.mk.injEq] at h; exact .inl h
    | branch i cs ih =>
      intro base h
      simp only [visits, List.mem_cons, Prod.mk.injEq, mem_visitsL] at h
      rcases h with h | ⟨pre, c, post, h3, h4, h5⟩
      · exact .inl h
      · right
        rcases ih c (by simp [h3]) _ h5 with ⟨rfl, rfl⟩ | ⟨o', j, pre', post', g1, g2⟩
        · exact ⟨base, i, pre, post, by rw [← h3]; exact visits_self _ _ _ _, rfl, h4⟩
        · refine ⟨o', j, pre', post', ?_, g2⟩
          simp only [visits, List.mem_cons, mem_visitsL]
          exact .inr ⟨pre, c, post, h3, h4, g1⟩
  constructor
  · exact key 0
  · rintro (⟨rfl, rfl⟩ | ⟨o', i, pre, post, h1, h2, h3⟩)
    · exact visits_self _ _ _ _
    · refine visits_trans q mode h1 ?_
      simp only [visits, List.mem_cons, mem_visitsL]
      exact .inr ⟨pre, n, post, rfl, h3, by rw [h2]; exact visits_self _ _ _ _⟩

/-- The number of nodes of the tree of ten elements. -/
def indexCount (q : Query types) (m : Mode) : Nat :=
  match Tree.indexes q m idle 100 100 (snapshot (ctx tiny) unpacked10) unpacked10 with
  | .ok l _ => l.length
  | .error _ _ => 0

/-- There are 11 nodes. A query for the keys 3 to 4 leaves out some of them. -/
example : indexCount allQuery .forward = 11 ∧ indexCount (keyRange 3 4) .forward = 6 ∧ indexCount (keyRange 3 4) .backward = 6 := by
  refine ⟨?_, ?_, ?_⟩ <;> decide +kernel

example : ∃ t, Shows (ctx tiny) unpacked10 t ∧
    Enumerates (fun between n fuel t => Tree.indexes (keyRange 3 4) .backward between n fuel t) (ctx tiny).sec
      (snapshot (ctx tiny) unpacked10) unpacked10 ((visits (keyRange 3 4) .backward t 0).map fun x => x.2.index) ∧
    ∃ base i vs, (base, PTree.leaf i vs) ∈ visits (keyRange 3 4) .backward t 0 ∧ base ≤ 4 ∧ vs[4 - base]? = some (40 : Nat) := by
  obtain ⟨t, ht⟩ := unpacked10_shows
  refine ⟨t, ht, C33_indexes tiny_ok unpacked10_reach unpacked10_small ht _ _, ?_⟩
  obtain ⟨base, i, vs, h1, h2, _, h3⟩ := C33_match tiny_ok unpacked10_reach unpacked10_small ht unpacked10_contains (keyRange 3 4) .backward covers _
    covering (keyRange_queryFor 3 4) (n := 4) (k := (4 : Nat)) (v := (40 : Nat)) rfl rfl
  exact ⟨base, i, vs, h1, h2, h3⟩

end Banyan
