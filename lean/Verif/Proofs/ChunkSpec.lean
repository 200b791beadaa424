import Verif.Proofs.Iter
import Verif.Proofs.Retain
/-
The chunks of a tree and its content.
-/
set_option autoImplicit false
namespace Banyan

open PTree

variable {T : TreeTypes} {V : Type} {E : Env T V} {X : Type} {q : Query T} {mkExtra : Index T → X}

theorem matching_append (m : Nat → T.Key → Bool) (o : Nat) (a b : List (Option (T.Key × V))) :
    matching m o (a ++ b) = matching m o a ++ matching m (o + a.length) b := by
  induction a generalizing o with
  | nil => simp [matching]
  | cons x a ih =>
    have h1 : o + 1 + a.length = o + (a.length + 1) := by omega
    cases x with
    | none => simp only [List.cons_append, matching, List.length_cons]; rw [ih, h1]
    | some x =>
      obtain ⟨k, v⟩ := x
      simp only [List.cons_append, matching, List.length_cons]
      rw [ih, h1]
      split <;> simp

theorem matching_none (m : Nat → T.Key → Bool) (o : Nat) (c : List (Option (T.Key × V)))
    (h : ∀ (j : Nat) k v, c[j]? = some (some (k, v)) → m (o + j) k = false) : matching m o c = [] := by
  induction c generalizing o with
  | nil => rfl
  | cons x c ih =>
    have h' : matching m (o + 1) c = [] := ih (o + 1) fun j k v hj => by
      have := h (j + 1) k v (by simpa using hj)
      rwa [show o + 1 + j = o + (j + 1) by omega]
    cases x with
    | none => exact h'
    | some x =>
      obtain ⟨k, v⟩ := x
      have := h 0 k v rfl
      simp only [Nat.add_zero] at this
      simp [matching, this, h']

theorem matching_replicate (m : Nat → T.Key → Bool) (o n : Nat) : matching m o (List.replicate n (none : Option (T.Key × V))) = [] :=
  matching_none _ _ _ fun j k v hj => by
    rw [List.getElem?_replicate] at hj
    split at hj <;> cases hj

theorem mem_matching (m : Nat → T.Key → Bool) (o : Nat) (c : List (Option (T.Key × V))) (n : Nat) (k : T.Key) (v : V) :
    (n, k, v) ∈ matching m o c ↔ o ≤ n ∧ c[n - o]? = some (some (k, v)) ∧ m n k = true := by
  induction c generalizing o with
  | nil => simp [matching]
  | cons x c ih =>
    have step : (o + 1 ≤ n ∧ c[n - (o + 1)]? = some (some (k, v)) ∧ m n k = true) ↔
        (o < n ∧ (x :: c)[n - o]? = some (some (k, v)) ∧ m n k = true) := by
      constructor
      · rintro ⟨h1, h2, h3⟩
        refine ⟨h1, ?_, h3⟩
        rw [show n - o = (n - (o + 1)) + 1 by omega, List.getElem?_cons_succ]; exact h2
      · rintro ⟨h1, h2, h3⟩
        refine ⟨h1, ?_, h3⟩
        rw [show n - o = (n - (o + 1)) + 1 by omega, List.getElem?_cons_succ] at h2; exact h2
    cases x with
    | none =>
      simp only [matching]
      rw [ih, step]
      constructor
      · rintro ⟨h1, h2⟩; exact ⟨Nat.le_of_lt h1, h2⟩
      · rintro ⟨h1, h2, h3⟩
        refine ⟨?_, h2, h3⟩
        rcases Nat.lt_or_ge o n with h | h
        · exact h
        · have : n = o := by omega
          subst this
          simp at h2
    | some x =>
      obtain ⟨k', v'⟩ := x
      simp only [matching]
      have key : (n, k, v) ∈ matching m (o + 1) c ∨ ((n, k, v) = (o, k', v') ∧ m o k' = true) ↔
          o ≤ n ∧ (some (k', v') :: c)[n - o]? = some (some (k, v)) ∧ m n k = true := by
        rw [ih, step]
        constructor
        · rintro (⟨h1, h2⟩ | ⟨h1, h2⟩)
          · exact ⟨Nat.le_of_lt h1, h2⟩
          · cases h1
            exact ⟨Nat.le_refl _, by simp, h2⟩
        · rintro ⟨h1, h2, h3⟩
          rcases Nat.lt_or_ge o n with h | h
          · exact .inl ⟨h, h2, h3⟩
          · have : n = o := by omega
            subst this
            simp only [Nat.sub_self, List.getElem?_cons_zero, Option.some.injEq, Prod.mk.injEq] at h2
            obtain ⟨rfl, rfl⟩ := h2
            exact .inr ⟨rfl, h3⟩
      rw [← key]
      split
      · rename_i hm
        simp only [List.mem_cons]
        constructor
        · rintro (h | h)
          · exact .inr ⟨h, hm⟩
          · exact .inl h
        · rintro (h | ⟨h, _⟩)
          · exact .inr h
          · exact .inl h
      · rename_i hm
        constructor
        · exact .inl
        · rintro (h | ⟨_, h⟩)
          · exact h
          · exact absurd h hm

theorem matching_bounds (m : Nat → T.Key → Bool) (o : Nat) (c : List (Option (T.Key × V))) :
    ∀ x ∈ matching m o c, o ≤ x.1 ∧ x.1 < o + c.length := by
  rintro ⟨n, k, v⟩ hx
  obtain ⟨h1, h2, _⟩ := (mem_matching ..).mp hx
  have := (List.getElem?_eq_some_iff.mp h2).1
  exact ⟨h1, by omega⟩

/-- The elements are delivered in ascending order of their offsets (in particular no offset occurs twice). -/
theorem matching_sorted (m : Nat → T.Key → Bool) (o : Nat) (c : List (Option (T.Key × V))) :
    (matching m o c).Pairwise fun a b => a.1 < b.1 := by
  induction c generalizing o with
  | nil => exact .nil
  | cons x c ih =>
    cases x with
    | none => exact ih _
    | some x =>
      obtain ⟨k, v⟩ := x
      simp only [matching]
      split
      · refine .cons ?_ (ih _)
        intro b hb
        have := (matching_bounds _ _ _ b hb).1
        simp only
        omega
      · exact ih _

/-! ### leaves -/

theorem leafData_matching (m : Nat → T.Key → Bool) (o : Nat) (bs : List Bool) (xs : List (T.Key × V))
    (h : ∀ (j : Nat) x, xs[j]? = some x → bs[j]? = some (m (o + j) x.1)) : leafData o bs xs = matching m o (xs.map some) := by
  induction xs generalizing o bs with
  | nil => cases bs with
    | nil => rfl
    | cons b bs => cases b <;> rfl
  | cons x xs ih =>
    obtain ⟨k, v⟩ := x
    have h0 := h 0 (k, v) rfl
    cases bs with
    | nil => simp at h0
    | cons b bs =>
      simp only [List.getElem?_cons_zero, Option.some.injEq, Nat.add_zero] at h0
      have ih' := ih (o + 1) bs fun j x hj => by
        have := h (j + 1) x (by simpa using hj)
        rw [show o + 1 + j = o + (j + 1) by omega]
        simpa using this
      cases b with
      | false => simp only [leafData, List.map_cons, matching, ← h0, Bool.false_eq_true, if_false]; exact ih'
      | true => simp only [leafData, List.map_cons, matching, ← h0, if_true]; rw [ih']

theorem leafData_sublist (o : Nat) (bs : List Bool) (xs : List (T.Key × V)) :
    (leafData o bs xs).Sublist (matching (fun _ _ => true) o (xs.map some)) := by
  induction xs generalizing o bs with
  | nil => cases bs with
    | nil => exact .slnil
    | cons b bs => cases b <;> exact .slnil
  | cons x xs ih =>
    obtain ⟨k, v⟩ := x
    cases bs with
    | nil => exact List.nil_sublist _
    | cons b bs =>
      cases b with
      | false => exact .cons _ (ih _ _)
      | true => exact .cons_cons _ (ih _ _)

/-! ### whole trees -/

/-- A chunk delivers only what its range contains: existing elements, in order, with their offsets. -/
def ChunkOf (o : Nat) (c : List (Option (T.Key × V))) (ch : Chunk T V X) : Prop :=
  o ≤ ch.range.1 ∧ ch.range.2 ≤ o + c.length ∧
    ch.data.Sublist (matching (fun _ _ => true) ch.range.1 ((c.drop (ch.range.1 - o)).take (ch.range.2 - ch.range.1)))

theorem ChunkOf.append_left {o : Nat} {a b : List (Option (T.Key × V))} {ch : Chunk T V X} (h : ChunkOf o a ch) :
    ChunkOf o (a ++ b) ch := by
  obtain ⟨h1, h2, h3⟩ := h
  refine ⟨h1, by rw [List.length_append]; omega, ?_⟩
  rcases Nat.le_total ch.range.2 ch.range.1 with h | h
  · rw [Nat.sub_eq_zero_of_le h] at h3 ⊢
    simpa using h3
  · rw [List.drop_append_of_le_length (by omega), List.take_append_of_le_length (by rw [List.length_drop]; omega)]
    exact h3

theorem ChunkOf.append_right {o : Nat} {a b : List (Option (T.Key × V))} {ch : Chunk T V X} (h : ChunkOf (o + a.length) b ch) :
    ChunkOf o (a ++ b) ch := by
  obtain ⟨h1, h2, h3⟩ := h
  refine ⟨by omega, by rw [List.length_append]; omega, ?_⟩
  rw [List.drop_append, List.drop_of_length_le (by omega), List.nil_append, show ch.range.1 - o - a.length = ch.range.1 - (o + a.length) by omega]
  exact h3

theorem chunkOf_skip (o : Nat) (c : List (Option (T.Key × V))) (i : Index T) (h : c.length = i.count) :
    ChunkOf o c (skipChunk mkExtra o i) :=
  ⟨Nat.le_refl _, by simp [skipChunk, h], List.nil_sublist _⟩

theorem chunksOf_chunkOf (ht : T.Lawful) (t : PTree T V) (hk : IterOk t) (o : Nat) :
    ∀ ch ∈ chunksOf q mkExtra t o, ChunkOf o t.content ch := by
  have hlen := content_length ht hk.counts
  induction t using PTree.induct generalizing o with
  | leaf i vs =>
    intro ch hch
    simp only [chunksOf, List.mem_singleton] at hch
    subst hch
    have hl : T.keys.len i.keys = vs.length := PTree.All.root hk
    refine ⟨Nat.le_refl _, by simp [hlen, index, Index.count], ?_⟩
    simp only [Nat.sub_self, List.drop_zero, Nat.add_sub_cancel_left]
    rw [List.take_of_length_le (by rw [hlen]; exact Nat.le_refl _)]
    exact leafData_sublist _ _ _
  | purgedLeaf i =>
    intro ch hch
    simp only [chunksOf, List.mem_singleton] at hch
    subst hch
    exact chunkOf_skip _ _ _ hlen
  | purgedBranch i =>
    intro ch hch
    simp only [chunksOf, List.mem_singleton] at hch
    subst hch
    exact chunkOf_skip _ _ _ hlen
  | branch i cs ih =>
    intro ch hch
    simp only [chunksOf] at hch
    split at hch
    · have hc := PTree.All.children hk
      have hcl : ∀ c ∈ cs, c.content.length = c.index.count := fun c hcm => content_length ht (IterOk.counts (hc c hcm))
      simp only [content]
      rename_i ha
      clear hlen hk ha
      generalize q.intersecting o i _ = f at hch
      induction cs generalizing o f with
      | nil => simp [piecesOf] at hch
      | cons c cs ih2 =>
        cases f with
        | nil => simp [piecesOf] at hch
        | cons b f =>
          simp only [piecesOf, List.mem_append] at hch
          simp only [contents_cons]
          have hcl' := hcl c (by simp)
          rcases hch with hch | hch
          · apply ChunkOf.append_left
            cases b with
            | false =>
              simp only [Bool.false_eq_true, if_false, List.mem_singleton] at hch
              subst hch
              exact chunkOf_skip _ _ _ hcl'
            | true => exact ih c (by simp) (hc c (by simp)) o hcl' ch (by simpa using hch)
          · apply ChunkOf.append_right
            rw [hcl']
            exact ih2 (fun c hcm => ih c (by simp [hcm])) (o + c.index.count) (fun c hcm => hc c (by simp [hcm])) (fun c hcm => hcl c (by simp [hcm])) f hch
    · simp only [List.mem_singleton] at hch
      subst hch
      exact chunkOf_skip _ _ _ hlen

theorem consecutive_append {o e e' : Nat} {a b : List (Chunk T V X)} (h1 : Consecutive o a e) (h2 : Consecutive e b e') :
    Consecutive o (a ++ b) e' := by
  induction a generalizing o with
  | nil => cases h1; exact h2
  | cons ch a ih => exact ⟨h1.1, h1.2.1, ih h1.2.2⟩

theorem consecutive_skip (o : Nat) (i : Index T) (h : 0 < i.count) :
    Consecutive o [(skipChunk mkExtra o i : Chunk T V X)] (o + i.count) := ⟨rfl, by simp only [skipChunk]; omega, rfl⟩

theorem chunksOf_consecutive (t : PTree T V) (hk : IterOk t) (hp : t.All fun n => 0 < n.index.count) (o : Nat) :
    Consecutive o (chunksOf q mkExtra t o) (o + t.index.count) := by
  induction t using PTree.induct generalizing o with
  | leaf i vs =>
    have : 0 < T.keys.len i.keys := PTree.All.root hp
    exact ⟨rfl, by simp only; omega, rfl⟩
  | purgedLeaf i => exact consecutive_skip o (.leaf i) (PTree.All.root hp)
  | purgedBranch i => exact consecutive_skip o (.branch i) (PTree.All.root hp)
  | branch i cs ih =>
    simp only [chunksOf]
    have hcnt : i.count = sizes cs := (PTree.All.root hk).2.1
    have hsum : T.sums.len i.summaries = cs.length := (PTree.All.root hk).2.2.2
    split
    · rename_i ha
      have hc := PTree.All.children hk
      have hpc := PTree.All.children hp
      show Consecutive o _ (o + i.count)
      rw [hcnt]
      have hfl : (q.intersecting o i (List.replicate (T.sums.len i.summaries) true)).length = cs.length := by
        rw [q.len_intersecting, List.length_replicate, hsum]
      clear hcnt hsum hk hp ha
      generalize q.intersecting o i _ = f at hfl
      induction cs generalizing o f with
      | nil => simp [piecesOf, Consecutive, sizes_nil]
      | cons c cs ih2 =>
        cases f with
        | nil => simp at hfl
        | cons b f =>
          simp only [piecesOf]
          rw [sizes_cons, ← Nat.add_assoc]
          refine consecutive_append (e := o + c.index.count) ?_ (ih2 (fun c hcm => ih c (by simp [hcm])) _ (fun c hcm => hc c (by simp [hcm]))
            (fun c hcm => hpc c (by simp [hcm])) f (by simpa using hfl))
          cases b with
          | false => exact consecutive_skip o c.index (PTree.All.root (hpc c (by simp)))
          | true => simpa using ih c (by simp) (hc c (by simp)) (hpc c (by simp)) o
    · exact consecutive_skip o (.branch i) (PTree.All.root hp)

theorem anyTrue_false {f : List Bool} (h : anyTrue f = false) (j : Nat) (hj : j < f.length) : f[j]? = some false := by
  unfold anyTrue at h
  rw [List.any_eq_false] at h
  have := h f[j] (List.getElem_mem hj)
  rw [List.getElem?_eq_getElem hj]
  simpa using this

/-- A pruned child contains no match. -/
theorem pruned_none (ht : T.Lawful) {covers : T.Summary → T.Key → Prop} {m : Nat → T.Key → Bool} (hcov : Covering T covers)
    (hq : QueryFor q covers m) {i : BranchIndex T} {cs : List (PTree T V)} (hw : Formed (.branch i cs)) {o : Nat}
    {pre post : List (PTree T V)} {c : PTree T V} (hcs : cs = pre ++ c :: post)
    (hf : (q.intersecting o i (List.replicate (T.sums.len i.summaries) true))[pre.length]? = some false) :
    matching m (o + sizes pre) c.content = [] := by
  have hcm : c ∈ cs := by rw [hcs]; simp
  have hwc : Formed c := PTree.All.child hw hcm
  obtain ⟨hne, _, hcnt, hsum⟩ := PTree.All.root hw
  have hsl : T.sums.len i.summaries = cs.length := by
    rw [hsum, ht.sums.len_ofList _ (by simpa using hne)]; simp
  apply matching_none
  intro j k v hj
  have hcl := content_length ht hwc.counts
  have hjl := (List.getElem?_eq_some_iff.mp hj).1
  have hsz : sizes cs = sizes pre + (c.index.count + sizes post) := by rw [hcs, sizes_append, sizes_cons]
  have hcnt' : i.count = sizes cs := hcnt
  refine hq.intersecting o i (List.replicate (T.sums.len i.summaries) true) pre.length c.index.summarize (by simp) ?_ ?_ hf (o + sizes pre + j) k
    (by omega) (by omega) (covers_content ht hcov hwc (List.mem_of_getElem? hj))
  · rw [hsum, ht.sums.get_ofList _ _ (by simpa using hne), hcs]
    simp
  · rw [List.getElem?_replicate, hsl, hcs]
    simp

theorem chunksOf_matching (ht : T.Lawful) {covers : T.Summary → T.Key → Prop} {m : Nat → T.Key → Bool} (hcov : Covering T covers)
    (hq : QueryFor q covers m) (t : PTree T V) (hw : Formed t) (o : Nat) :
    (chunksOf q mkExtra t o).flatMap Chunk.data = matching m o t.content := by
  induction t using PTree.induct generalizing o with
  | leaf i vs =>
    simp only [chunksOf, List.flatMap_cons, List.flatMap_nil, List.append_nil, content]
    have hl : T.keys.len i.keys = vs.length := (PTree.All.root hw).1
    apply leafData_matching
    intro j x hj
    obtain ⟨k, v⟩ := x
    rw [List.getElem?_zip_eq_some] at hj
    obtain ⟨h1, h2⟩ := hj
    rw [CompactSeq.getElem?_toVec ht.keys] at h1
    split at h1
    · rename_i hjl
      rw [hq.containing o i _ j k (by simp) h1, List.getElem?_replicate, if_pos hjl]
      simp
    · cases h1
  | purgedLeaf i => simp [chunksOf, skipChunk, content, matching_replicate]
  | purgedBranch i => simp [chunksOf, skipChunk, content, matching_replicate]
  | branch i cs ih =>
    have hk := hw.iterOk ht
    obtain ⟨_, hcnt, _, hsum⟩ := PTree.All.root hk
    have hfl : (q.intersecting o i (List.replicate (T.sums.len i.summaries) true)).length = cs.length := by
      rw [q.len_intersecting, List.length_replicate, hsum]
    have hcl : ∀ c ∈ cs, c.content.length = c.index.count := fun c hc => content_length ht (PTree.All.children hk.counts c hc)
    have hpr : ∀ pre c post, cs = pre ++ c :: post →
        (q.intersecting o i (List.replicate (T.sums.len i.summaries) true))[pre.length]? = some false →
        matching m (o + sizes pre) c.content = [] := fun pre c post hcs hf => pruned_none ht hcov hq hw hcs hf
    simp only [chunksOf, content]
    split
    · have key : ∀ pre todo fpre ftodo, cs = pre ++ todo →
          q.intersecting o i (List.replicate (T.sums.len i.summaries) true) = fpre ++ ftodo → fpre.length = pre.length →
          (piecesOf q mkExtra todo ftodo (o + sizes pre)).flatMap Chunk.data = matching m (o + sizes pre) (contents todo) := by
        intro pre todo
        induction todo generalizing pre with
        | nil => intro fpre ftodo _ _ _; simp [piecesOf, matching]
        | cons c todo ih2 =>
          intro fpre ftodo h1 h2 h3
          cases ftodo with
          | nil =>
            rw [h2, h1] at hfl
            simp [h3] at hfl
          | cons b ftodo =>
            have hcm : c ∈ cs := by rw [h1]; simp
            have hsz : o + sizes (pre ++ [c]) = o + sizes pre + c.index.count := by rw [sizes_append, sizes_cons, sizes_nil]; omega
            have := ih2 (pre ++ [c]) (fpre ++ [b]) ftodo (by simp [h1]) (by simp [h2]) (by simp [h3])
            rw [hsz] at this
            simp only [piecesOf, List.flatMap_append, contents_cons]
            rw [this, matching_append, hcl c hcm]
            congr 1
            cases b with
            | true => simpa using ih c hcm (PTree.All.child hw hcm) (o + sizes pre)
            | false =>
              rw [hpr pre c todo h1 (by rw [h2, ← h3]; simp)]
              simp [skipChunk]
      simpa [sizes_nil] using key [] cs [] _ rfl rfl rfl
    · rename_i ha
      simp only [skipChunk, List.flatMap_cons, List.flatMap_nil, List.append_nil]
      symm
      have key : ∀ pre todo, cs = pre ++ todo → matching m (o + sizes pre) (contents todo) = [] := by
        intro pre todo
        induction todo generalizing pre with
        | nil => intro _; simp [matching]
        | cons c todo ih2 =>
          intro h1
          have hcm : c ∈ cs := by rw [h1]; simp
          have hsz : o + sizes (pre ++ [c]) = o + sizes pre + c.index.count := by rw [sizes_append, sizes_cons, sizes_nil]; omega
          have := ih2 (pre ++ [c]) (by simp [h1])
          rw [hsz] at this
          rw [contents_cons, matching_append, hcl c hcm, this, List.append_nil]
          refine hpr pre c todo h1 (anyTrue_false (by simpa using ha) _ ?_)
          rw [hfl, h1]
          simp
      simpa [sizes_nil] using key [] cs rfl

end Banyan
