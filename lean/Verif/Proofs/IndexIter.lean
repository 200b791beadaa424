import Verif.Spec.IndexIter
import Verif.Proofs.SnapIter
/-
The stack machine of the index iterators visits the nodes that are not pruned.
-/
set_option autoImplicit false
namespace Banyan

open PTree

variable {T : TreeTypes} {V : Type} {E : Env T V}

mutual
/-- The number of turns for a tree. -/
def turns (q : Query T) : PTree T V → Nat → Nat
  | .leaf .., _ => 1
  | .purgedLeaf .., _ => 1
  | .purgedBranch .., _ => 1
  | .branch i cs, o => turnsL q cs (q.intersecting o i (List.replicate (T.sums.len i.summaries) true)) o + 2
def turnsL (q : Query T) : List (PTree T V) → List Bool → Nat → Nat
  | c :: cs, b :: bs, o => (if b then turns q c o else 0) + 1 + turnsL q cs bs (o + c.index.count)
  | _, _, _ => 0
end

theorem turnsL_append (q : Query T) (as bs : List (PTree T V)) (fs gs : List Bool) (o : Nat)
    (h : fs.length = as.length) :
    turnsL q (as ++ bs) (fs ++ gs) o = turnsL q as fs o + turnsL q bs gs (o + sizes as) := by
  induction as generalizing fs o with
  | nil =>
    have : fs = [] := List.length_eq_zero_iff.mp h
    subst this
    simp [turnsL, sizes]
  | cons a as ih =>
    cases fs with
    | nil => simp at h
    | cons f fs =>
      simp only [List.cons_append, turnsL]
      rw [ih fs _ (by simpa using h), sizes_cons, Nat.add_assoc, Nat.add_assoc, Nat.add_assoc]
      omega

theorem visitsL_append (q : Query T) (as bs : List (PTree T V)) (fs gs : List Bool) (o : Nat)
    (h : fs.length = as.length) :
    visitsL q .backward (as ++ bs) (fs ++ gs) o = visitsL q .backward bs gs (o + sizes as) ++ visitsL q .backward as fs o := by
  induction as generalizing fs o with
  | nil =>
    have : fs = [] := List.length_eq_zero_iff.mp h
    subst this
    simp [visitsL, sizes]
  | cons a as ih =>
    cases fs with
    | nil => simp at h
    | cons f fs =>
      simp only [List.cons_append, visitsL]
      rw [ih fs _ (by simpa using h), sizes_cons, Nat.add_assoc, List.append_assoc]

mutual
theorem visits_nodes (q : Query T) (m : Mode) (t : PTree T V) (o : Nat) : ∀ x ∈ visits q m t o, x.2 ∈ t.nodes := by
  intro x hx
  cases t with
  | leaf i vs => simp only [visits, List.mem_singleton] at hx; subst hx; simp [PTree.nodes]
  | purgedLeaf i => simp only [visits, List.mem_singleton] at hx; subst hx; simp [PTree.nodes]
  | purgedBranch i => simp only [visits, List.mem_singleton] at hx; subst hx; simp [PTree.nodes]
  | branch i cs =>
    simp only [visits, List.mem_cons] at hx
    simp only [PTree.nodes, List.mem_cons]
    rcases hx with rfl | hx
    · exact .inl rfl
    · exact .inr (visitsL_nodes q m cs _ o x hx)
theorem visitsL_nodes (q : Query T) (m : Mode) (cs : List (PTree T V)) (f : List Bool) (o : Nat) :
    ∀ x ∈ visitsL q m cs f o, x.2 ∈ PTree.nodesL cs := by
  intro x hx
  cases cs with
  | nil => simp [visitsL] at hx
  | cons c cs =>
    cases f with
    | nil => simp [visitsL] at hx
    | cons b f =>
      have hx' : x ∈ (if b then visits q m c o else []) ∨ x ∈ visitsL q m cs f (o + c.index.count) := by
        cases m <;> simp only [visitsL, List.mem_append] at hx
        · exact hx
        · exact hx.symm
      simp only [PTree.nodesL, List.mem_append]
      rcases hx' with hx | hx
      · cases b with
        | true => exact .inl (visits_nodes q m c o x (by simpa using hx))
        | false => simp at hx
      · exact .inr (visitsL_nodes q m cs f _ x hx)
end

section
variable (sec : Secrets E) (σ : E.σ) (q : Query T) (m : Mode)

/-- A tree whose index can be iterated over: the branches visited are there. -/
structure Visible (t : PTree T V) (o : Nat) : Prop where
  stored : ∀ x ∈ visits q m t o, OutlinedAt E sec σ x.2
  ok : IterOk t

/-- The same for a branch of which the children `cs` are still to come. -/
structure Opened (i : BranchIndex T) (all cs : List (PTree T V)) (f : List Bool) (o : Nat) : Prop where
  here : OutlinedAt E sec σ (.branch i all)
  stored : ∀ x ∈ visitsL q m cs f o, OutlinedAt E sec σ x.2
  ok : IterOk (.branch i all)
end

theorem Outlined.visible {sec : Secrets E} {σ : E.σ} {t : PTree T V} (h : Outlined E sec σ t) (hi : IterOk t) (q : Query T) (m : Mode) (o : Nat) :
    Visible sec σ q m t o := ⟨fun x hx => h x.2 (visits_nodes q m t o x hx), hi⟩

theorem Seen.visible {sec : Secrets E} {σ : E.σ} {t : PTree T V} (h : Seen sec σ t) (q : Query T) (m : Mode) (o : Nat) : Visible sec σ q m t o :=
  h.stored.outlined.visible h.ok q m o

section
variable (sec : Secrets E) (σ : E.σ) (q : Query T)

/-- The stack of a running iteration, with the current offset, the nodes still to be visited and the number of turns
needed. -/
inductive IVis : Mode → List (TraverseState T) → Nat → List (Nat × PTree T V) → Nat → Prop
  | nil (m : Mode) (o : Nat) : IVis m [] o [] 1
  | fresh {m : Mode} {t : PTree T V} {base : Nat} {rest : List (TraverseState T)} {rem : List (Nat × PTree T V)} {w : Nat} :
      Visible sec σ q m t base → IVis m (bumpTop m rest) (endOf m base t.index.count) rem w →
      IVis m (TraverseState.new t.index :: rest) (startOf m base t.index.count) (visits q m t base ++ rem) (turns q t base + w)
  | fwd {i : BranchIndex T} {pre todo : List (PTree T V)} {fpre ftodo : List Bool} {o : Nat} {rest : List (TraverseState T)}
      {rem : List (Nat × PTree T V)} {w : Nat} : Opened sec σ q .forward i (pre ++ todo) todo ftodo o → fpre.length = pre.length →
      ftodo.length = todo.length → IVis .forward (bumpTop .forward rest) (o + sizes todo) rem w →
      IVis .forward (⟨.branch i, (pre.length : Int), fpre ++ ftodo⟩ :: rest) o (visitsL q .forward todo ftodo o ++ rem)
        (turnsL q todo ftodo o + 1 + w)
  | bwd {i : BranchIndex T} {todo post : List (PTree T V)} {ftodo fpost : List Bool} {o : Nat} {rest : List (TraverseState T)}
      {rem : List (Nat × PTree T V)} {w : Nat} : Opened sec σ q .backward i (todo ++ post) todo ftodo o → ftodo.length = todo.length →
      fpost.length = post.length → IVis .backward (bumpTop .backward rest) o rem w →
      IVis .backward (⟨.branch i, (todo.length : Int) - 1, ftodo ++ fpost⟩ :: rest) (o + sizes todo)
        (visitsL q .backward todo ftodo o ++ rem) (turnsL q todo ftodo o + 1 + w)

/-- One turn. -/
def ITurn (m : Mode) (it : IterState T) (rem : List (Nat × PTree T V)) (w : Nat) (s : St E) : Prop :=
  (rem = [] ∧ Reads sec (indexStep (E := E) sec q m it) s .done) ∨
  (∃ it' w', Reads sec (indexStep (E := E) sec q m it) s (.cont it') ∧ w' < w ∧ IVis sec σ q m it'.stack it'.offset rem w') ∨
  (∃ o t rem' it' w', Reads sec (indexStep (E := E) sec q m it) s (.item t.index it') ∧ rem = (o, t) :: rem' ∧ w' < w ∧
    IVis sec σ q m it'.stack it'.offset rem' w')
end

variable {sec : Secrets E} {σ : E.σ} {q : Query T}

theorem indexStep_exhausted {s : St E} (hco : Coherent E sec s) {m : Mode} {o : Nat} {head : TraverseState T}
    {rest : List (TraverseState T)} (hx : head.isExhausted m = true) :
    Reads sec (indexStep (E := E) sec q m ⟨o, head :: rest⟩) s (.cont ⟨o, bumpTop m rest⟩) := by
  unfold indexStep
  simp only
  rw [if_pos hx]
  exact Reads.pure hco _

theorem indexStep_branch (h : E.Lawful) {s : St E} (hco : Coherent E sec s) {m : Mode} {o : Nat} {i : BranchIndex T} {p : Int} {f : List Bool}
    {rest : List (TraverseState T)} {link : T.Link} {b : Branch T} {r : StepRes T (Index T)} (hl : i.link = some link)
    (hx : (⟨.branch i, p, f⟩ : TraverseState T).isExhausted m = false) (hf : f ≠ [])
    (hb : loadBranchFromLink E sec s.store link = .ok b)
    (hr : ∀ c, Coherent E sec { s with cache := c } → Reads sec (indexBranchStep (E := E) m o ⟨.branch i, p, f⟩ rest b) { s with cache := c } r) :
    Reads sec (indexStep (E := E) sec q m ⟨o, ⟨.branch i, p, f⟩ :: rest⟩) s r := by
  unfold indexStep
  simp only
  rw [if_neg (by rw [hx]; decide)]
  simp only [hl]
  refine Reads.bind (Reads.loadCached h hco hb) fun c hc => ?_
  rw [if_neg (by simpa using hf)]
  exact hr c hc

theorem indexStep_new (h : E.Lawful) {s : St E} (hco : Coherent E sec s) {m : Mode} {base : Nat} {i : BranchIndex T}
    {rest : List (TraverseState T)} {link : T.Link} {b : Branch T} (hl : i.link = some link)
    (hb : loadBranchFromLink E sec s.store link = .ok b) :
    Reads sec (indexStep (E := E) sec q m ⟨startOf m base i.count, TraverseState.new (.branch i) :: rest⟩) s
      (.item (.branch i) ⟨startOf m base i.count,
        ⟨.branch i, firstPos m b.children.length, q.intersecting base i (List.replicate (T.sums.len i.summaries) true)⟩ :: rest⟩) := by
  unfold indexStep
  simp only
  rw [if_neg (by rw [new_not_exhausted]; decide)]
  simp only [TraverseState.new, hl]
  refine Reads.bind (Reads.loadCached h hco hb) fun c hc => ?_
  simp only [List.isEmpty_nil, if_true]
  cases m with
  | forward => exact Reads.bind (a := base) (Reads.pure hc _) fun c hc => Reads.pure hc _
  | backward => exact Reads.bind (a := base) (reads_move_bwd hc base i.count) fun c hc => Reads.pure hc _

theorem iturn_fresh (h : E.Lawful) {s : St E} (hst : StoreLe E σ s.store) (hco : Coherent E sec s) {m : Mode} {t : PTree T V} {base : Nat}
    {rest : List (TraverseState T)} {rem : List (Nat × PTree T V)} {w : Nat} (hs : Visible sec σ q m t base)
    (hv : IVis sec σ q m (bumpTop m rest) (endOf m base t.index.count) rem w) :
    ITurn sec σ q m ⟨startOf m base t.index.count, TraverseState.new t.index :: rest⟩ (visits q m t base ++ rem) (turns q t base + w) s := by
  have hsto := (hs.stored (base, t) (by cases t <;> simp [visits])).mono hst
  cases t with
  | purgedLeaf i =>
    refine .inr (.inr ⟨base, .purgedLeaf i, rem, ⟨endOf m base (Index.leaf i).count, bumpTop m rest⟩, w, ?_, by simp [visits],
      by simp [turns], hv⟩)
    unfold indexStep
    simp only
    rw [if_neg (by rw [new_not_exhausted]; decide)]
    exact Reads.bind (reads_move hco m base _) fun c hc => Reads.pure hc _
  | leaf i vs =>
    refine .inr (.inr ⟨base, .leaf i vs, rem, ⟨endOf m base (Index.leaf i).count, bumpTop m rest⟩, w, ?_, by simp [visits],
      by simp [turns], hv⟩)
    unfold indexStep
    simp only
    rw [if_neg (by rw [new_not_exhausted]; decide)]
    exact Reads.bind (reads_move hco m base _) fun c hc => Reads.pure hc _
  | purgedBranch i =>
    have hl : i.link = none := hsto
    refine .inr (.inr ⟨base, .purgedBranch i, rem, ⟨endOf m base i.count, bumpTop m rest⟩, w, ?_, by simp [visits],
      by simp [turns], hv⟩)
    unfold indexStep
    simp only
    rw [if_neg (by rw [new_not_exhausted]; decide)]
    simp only [TraverseState.new, PTree.index, hl]
    exact Reads.bind (reads_move hco m base _) fun c hc => Reads.pure hc _
  | branch i cs =>
    obtain ⟨link, r, hl, h2⟩ := hsto
    obtain ⟨hlt, hcnt, hne, hsum⟩ := PTree.All.root hs.ok
    have hflen : (q.intersecting base i (List.replicate (T.sums.len i.summaries) true)).length = cs.length := by
      rw [q.len_intersecting, List.length_replicate, hsum]
    have hv' : IVis sec σ q m (bumpTop m rest) (endOf m base i.count) rem w := hv
    refine .inr (.inr ⟨base, .branch i cs, _, _, turnsL q cs (q.intersecting base i (List.replicate (T.sums.len i.summaries) true)) base + 1 + w,
      indexStep_new h hco hl h2, by simp only [visits]; rfl, by simp only [turns]; omega, ?_⟩)
    simp only [List.length_map]
    cases m with
    | forward =>
      exact IVis.fwd (pre := []) (todo := cs) (fpre := []) ⟨hs.stored (base, .branch i cs) (by simp [visits]), fun x hx => hs.stored x (by simp only [visits, List.mem_cons]; exact .inr hx), hs.ok⟩ rfl hflen (by rw [← hcnt]; exact hv')
    | backward =>
      have := IVis.bwd (q := q) (todo := cs) (post := []) (ftodo := q.intersecting base i (List.replicate (T.sums.len i.summaries) true)) (fpost := [])
        (i := i) (o := base) ⟨by simpa using hs.stored (base, .branch i cs) (by simp [visits]), fun x hx => hs.stored x (by simp only [visits, List.mem_cons]; exact .inr hx), by simpa using hs.ok⟩ hflen rfl hv'
      rw [List.append_nil, ← hcnt] at this
      exact this

theorem iturn (h : E.Lawful) {s : St E} (hst : StoreLe E σ s.store) (hco : Coherent E sec s) {m : Mode} {it : IterState T}
    {rem : List (Nat × PTree T V)} {w : Nat} (hv : IVis sec σ q m it.stack it.offset rem w) : ITurn sec σ q m it rem w s := by
  obtain ⟨o, stack⟩ := it
  simp only at hv
  cases hv with
  | nil => exact .inl ⟨rfl, Reads.pure hco _⟩
  | fresh hs hv => exact iturn_fresh h hst hco hs hv
  | @fwd i pre todo fpre ftodo _ rest rem w hs h1 h2 hv' =>
    have hne := (PTree.All.root hs.ok).2.2.1
    have hlen : 0 < (fpre ++ ftodo).length := by
      rw [List.length_append, h1, h2, ← List.length_append]
      exact List.length_pos_iff.mpr hne
    cases todo with
    | nil =>
      have hft : ftodo = [] := List.length_eq_zero_iff.mp h2
      subst hft
      refine .inr (.inl ⟨_, w, indexStep_exhausted hco ?_, by omega, by simpa [visitsL, sizes_nil] using hv'⟩)
      simp only [TraverseState.isExhausted]
      rw [Bool.and_eq_true]
      constructor
      · simp only [Bool.not_eq_true', List.isEmpty_eq_false_iff]
        exact List.length_pos_iff.mp hlen
      · simp [h1]
    | cons c todo =>
      cases ftodo with
      | nil => simp at h2
      | cons b ftodo =>
        obtain ⟨link, r, hl, h5⟩ := hs.here.mono hst
        have hcm : c ∈ pre ++ c :: todo := by simp
        have hf : (fpre ++ b :: ftodo)[((pre.length : Int)).toNat]? = some b := by
          rw [Int.toNat_natCast, ← h1, List.getElem?_append_right (Nat.le_refl _)]; simp
        have hc : ((pre ++ c :: todo).map PTree.index)[((pre.length : Int)).toNat]? = some c.index := by
          rw [Int.toNat_natCast, List.getElem?_map, List.getElem?_append_right (Nat.le_refl _)]; simp
        have hx : (⟨.branch i, (pre.length : Int), fpre ++ b :: ftodo⟩ : TraverseState T).isExhausted .forward = false := by
          simp only [TraverseState.isExhausted, Bool.and_eq_false_iff, decide_eq_false_iff_not]
          right
          rw [List.length_append, h1]
          simp only [List.length_cons]
          omega
        have hnext : IVis sec σ q .forward (⟨.branch i, (pre.length : Int) + 1, fpre ++ b :: ftodo⟩ :: rest) (o + c.index.count)
            (visitsL q .forward todo ftodo (o + c.index.count) ++ rem) (turnsL q todo ftodo (o + c.index.count) + 1 + w) := by
          have hh := IVis.fwd (sec := sec) (σ := σ) (q := q) (i := i) (pre := pre ++ [c]) (todo := todo)
            (fpre := fpre ++ [b]) (ftodo := ftodo) (o := o + c.index.count) (rest := rest) (rem := rem) (w := w)
            ⟨by simpa using hs.here, fun x hx => hs.stored x (by simp only [visitsL, List.mem_append]; exact .inr hx), by simpa using hs.ok⟩
            (by simp [h1]) (by simpa using h2) (by rw [Nat.add_assoc, ← sizes_cons]; exact hv')
          simpa using hh
        cases b with
        | true =>
          refine .inr (.inl ⟨⟨o, TraverseState.new c.index :: ⟨.branch i, (pre.length : Int), fpre ++ true :: ftodo⟩ :: rest⟩,
            turns q c o + (turnsL q todo ftodo (o + c.index.count) + 1 + w),
            indexStep_branch h hco hl hx (List.length_pos_iff.mp hlen) h5 fun c' hc' => ?_, ?_, ?_⟩)
          · unfold indexBranchStep
            simp only
            rw [hf, hc]
            exact Reads.pure hc' _
          · simp only [turnsL, if_true]; omega
          · simp only [visitsL, if_true]
            rw [List.append_assoc]
            exact IVis.fresh (m := .forward) (base := o) ⟨fun x hx => hs.stored x (by simp only [visitsL, List.mem_append]; exact .inl hx), PTree.All.children hs.ok c hcm⟩ hnext
        | false =>
          refine .inr (.inl ⟨⟨o + c.index.count, ⟨.branch i, (pre.length : Int) + 1, fpre ++ false :: ftodo⟩ :: rest⟩,
            turnsL q todo ftodo (o + c.index.count) + 1 + w,
            indexStep_branch h hco hl hx (List.length_pos_iff.mp hlen) h5 fun c' hc' => ?_, ?_, ?_⟩)
          · unfold indexBranchStep
            simp only
            rw [hf, hc]
            exact Reads.bind (reads_move_fwd hc' _ _) fun c hc => Reads.pure hc _
          · simp only [turnsL]; simp
          · simpa [visitsL] using hnext
  | @bwd i todo post ftodo fpost o' rest rem w hs h1 h2 hv' =>
    have hne := (PTree.All.root hs.ok).2.2.1
    have hlen : 0 < (ftodo ++ fpost).length := by
      rw [List.length_append, h1, h2, ← List.length_append]
      exact List.length_pos_iff.mpr hne
    rcases List.eq_nil_or_concat todo with rfl | ⟨todo, c, rfl⟩
    · have hft : ftodo = [] := List.length_eq_zero_iff.mp h1
      subst hft
      refine .inr (.inl ⟨_, w, indexStep_exhausted hco ?_, by omega, by simpa [visitsL, sizes_nil] using hv'⟩)
      simp [TraverseState.isExhausted]
    · rcases List.eq_nil_or_concat ftodo with rfl | ⟨ftodo, b, rfl⟩
      · simp at h1
      · simp only [List.concat_eq_append] at *
        have h1' : ftodo.length = todo.length := by simpa using h1
        obtain ⟨link, r, hl, h5⟩ := hs.here.mono hst
        have hok : IterOk (.branch i (todo ++ c :: post)) := by simpa using hs.ok
        have hcm : c ∈ todo ++ c :: post := by simp
        have hf : ((ftodo ++ [b]) ++ fpost)[((todo.length : Int)).toNat]? = some b := by
          rw [Int.toNat_natCast, ← h1', List.append_assoc, List.getElem?_append_right (Nat.le_refl _)]; simp
        have hc : (((todo ++ [c]) ++ post).map PTree.index)[((todo.length : Int)).toNat]? = some c.index := by
          rw [Int.toNat_natCast, List.getElem?_map, List.append_assoc, List.getElem?_append_right (Nat.le_refl _)]; simp
        have hp : (((todo ++ [c]).length : Nat) : Int) - 1 = (todo.length : Int) := by simp
        have hx : (⟨.branch i, (todo.length : Int), (ftodo ++ [b]) ++ fpost⟩ : TraverseState T).isExhausted .backward = false := by
          simp only [TraverseState.isExhausted, decide_eq_false_iff_not]
          omega
        have hvis := visitsL_append q todo [c] ftodo [b] o' h1'
        have hsz : o' + sizes (todo ++ [c]) = o' + sizes todo + c.index.count := by rw [sizes_append, sizes_cons, sizes_nil]; omega
        have hnext : IVis sec σ q .backward (⟨.branch i, (todo.length : Int) - 1, (ftodo ++ [b]) ++ fpost⟩ :: rest) (o' + sizes todo)
            (visitsL q .backward todo ftodo o' ++ rem) (turnsL q todo ftodo o' + 1 + w) := by
          have := IVis.bwd (q := q) (ftodo := ftodo) (fpost := b :: fpost) (o := o')
            ⟨by simpa using hs.here, fun x hx => hs.stored x (by rw [hvis]; exact List.mem_append_right _ hx), hok⟩ h1' (by simp [h2]) hv'
          simpa using this
        have htur := turnsL_append q todo [c] ftodo [b] o' h1'
        rw [hvis, htur, hp, hsz]
        cases b with
        | true =>
          refine .inr (.inl ⟨⟨o' + sizes todo + c.index.count, TraverseState.new c.index :: ⟨.branch i, (todo.length : Int), (ftodo ++ [true]) ++ fpost⟩ :: rest⟩,
            turns q c (o' + sizes todo) + (turnsL q todo ftodo o' + 1 + w),
            indexStep_branch h hco hl hx (List.length_pos_iff.mp hlen) h5 fun c' hc' => ?_, ?_, ?_⟩)
          · unfold indexBranchStep
            simp only
            rw [hf, hc]
            exact Reads.pure hc' _
          · simp only [turnsL, if_true]; omega
          · simp only [visitsL, if_true, List.nil_append]
            rw [List.append_assoc (visits _ _ _ _)]
            exact IVis.fresh (m := .backward) (base := o' + sizes todo)
              (rest := ⟨.branch i, (todo.length : Int), (ftodo ++ [true]) ++ fpost⟩ :: rest)
              ⟨fun x hx => hs.stored x (by rw [hvis]; exact List.mem_append_left _ (by simpa [visitsL] using hx)), PTree.All.children hok c hcm⟩ hnext
        | false =>
          refine .inr (.inl ⟨⟨o' + sizes todo, ⟨.branch i, (todo.length : Int) - 1, (ftodo ++ [false]) ++ fpost⟩ :: rest⟩,
            turnsL q todo ftodo o' + 1 + w,
            indexStep_branch h hco hl hx (List.length_pos_iff.mp hlen) h5 fun c' hc' => ?_, ?_, ?_⟩)
          · unfold indexBranchStep
            simp only
            rw [hf, hc]
            exact Reads.bind (reads_move_bwd hc' _ _) fun c hc => Reads.pure hc _
          · simp only [turnsL]; simp
          · simpa [visitsL] using hnext

theorem indexNext_spec (h : E.Lawful) {m : Mode} (fuel : Nat) {it : IterState T} {rem : List (Nat × PTree T V)} {w : Nat} {s : St E}
    (hst : StoreLe E σ s.store) (hco : Coherent E sec s) (hv : IVis sec σ q m it.stack it.offset rem w) (hw : w < fuel) :
    (rem = [] ∧ ∃ it', Reads sec (indexNext (E := E) sec q m fuel it) s (none, it')) ∨
    (∃ o t rem' it' w', Reads sec (indexNext (E := E) sec q m fuel it) s (some (.ok t.index), it') ∧ rem = (o, t) :: rem' ∧ w' ≤ w ∧
      IVis sec σ q m it'.stack it'.offset rem' w') := by
  induction fuel generalizing it w s with
  | zero => omega
  | succ fuel ih =>
    have htry : ∀ {a : StepRes T (Index T)} {c : E.γ}, indexStep (E := E) sec q m it s = .ok a { s with cache := c } →
        M.tryFail (indexStep (E := E) sec q m it) s = .ok (.ok a) { s with cache := c } := by
      intro a c hr
      unfold M.tryFail
      rw [hr]
    rcases iturn h hst hco hv with ⟨h1, c, hc, hr⟩ | ⟨it', w', ⟨c, hc, hr⟩, h2, h3⟩ | ⟨o, t, rem', it', w', ⟨c, hc, hr⟩, h1, h2, h3⟩
    · refine .inl ⟨h1, it, c, hc, ?_⟩
      unfold indexNext
      rw [bind_apply, htry hr]
      rfl
    · rcases ih (it := it') (s := { s with cache := c }) hst hc h3 (by omega) with ⟨g1, it2, c2, hc2, hr2⟩ | ⟨o, t, rem', it2, w2, ⟨c2, hc2, hr2⟩, g1, g2, g3⟩
      · refine .inl ⟨g1, it2, c2, hc2, ?_⟩
        unfold indexNext
        rw [bind_apply, htry hr]
        exact hr2
      · refine .inr ⟨o, t, rem', it2, w2, ⟨c2, hc2, ?_⟩, g1, by omega, g3⟩
        unfold indexNext
        rw [bind_apply, htry hr]
        exact hr2
    · refine .inr ⟨o, t, rem', it', w', ⟨c, hc, ?_⟩, h1, by omega, h3⟩
      unfold indexNext
      rw [bind_apply, htry hr]
      rfl

theorem indexTake_spec (h : E.Lawful) {m : Mode} {fuel : Nat} {between : Nat → St E → St E} (hb : Harmless sec between)
    (n : Nat) {it : IterState T} {rem : List (Nat × PTree T V)} {w : Nat} {s : St E} (hst : StoreLe E σ s.store) (hco : Coherent E sec s)
    (hv : IVis sec σ q m it.stack it.offset rem w) (hw : w < fuel) :
    ∃ s', indexTake sec q m fuel between n it s = .ok (((rem.map fun x => x.2.index).take n).map .ok) s' := by
  induction n generalizing it rem w s with
  | zero => exact ⟨s, by simp [indexTake]; rfl⟩
  | succ n ih =>
    rcases indexNext_spec h fuel hst hco hv hw with ⟨h1, it', ⟨c, hc, hr⟩⟩ | ⟨o, t, rem', it', w', ⟨c, hc, hr⟩, h2, h3, h4⟩
    · subst h1
      refine ⟨{ s with cache := c }, ?_⟩
      unfold indexTake
      rw [bind_apply, hr]
      rfl
    · subst h2
      obtain ⟨hb1, hb2⟩ := hb n _ hc
      obtain ⟨s', hs'⟩ := ih (hst.trans hb1) hb2 h4 (by omega)
      refine ⟨s', ?_⟩
      unfold indexTake
      rw [bind_apply, hr]
      simp only
      rw [bind_apply, show (modify (between n) : M E Unit) { s with cache := c } = .ok () (between n { s with cache := c }) from rfl]
      simp only
      rw [bind_apply, hs']
      rfl

theorem ivis_new {m : Mode} {t : PTree T V} (hs : Visible sec σ q m t 0) :
    IVis sec σ q m (IterState.new m t.index).stack (IterState.new m t.index).offset (visits q m t 0) (turns q t 0 + 1) := by
  have := IVis.fresh (q := q) (m := m) (base := 0) (rest := []) hs (IVis.nil m _)
  rw [List.append_nil] at this
  cases m with
  | forward => exact this
  | backward =>
    simp only [IterState.new]
    rw [← Nat.zero_add t.index.count]
    exact this

/-! ### what is visited -/

theorem visits_head (m : Mode) (t : PTree T V) (o : Nat) : ∃ l, visits q m t o = (o, t) :: l := by
  cases t <;> simp [visits]

theorem visits_perm (t : PTree T V) (o : Nat) : (visits q .backward t o).Perm (visits q .forward t o) := by
  induction t using PTree.induct generalizing o with
  | leaf => exact .refl _
  | purgedLeaf => exact .refl _
  | purgedBranch => exact .refl _
  | branch i cs ih =>
    simp only [visits]
    refine .cons _ ?_
    generalize q.intersecting o i (List.replicate (T.sums.len i.summaries) true) = f
    clear i
    induction cs generalizing f o with
    | nil => simp [visitsL]
    | cons c cs ih2 =>
      cases f with
      | nil => simp [visitsL]
      | cons b f =>
        simp only [visitsL]
        refine List.perm_append_comm.trans (List.Perm.append ?_ (ih2 (fun c hc => ih c (by simp [hc])) _ _))
        cases b
        · exact .refl _
        · exact ih c (by simp) o

theorem visits_all (ht : T.Lawful) (t : PTree T V) (hw : Formed t) (o : Nat) :
    (visits allQuery .forward t o).map Prod.snd = t.nodes := by
  induction t using PTree.induct generalizing o with
  | leaf => rfl
  | purgedLeaf => rfl
  | purgedBranch => rfl
  | branch i cs ih =>
    have hsum := (PTree.All.root (hw.iterOk ht)).2.2.2
    simp only [visits, List.map_cons, nodes]
    congr 1
    show (visitsL allQuery .forward cs (List.replicate (T.sums.len i.summaries) true) o).map Prod.snd = nodesL cs
    rw [hsum]
    have hc : ∀ c ∈ cs, Formed c := fun c hc => PTree.All.child hw hc
    clear hw hsum
    induction cs generalizing o with
    | nil => simp [visitsL, nodesL]
    | cons c cs ih2 =>
      simp only [List.length_cons, List.replicate_succ, visitsL, if_true, List.map_append, nodesL]
      rw [ih c (by simp) (hc c (by simp)), ih2 (fun c h => ih c (by simp [h])) _ fun c h => hc c (by simp [h])]

/-- Elements that match are found in leaves that are visited. -/
theorem visits_match (ht : T.Lawful) {covers : T.Summary → T.Key → Prop} {m : Nat → T.Key → Bool} (hcov : Covering T covers)
    (hq : QueryFor q covers m) (t : PTree T V) (hw : Formed t) (o n : Nat) (k : T.Key) (v : V) (hn : t.content[n]? = some (some (k, v)))
    (hm : m (o + n) k = true) :
    ∃ base i vs, (base, PTree.leaf i vs) ∈ visits q .forward t o ∧ base ≤ o + n ∧
      (T.keys.toVec i.keys)[o + n - base]? = some k ∧ vs[o + n - base]? = some v := by
  induction t using PTree.induct generalizing o n with
  | leaf i vs =>
    refine ⟨o, i, vs, by simp [visits], by omega, ?_⟩
    simp only [content, List.getElem?_map] at hn
    rw [show o + n - o = n by omega]
    cases hz : ((T.keys.toVec i.keys).zip vs)[n]? with
    | none => rw [hz] at hn; cases hn
    | some x =>
      rw [hz] at hn
      cases hn
      rw [List.getElem?_zip_eq_some] at hz
      exact hz
  | purgedLeaf i =>
    simp only [content, List.getElem?_replicate] at hn
    split at hn <;> cases hn
  | purgedBranch i =>
    simp only [content, List.getElem?_replicate] at hn
    split at hn <;> cases hn
  | branch i cs ih =>
    have hk := hw.iterOk ht
    obtain ⟨_, hcnt, _, hsum⟩ := PTree.All.root hk
    have hfl : (q.intersecting o i (List.replicate (T.sums.len i.summaries) true)).length = cs.length := by
      rw [q.len_intersecting, List.length_replicate, hsum]
    have hcl : ∀ c ∈ cs, c.content.length = c.index.count := fun c hc => content_length ht (PTree.All.children hk.counts c hc)
    simp only [content] at hn
    have key : ∀ pre todo fpre ftodo (j : Nat), cs = pre ++ todo →
        q.intersecting o i (List.replicate (T.sums.len i.summaries) true) = fpre ++ ftodo → fpre.length = pre.length →
        (contents todo)[j]? = some (some (k, v)) → n = sizes pre + j →
        ∃ base i vs, (base, PTree.leaf i vs) ∈ visitsL q .forward todo ftodo (o + sizes pre) ∧ base ≤ o + n ∧
          (T.keys.toVec i.keys)[o + n - base]? = some k ∧ vs[o + n - base]? = some v := by
      intro pre todo
      induction todo generalizing pre with
      | nil => intro fpre ftodo j _ _ _ hj _; simp [contents] at hj
      | cons c todo ih2 =>
        intro fpre ftodo j h1 h2 h3 hj hnj
        cases ftodo with
        | nil =>
          rw [h2, h1] at hfl
          simp [h3] at hfl
        | cons b ftodo =>
          have hcm : c ∈ cs := by rw [h1]; simp
          have hsz : o + sizes (pre ++ [c]) = o + sizes pre + c.index.count := by rw [sizes_append, sizes_cons, sizes_nil]; omega
          rw [contents_cons] at hj
          by_cases hlt : j < c.index.count
          · rw [List.getElem?_append_left (by rw [hcl c hcm]; exact hlt)] at hj
            cases b with
            | false =>
              have h5 := pruned_none ht hcov hq hw h1 (by rw [h2, ← h3]; simp)
              have : (o + sizes pre + j, k, v) ∈ matching m (o + sizes pre) c.content := by
                rw [mem_matching]
                exact ⟨by omega, by rw [show o + sizes pre + j - (o + sizes pre) = j by omega]; exact hj, by rw [Nat.add_assoc, ← hnj]; exact hm⟩
              rw [h5] at this
              cases this
            | true =>
              obtain ⟨base, i', vs, g1, g2, g3, g4⟩ := ih c hcm (PTree.All.child hw hcm) (o + sizes pre) j hj (by rw [Nat.add_assoc, ← hnj]; exact hm)
              have he : o + sizes pre + j = o + n := by omega
              rw [he] at g2 g3 g4
              exact ⟨base, i', vs, by simp only [visitsL, if_true]; exact List.mem_append_left _ g1, g2, g3, g4⟩
          · rw [List.getElem?_append_right (by rw [hcl c hcm]; omega), hcl c hcm] at hj
            obtain ⟨base, i', vs, g1, g2⟩ := ih2 (pre ++ [c]) (fpre ++ [b]) ftodo (j - c.index.count) (by simp [h1]) (by simp [h2]) (by simp [h3]) hj
              (by rw [sizes_append, sizes_cons, sizes_nil]; omega)
            rw [hsz] at g1
            exact ⟨base, i', vs, by simp only [visitsL]; exact List.mem_append_right _ g1, g2⟩
    obtain ⟨base, i', vs, g1, g2⟩ := key [] cs [] _ n rfl rfl rfl hn (by simp [sizes_nil])
    rw [sizes_nil, Nat.add_zero] at g1
    exact ⟨base, i', vs, by simp only [visits]; exact List.mem_cons_of_mem _ g1, g2⟩

/-! ### snapshots -/

variable {cx : Ctx E}

/-- The visited nodes of an optional tree. -/
def optVisits (q : Query T) (m : Mode) : Option (PTree T V) → List (Nat × PTree T V)
  | none => []
  | some t => visits q m t 0

theorem Snap.indexes (h : E.Lawful) (ht : T.Lawful) {s s' : St E} {t : Option (PTree T V)} (hs : Snap cx s t s') (mode : Mode) :
    Enumerates (fun between n fuel t => Tree.indexes q mode between n fuel t) cx.sec (snapshot cx s) s'
      ((optVisits q mode t).map fun x => x.2.index) := by
  have hr := hs.root
  cases t with
  | none =>
    refine ⟨0, fun between n fuel hb hf => ⟨s', ?_⟩⟩
    unfold Tree.indexes snapshot
    rw [hr]
    simp [optVisits]
    rfl
  | some t =>
    refine ⟨turns q t 0 + 2, fun between n fuel hb hf => ?_⟩
    unfold Tree.indexes snapshot
    rw [hr]
    exact indexTake_spec h hb n (σ := s'.store) (fun _ _ h => h) hs.coherent (ivis_new ((hs.seen ht).visible _ _ _)) (by omega)

end Banyan
