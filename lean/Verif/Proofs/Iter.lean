import Verif.Proofs.Chunks
import Verif.Spec.Iter
import Verif.Spec.Partial
/-
The stack machine of the iterators delivers the chunks of the loaded tree.
-/
set_option autoImplicit false
namespace Banyan

open PTree

variable {T : TreeTypes} {V : Type} {E : Env T V} {X : Type}

/-- All that iteration needs: consistent counts, levels and numbers of summaries. -/
def IterOk (t : PTree T V) : Prop := t.All fun
  | .leaf i vs => T.keys.len i.keys = vs.length
  | .branch i cs => (∀ c ∈ cs, c.index.level < i.level) ∧ i.count = sizes cs ∧ cs ≠ [] ∧ T.sums.len i.summaries = cs.length
  | .purgedLeaf _ => True
  | .purgedBranch _ => True

theorem Formed.iterOk (ht : T.Lawful) {t : PTree T V} (h : Formed t) : IterOk t := by
  refine PTree.All.imp ?_ h
  intro n hn
  cases n with
  | leaf i vs => exact hn.1
  | branch i cs =>
    refine ⟨hn.2.1, hn.2.2.1, hn.1, ?_⟩
    rw [hn.2.2.2, ht.sums.len_ofList _ (by simpa using hn.1)]
    simp
  | purgedLeaf => trivial
  | purgedBranch => trivial

theorem WF.iterOk (ht : T.Lawful) {t : PTree T V} (h : WF E t) : IterOk t := h.formed.iterOk ht

theorem IterOk.counts {t : PTree T V} (h : IterOk t) : Counts t := by
  refine PTree.All.imp ?_ h
  intro n hn
  cases n with
  | leaf i vs => exact hn
  | branch i cs => exact ⟨hn.1, hn.2.1⟩
  | purgedLeaf => trivial
  | purgedBranch => trivial

/-- A tree that can be iterated over. -/
structure Seen (sec : Secrets E) (σ : E.σ) (t : PTree T V) : Prop where
  stored : Stored E sec σ t
  ok : IterOk t

theorem Seen.child {sec : Secrets E} {σ : E.σ} {i : BranchIndex T} {cs : List (PTree T V)} (h : Seen sec σ (.branch i cs))
    {c : PTree T V} (hc : c ∈ cs) : Seen sec σ c := ⟨PTree.All.children h.stored c hc, PTree.All.children h.ok c hc⟩

/-- A tree that can be iterated over with a query. -/
structure SeenFor (sec : Secrets E) (σ : E.σ) (q : Query T) (t : PTree T V) (base : Nat) : Prop where
  linked : t.All LinkedAt
  ok : IterOk t
  avail : ∀ n ∈ t.needs q base, StoredAt E sec σ n

/-- A branch in the middle of an iteration, with the children still to be looked at. -/
structure SeenIn (sec : Secrets E) (σ : E.σ) (q : Query T) (i : BranchIndex T) (cs todo : List (PTree T V)) (ftodo : List Bool)
    (o : Nat) : Prop where
  block : StoredAt E sec σ (.branch i cs)
  linked : (PTree.branch i cs).All LinkedAt
  ok : IterOk (.branch i cs)
  avail : ∀ n ∈ PTree.needsL q todo ftodo o, StoredAt E sec σ n

theorem StoredAt.linked {sec : Secrets E} {σ : E.σ} {t : PTree T V} (h : StoredAt E sec σ t) : LinkedAt t := by
  cases t with
  | leaf i vs => obtain ⟨l, _, _, h, _⟩ := h; exact ⟨l, h⟩
  | branch i cs => obtain ⟨l, _, h, _⟩ := h; exact ⟨l, h⟩
  | purgedLeaf i => exact h
  | purgedBranch i => exact h

mutual
theorem needs_nodes (q : Query T) (t : PTree T V) (base : Nat) : ∀ n ∈ t.needs q base, n ∈ t.nodes := by
  cases t with
  | leaf i vs => intro n hn; unfold PTree.needs at hn; split at hn <;> simp_all [PTree.nodes]
  | branch i cs =>
    intro n hn
    unfold PTree.needs at hn
    unfold PTree.nodes
    split at hn
    · rcases List.mem_cons.mp hn with rfl | hn
      · exact List.mem_cons_self
      · exact List.mem_cons_of_mem _ (needsL_nodes q cs _ _ n hn)
    · cases hn
  | purgedLeaf i => intro n hn; simp [PTree.needs] at hn
  | purgedBranch i => intro n hn; simp [PTree.needs] at hn
theorem needsL_nodes (q : Query T) (cs : List (PTree T V)) (bs : List Bool) (base : Nat) :
    ∀ n ∈ PTree.needsL q cs bs base, n ∈ PTree.nodesL cs := by
  cases cs with
  | nil => intro n hn; simp [PTree.needsL] at hn
  | cons c cs =>
    cases bs with
    | nil => intro n hn; simp [PTree.needsL] at hn
    | cons b bs =>
      intro n hn
      unfold PTree.needsL at hn
      unfold PTree.nodesL
      rcases List.mem_append.mp hn with hn | hn
      · split at hn
        · exact List.mem_append_left _ (needs_nodes q c _ n hn)
        · cases hn
      · exact List.mem_append_right _ (needsL_nodes q cs bs _ n hn)
end

theorem Seen.seenFor {sec : Secrets E} {σ : E.σ} {t : PTree T V} (h : Seen sec σ t) (q : Query T) (base : Nat) : SeenFor sec σ q t base :=
  ⟨fun n hn => (h.stored n hn).linked, h.ok, fun n hn => h.stored n (needs_nodes q t base n hn)⟩

theorem needsL_append (q : Query T) (cs ds : List (PTree T V)) (fs gs : List Bool) (o : Nat) (h : fs.length = cs.length) :
    PTree.needsL q (cs ++ ds) (fs ++ gs) o = PTree.needsL q cs fs o ++ PTree.needsL q ds gs (o + sizes cs) := by
  induction cs generalizing fs o with
  | nil =>
    have : fs = [] := List.length_eq_zero_iff.mp h
    subst this
    simp [PTree.needsL, sizes_nil]
  | cons c cs ih =>
    cases fs with
    | nil => simp at h
    | cons b fs =>
      simp only [List.cons_append, PTree.needsL, List.append_assoc]
      rw [ih fs _ (by simpa using h), sizes_cons, Nat.add_assoc]

theorem SeenFor.enter {sec : Secrets E} {σ : E.σ} {q : Query T} {i : BranchIndex T} {cs : List (PTree T V)} {base : Nat}
    (h : SeenFor sec σ q (.branch i cs) base)
    (ha : anyTrue (q.intersecting base i (List.replicate (T.sums.len i.summaries) true)) = true) :
    SeenIn sec σ q i cs cs (q.intersecting base i (List.replicate (T.sums.len i.summaries) true)) base := by
  have hn : (PTree.branch i cs).needs q base = .branch i cs ::
      PTree.needsL q cs (q.intersecting base i (List.replicate (T.sums.len i.summaries) true)) base := by
    simp [PTree.needs, ha]
  refine ⟨h.avail _ (by rw [hn]; exact List.mem_cons_self), h.linked, h.ok, fun n hm => h.avail n ?_⟩
  rw [hn]
  exact List.mem_cons_of_mem _ hm

/-- Where the offset is before a node has been visited. -/
def startOf (m : Mode) (base count : Nat) : Nat := match m with | .forward => base | .backward => base + count
/-- Where the offset is after a node has been visited. -/
def endOf (m : Mode) (base count : Nat) : Nat := match m with | .forward => base + count | .backward => base
/-- The order of delivery. -/
def ordered {α : Type} (m : Mode) (l : List α) : List α := match m with | .forward => l | .backward => l.reverse

section
variable (sec : Secrets E) (σ : E.σ) (q : Query T) (mkExtra : Index T → X) (L : Nat)

/-- The stack of a running iteration, with the current offset, the chunks still to be delivered and the level of the
topmost node. The topmost branch points to the next child to be looked at. -/
inductive Vis : Mode → List (TraverseState T) → Nat → List (Chunk T V X) → Nat → Prop
  | nil (m : Mode) (o : Nat) : Vis m [] o [] (L + 1)
  | fwd {i : BranchIndex T} {pre todo : List (PTree T V)} {fpre ftodo : List Bool} {o : Nat} {rest : List (TraverseState T)}
      {rem : List (Chunk T V X)} {lv : Nat} : SeenIn sec σ q i (pre ++ todo) todo ftodo o → fpre.length = pre.length →
      ftodo.length = todo.length → i.level < lv → Vis .forward (bumpTop .forward rest) (o + sizes todo) rem lv →
      Vis .forward (⟨.branch i, (pre.length : Int), fpre ++ ftodo⟩ :: rest) o (piecesOf q mkExtra todo ftodo o ++ rem) i.level
  | bwd {i : BranchIndex T} {todo post : List (PTree T V)} {ftodo fpost : List Bool} {o : Nat} {rest : List (TraverseState T)}
      {rem : List (Chunk T V X)} {lv : Nat} : SeenIn sec σ q i (todo ++ post) todo ftodo o → ftodo.length = todo.length →
      fpost.length = post.length → i.level < lv → Vis .backward (bumpTop .backward rest) o rem lv →
      Vis .backward (⟨.branch i, (todo.length : Int) - 1, ftodo ++ fpost⟩ :: rest) (o + sizes todo)
        ((piecesOf q mkExtra todo ftodo o).reverse ++ rem) i.level

/-- The topmost node has not been looked at yet. -/
def Fresh (m : Mode) (t : PTree T V) (it : IterState T) (rem : List (Chunk T V X)) : Prop :=
  ∃ rest base rem' lv, it = ⟨startOf m base t.index.count, TraverseState.new t.index :: rest⟩ ∧ SeenFor sec σ q t base ∧
    t.index.level < lv ∧ Vis sec σ q mkExtra L m (bumpTop m rest) (endOf m base t.index.count) rem' lv ∧
    rem = ordered m (chunksOf q mkExtra t base) ++ rem'

/-- One turn: either a child is put on the stack or a chunk is delivered. -/
def Turn (m : Mode) (act : M E (StepRes T (Chunk T V X))) (rem : List (Chunk T V X)) (bound : Nat) (s : St E) : Prop :=
  (∃ t it', Reads sec act s (.cont it') ∧ Fresh sec σ q mkExtra L m t it' rem ∧ t.index.level < bound) ∨
  (∃ ch rem' it' lv, Reads sec act s (.item ch it') ∧ rem = ch :: rem' ∧ Vis sec σ q mkExtra L m it'.stack it'.offset rem' lv)

/-- The outcome of `next`. -/
def NextIs (m : Mode) (act : M E (Option (Chunk T V X) × IterState T)) (rem : List (Chunk T V X)) (s : St E) : Prop :=
  (rem = [] ∧ ∃ it', Reads sec act s (none, it') ∧ it'.stack = []) ∨
  (∃ ch rem' it' lv, Reads sec act s (some ch, it') ∧ rem = ch :: rem' ∧ Vis sec σ q mkExtra L m it'.stack it'.offset rem' lv)
end

variable {sec : Secrets E} {σ : E.σ} {q : Query T} {mkExtra : Index T → X} {L : Nat}

theorem Vis.le {m : Mode} {st : List (TraverseState T)} {o : Nat} {rem : List (Chunk T V X)} {lv : Nat}
    (h : Vis sec σ q mkExtra L m st o rem lv) : lv ≤ L + 1 := by
  induction h with
  | nil => exact Nat.le_refl _
  | fwd _ _ _ h _ ih => omega
  | bwd _ _ _ h _ ih => omega

theorem reads_move_fwd {s : St E} (hco : Coherent E sec s) (o n : Nat) : Reads sec (moveOffset (E := E) .forward o n) s (o + n) :=
  Reads.pure hco _

theorem reads_move_bwd {s : St E} (hco : Coherent E sec s) (o n : Nat) : Reads sec (moveOffset (E := E) .backward (o + n) n) s o := by
  unfold moveOffset
  rw [if_pos (Nat.le_add_left n o), Nat.add_sub_cancel]
  exact Reads.pure hco _

theorem reads_move {s : St E} (hco : Coherent E sec s) (m : Mode) (o n : Nat) :
    Reads sec (moveOffset (E := E) m (startOf m o n) n) s (endOf m o n) := by
  cases m
  · exact reads_move_fwd hco o n
  · exact reads_move_bwd hco o n

theorem rangeOf_start (m : Mode) (o n : Nat) : rangeOf m (startOf m o n) n = (o, o + n) := by
  cases m
  · rfl
  · simp [rangeOf, startOf]

theorem StoreLe.seen {sec : Secrets E} {σ σ' : E.σ} (h : StoreLe E σ σ') {t : PTree T V} (ht : Seen sec σ t) : Seen sec σ' t :=
  ⟨ht.stored.mono h, ht.ok⟩

theorem SeenIn.tail {i : BranchIndex T} {cs todo : List (PTree T V)} {c : PTree T V} {ftodo : List Bool} {b : Bool} {o : Nat}
    (h : SeenIn sec σ q i cs (c :: todo) (b :: ftodo) o) : SeenIn sec σ q i cs todo ftodo (o + c.index.count) :=
  ⟨h.block, h.linked, h.ok, fun n hn => h.avail n (by unfold PTree.needsL; exact List.mem_append_right _ hn)⟩

theorem SeenIn.head {i : BranchIndex T} {cs todo : List (PTree T V)} {c : PTree T V} {ftodo : List Bool} {o : Nat}
    (h : SeenIn sec σ q i cs (c :: todo) (true :: ftodo) o) (hc : c ∈ cs) : SeenFor sec σ q c o :=
  ⟨PTree.All.children h.linked c hc, PTree.All.children h.ok c hc,
    fun n hn => h.avail n (by unfold PTree.needsL; exact List.mem_append_left _ hn)⟩

theorem SeenIn.init {i : BranchIndex T} {cs todo : List (PTree T V)} {c : PTree T V} {ftodo : List Bool} {b : Bool} {o : Nat}
    (h : SeenIn sec σ q i cs (todo ++ [c]) (ftodo ++ [b]) o) (h1 : ftodo.length = todo.length) : SeenIn sec σ q i cs todo ftodo o :=
  ⟨h.block, h.linked, h.ok, fun n hn => h.avail n (by rw [needsL_append _ _ _ _ _ _ h1]; exact List.mem_append_left _ hn)⟩

theorem SeenIn.last {i : BranchIndex T} {cs todo : List (PTree T V)} {c : PTree T V} {ftodo : List Bool} {o : Nat}
    (h : SeenIn sec σ q i cs (todo ++ [c]) (ftodo ++ [true]) o) (h1 : ftodo.length = todo.length) (hc : c ∈ cs) :
    SeenFor sec σ q c (o + sizes todo) :=
  ⟨PTree.All.children h.linked c hc, PTree.All.children h.ok c hc,
    fun n hn => h.avail n (by
      rw [needsL_append _ _ _ _ _ _ h1]
      refine List.mem_append_right _ ?_
      simp only [PTree.needsL, if_true, List.append_nil]
      exact hn)⟩

theorem branchStep_fwd (h : E.Lawful) {s : St E} (hst : StoreLe E σ s.store) (hco : Coherent E sec s)
    {i : BranchIndex T} {pre todo : List (PTree T V)} {c : PTree T V} {fpre ftodo : List Bool} {b : Bool} {o : Nat}
    {rest : List (TraverseState T)} {rem : List (Chunk T V X)} {lv : Nat} {link : T.Link} (hl : i.link = some link)
    (hs : SeenIn sec σ q i (pre ++ c :: todo) (c :: todo) (b :: ftodo) o) (h1 : fpre.length = pre.length) (h2 : ftodo.length = todo.length)
    (h3 : i.level < lv) (hv : Vis sec σ q mkExtra L .forward (bumpTop .forward rest) (o + sizes (c :: todo)) rem lv) :
    Turn sec σ q mkExtra L .forward
      (branchStep sec .forward mkExtra o ⟨.branch i, (pre.length : Int), fpre ++ b :: ftodo⟩ rest link)
      (piecesOf q mkExtra (c :: todo) (b :: ftodo) o ++ rem) i.level s := by
  have hcm : c ∈ pre ++ c :: todo := by simp
  have hlv : c.index.level < i.level := (PTree.All.root hs.ok).1 c hcm
  obtain ⟨l', r, h4, h5⟩ := hs.block.mono hst
  rw [hl] at h4
  cases h4
  have hf : (fpre ++ b :: ftodo)[((pre.length : Int)).toNat]? = some b := by
    rw [Int.toNat_natCast, ← h1, List.getElem?_append_right (Nat.le_refl _)]; simp
  have hc : ((pre ++ c :: todo).map PTree.index)[((pre.length : Int)).toNat]? = some c.index := by
    rw [Int.toNat_natCast, List.getElem?_map, List.getElem?_append_right (Nat.le_refl _)]; simp
  have hnext : Vis sec σ q mkExtra L .forward (⟨.branch i, (pre.length : Int) + 1, fpre ++ b :: ftodo⟩ :: rest) (o + c.index.count)
      (piecesOf q mkExtra todo ftodo (o + c.index.count) ++ rem) i.level := by
    have hh := Vis.fwd (sec := sec) (σ := σ) (q := q) (mkExtra := mkExtra) (L := L) (i := i) (pre := pre ++ [c]) (todo := todo)
      (fpre := fpre ++ [b]) (ftodo := ftodo) (o := o + c.index.count) (rest := rest) (rem := rem) (lv := lv)
      (by simpa using hs.tail) (by simp [h1]) h2 h3 (by rw [Nat.add_assoc, ← sizes_cons]; exact hv)
    simpa using hh
  cases b with
  | true =>
    left
    refine ⟨c, _, ?_, ⟨⟨.branch i, (pre.length : Int), fpre ++ true :: ftodo⟩ :: rest, o, _, _, rfl, hs.head hcm, hlv, hnext, ?_⟩, hlv⟩
    · unfold branchStep
      refine Reads.bind (Reads.loadCached h hco h5) fun c' hc' => ?_
      simp only
      rw [hf, hc]
      exact Reads.pure hc' _
    · simp [ordered, piecesOf]
  | false =>
    right
    refine ⟨skipChunk mkExtra o c.index, piecesOf q mkExtra todo ftodo (o + c.index.count) ++ rem,
      ⟨o + c.index.count, _⟩, _, ?_, ?_, hnext⟩
    · unfold branchStep
      refine Reads.bind (Reads.loadCached h hco h5) fun c' hc' => ?_
      simp only
      rw [hf, hc]
      exact Reads.pure hc' _
    · simp [piecesOf]

theorem branchStep_bwd (h : E.Lawful) {s : St E} (hst : StoreLe E σ s.store) (hco : Coherent E sec s)
    {i : BranchIndex T} {todo post : List (PTree T V)} {c : PTree T V} {ftodo fpost : List Bool} {b : Bool} {o : Nat}
    {rest : List (TraverseState T)} {rem : List (Chunk T V X)} {lv : Nat} {link : T.Link} (hl : i.link = some link)
    (hs : SeenIn sec σ q i (todo ++ c :: post) (todo ++ [c]) (ftodo ++ [b]) o) (h1 : ftodo.length = todo.length) (h2 : fpost.length = post.length)
    (h3 : i.level < lv) (hv : Vis sec σ q mkExtra L .backward (bumpTop .backward rest) o rem lv) :
    Turn sec σ q mkExtra L .backward
      (branchStep sec .backward mkExtra (o + sizes (todo ++ [c])) ⟨.branch i, (todo.length : Int), ftodo ++ b :: fpost⟩ rest link)
      ((piecesOf q mkExtra (todo ++ [c]) (ftodo ++ [b]) o).reverse ++ rem) i.level s := by
  have hcm : c ∈ todo ++ c :: post := by simp
  have hlv : c.index.level < i.level := (PTree.All.root hs.ok).1 c hcm
  obtain ⟨l', r, h4, h5⟩ := hs.block.mono hst
  rw [hl] at h4
  cases h4
  have hf : (ftodo ++ b :: fpost)[((todo.length : Int)).toNat]? = some b := by
    rw [Int.toNat_natCast, ← h1, List.getElem?_append_right (Nat.le_refl _)]; simp
  have hc : ((todo ++ c :: post).map PTree.index)[((todo.length : Int)).toNat]? = some c.index := by
    rw [Int.toNat_natCast, List.getElem?_map, List.getElem?_append_right (Nat.le_refl _)]; simp
  have hsz : o + sizes (todo ++ [c]) = o + sizes todo + c.index.count := by rw [sizes_append, sizes_cons, sizes_nil]; omega
  have hnext : Vis sec σ q mkExtra L .backward (⟨.branch i, (todo.length : Int) - 1, ftodo ++ b :: fpost⟩ :: rest) (o + sizes todo)
      ((piecesOf q mkExtra todo ftodo o).reverse ++ rem) i.level :=
    Vis.bwd (hs.init h1) h1 (by simp [h2]) h3 hv
  have hp : (piecesOf q mkExtra (todo ++ [c]) (ftodo ++ [b]) o).reverse =
      (if b then chunksOf q mkExtra c (o + sizes todo) else [skipChunk mkExtra (o + sizes todo) c.index]).reverse ++
        (piecesOf q mkExtra todo ftodo o).reverse := by
    rw [piecesOf_append _ _ _ _ _ _ _ h1, List.reverse_append]
    simp [piecesOf]
  rw [hsz, hp]
  cases b with
  | true =>
    left
    refine ⟨c, _, ?_, ⟨⟨.branch i, (todo.length : Int), ftodo ++ true :: fpost⟩ :: rest, o + sizes todo, _, _, rfl, hs.last h1 hcm, hlv, hnext, ?_⟩, hlv⟩
    · unfold branchStep
      refine Reads.bind (Reads.loadCached h hco h5) fun c' hc' => ?_
      simp only
      rw [hf, hc]
      exact Reads.pure hc' _
    · simp [ordered]
  | false =>
    right
    refine ⟨skipChunk mkExtra (o + sizes todo) c.index, (piecesOf q mkExtra todo ftodo o).reverse ++ rem,
      ⟨o + sizes todo, _⟩, _, ?_, ?_, hnext⟩
    · unfold branchStep
      refine Reads.bind (Reads.loadCached h hco h5) fun c' hc' => ?_
      simp only
      rw [hf, hc]
      refine Reads.bind (reads_move_bwd hc' _ _) fun c'' hc'' => ?_
      have := rangeOf_start .backward (o + sizes todo) c.index.count
      simp only [startOf] at this
      rw [this]
      exact Reads.pure hc'' _
    · simp

theorem iterStep_exhausted {s : St E} (hco : Coherent E sec s) {m : Mode} {o : Nat} {head : TraverseState T}
    {rest : List (TraverseState T)} (hx : head.isExhausted m = true) :
    Reads sec (iterStep (E := E) sec q m mkExtra ⟨o, head :: rest⟩) s (.cont ⟨o, bumpTop m rest⟩) := by
  unfold iterStep
  simp only
  rw [if_pos hx]
  exact Reads.pure hco _

theorem iterStep_branch {m : Mode} {o : Nat} {i : BranchIndex T} {p : Int} {f : List Bool} {rest : List (TraverseState T)}
    {link : T.Link} (hl : i.link = some link) (hx : (⟨.branch i, p, f⟩ : TraverseState T).isExhausted m = false) (hf : f ≠ []) :
    iterStep (E := E) sec q m mkExtra ⟨o, ⟨.branch i, p, f⟩ :: rest⟩ = branchStep sec m mkExtra o ⟨.branch i, p, f⟩ rest link := by
  unfold iterStep
  simp only
  rw [if_neg (by rw [hx]; decide)]
  simp only [hl]
  rw [if_neg (by simpa using hf)]

theorem new_not_exhausted (m : Mode) (i : Index T) : (TraverseState.new i).isExhausted m = false := by
  cases m <;> simp [TraverseState.new, TraverseState.isExhausted]

/-- The turn on a branch in the middle of its children. -/
theorem turn_fwd (h : E.Lawful) {s : St E} (hst : StoreLe E σ s.store) (hco : Coherent E sec s)
    {i : BranchIndex T} {pre todo : List (PTree T V)} {fpre ftodo : List Bool} {o : Nat} {rest : List (TraverseState T)}
    {rem : List (Chunk T V X)} {lv : Nat} {link : T.Link} (hl : i.link = some link) (ht : todo ≠ [])
    (hs : SeenIn sec σ q i (pre ++ todo) todo ftodo o) (h1 : fpre.length = pre.length) (h2 : ftodo.length = todo.length)
    (h3 : i.level < lv) (hv : Vis sec σ q mkExtra L .forward (bumpTop .forward rest) (o + sizes todo) rem lv) :
    Turn sec σ q mkExtra L .forward (branchStep sec .forward mkExtra o ⟨.branch i, (pre.length : Int), fpre ++ ftodo⟩ rest link)
      (piecesOf q mkExtra todo ftodo o ++ rem) i.level s := by
  cases todo with
  | nil => exact absurd rfl ht
  | cons c todo =>
    cases ftodo with
    | nil => simp at h2
    | cons b ftodo => exact branchStep_fwd h hst hco hl hs h1 (by simpa using h2) h3 hv

theorem turn_bwd (h : E.Lawful) {s : St E} (hst : StoreLe E σ s.store) (hco : Coherent E sec s)
    {i : BranchIndex T} {todo post : List (PTree T V)} {ftodo fpost : List Bool} {o : Nat} {rest : List (TraverseState T)}
    {rem : List (Chunk T V X)} {lv : Nat} {link : T.Link} (hl : i.link = some link) (ht : todo ≠ [])
    (hs : SeenIn sec σ q i (todo ++ post) todo ftodo o) (h1 : ftodo.length = todo.length) (h2 : fpost.length = post.length)
    (h3 : i.level < lv) (hv : Vis sec σ q mkExtra L .backward (bumpTop .backward rest) o rem lv) :
    Turn sec σ q mkExtra L .backward
      (branchStep sec .backward mkExtra (o + sizes todo) ⟨.branch i, (todo.length : Int) - 1, ftodo ++ fpost⟩ rest link)
      ((piecesOf q mkExtra todo ftodo o).reverse ++ rem) i.level s := by
  obtain ⟨todo', c, rfl⟩ : ∃ a b, todo = a ++ [b] := ⟨todo.dropLast, todo.getLast ht, (List.dropLast_concat_getLast ht).symm⟩
  have hft : ftodo ≠ [] := by intro h; subst h; simp at h1
  obtain ⟨ftodo', b, rfl⟩ : ∃ a b, ftodo = a ++ [b] := ⟨ftodo.dropLast, ftodo.getLast hft, (List.dropLast_concat_getLast hft).symm⟩
  have := branchStep_bwd h hst hco (b := b) (q := q) (mkExtra := mkExtra) (L := L) (i := i) (todo := todo') (c := c) (post := post) (ftodo := ftodo')
    (fpost := fpost) (o := o) (rest := rest) (rem := rem) (lv := lv) hl (by simpa using hs) (by simpa using h1) h2 h3 hv
  simpa using this

/-- The position at which the children of a branch are first looked at. -/
def firstPos (m : Mode) (n : Nat) : Int := match m with | .forward => 0 | .backward => (n : Int) - 1

theorem iterStep_new' {m : Mode} {o : Nat} {i : BranchIndex T} {rest : List (TraverseState T)} {link : T.Link}
    (hl : i.link = some link) :
    iterStep (E := E) sec q m mkExtra ⟨o, TraverseState.new (.branch i) :: rest⟩ =
      (if !(anyTrue (q.intersecting (rangeOf m o i.count).1 i (List.replicate (T.sums.len i.summaries) true))) then
        skipTop m mkExtra o (TraverseState.new (.branch i)) rest (rangeOf m o i.count)
      else branchStep sec m mkExtra o
        ⟨.branch i, firstPos m (T.sums.len i.summaries),
          q.intersecting (rangeOf m o i.count).1 i (List.replicate (T.sums.len i.summaries) true)⟩ rest link) := by
  unfold iterStep
  simp only [new_not_exhausted, Bool.false_eq_true, if_false]
  simp only [TraverseState.new, hl, List.isEmpty_nil, if_true, Index.count]
  cases m <;> rfl

theorem iterStep_new {m : Mode} {base : Nat} {i : BranchIndex T} {rest : List (TraverseState T)} {link : T.Link}
    (hl : i.link = some link) :
    iterStep (E := E) sec q m mkExtra ⟨startOf m base i.count, TraverseState.new (.branch i) :: rest⟩ =
      (if !(anyTrue (q.intersecting base i (List.replicate (T.sums.len i.summaries) true))) then
        skipTop m mkExtra (startOf m base i.count) (TraverseState.new (.branch i)) rest (base, base + i.count)
      else branchStep sec m mkExtra (startOf m base i.count)
        ⟨.branch i, firstPos m (T.sums.len i.summaries),
          q.intersecting base i (List.replicate (T.sums.len i.summaries) true)⟩ rest link) := by
  rw [iterStep_new' hl, rangeOf_start]

/-- The first turn on a node. -/
theorem turn_fresh (h : E.Lawful) (ht : T.Lawful) {s : St E} (hst : StoreLe E σ s.store) (hco : Coherent E sec s) {m : Mode} {t : PTree T V}
    {it : IterState T} {rem : List (Chunk T V X)} (hf : Fresh sec σ q mkExtra L m t it rem) :
    Turn sec σ q mkExtra L m (iterStep sec q m mkExtra it) rem t.index.level s := by
  obtain ⟨rest, base, rem', lv, rfl, hs, hlv, hv, rfl⟩ := hf
  have hsto := PTree.All.root hs.linked
  have hskip : ∀ i : Index T, i = t.index → chunksOf q mkExtra t base = [skipChunk mkExtra base i] →
      Reads sec (skipTop (E := E) m mkExtra (startOf m base i.count) (TraverseState.new i) rest
          (rangeOf m (startOf m base i.count) i.count)) s
        (.item (skipChunk mkExtra base i) ⟨endOf m base i.count, bumpTop m rest⟩) ∧
      ordered m (chunksOf q mkExtra t base) ++ rem' = skipChunk mkExtra base i :: rem' := by
    intro i _ hc
    constructor
    · unfold skipTop
      refine Reads.bind (reads_move hco m base i.count) fun c hc => ?_
      rw [rangeOf_start]
      exact Reads.pure hc _
    · rw [hc]; cases m <;> rfl
  cases t with
  | purgedLeaf i =>
    obtain ⟨hr, he⟩ := hskip (.leaf i) rfl (by simp [chunksOf])
    have hl : i.link = none := hsto
    refine .inr ⟨_, _, ⟨endOf m base (Index.leaf i).count, bumpTop m rest⟩, _, ?_, he, hv⟩
    unfold iterStep
    simp only [new_not_exhausted, Bool.false_eq_true, if_false]
    simp only [TraverseState.new, PTree.index, hl]
    exact hr
  | purgedBranch i =>
    obtain ⟨hr, he⟩ := hskip (.branch i) rfl (by simp [chunksOf])
    have hl : i.link = none := hsto
    refine .inr ⟨_, _, ⟨endOf m base i.count, bumpTop m rest⟩, _, ?_, he, hv⟩
    unfold iterStep
    simp only [new_not_exhausted, Bool.false_eq_true, if_false]
    simp only [TraverseState.new, PTree.index, hl]
    exact hr
  | leaf i vs =>
    obtain ⟨link, hl⟩ := hsto
    refine .inr ⟨⟨(base, base + T.keys.len i.keys),
        leafData base (q.containing base i (List.replicate (T.keys.len i.keys) true)) ((T.keys.toVec i.keys).zip vs), mkExtra (.leaf i)⟩,
      rem', ⟨endOf m base (T.keys.len i.keys), bumpTop m rest⟩, lv, ?_, ?_, hv⟩
    · unfold iterStep
      simp only [new_not_exhausted, Bool.false_eq_true, if_false]
      simp only [TraverseState.new, PTree.index, hl, Index.count]
      have hrg := rangeOf_start m base (T.keys.len i.keys)
      rw [hrg]
      refine Reads.bind (a := ⟨(base, base + T.keys.len i.keys),
        leafData base (q.containing base i (List.replicate (T.keys.len i.keys) true)) ((T.keys.toVec i.keys).zip vs), mkExtra (.leaf i)⟩)
        ?_ fun c hc => ?_
      · unfold visitLeaf
        refine Reads.bind (visitLeafData_reads h ht hco hl base _
          (fun ha => (hs.avail _ (by simp [PTree.needs, ha])).mono hst) ?_) fun c hc => Reads.pure hc _
        rw [q.len_containing]; simp
      · refine Reads.bind (reads_move hc m base _) fun c hc => Reads.pure hc _
    · cases m <;> simp [ordered, chunksOf]
  | branch i cs =>
    obtain ⟨link, hl⟩ := hsto
    obtain ⟨hlt, hcnt, hne, hsum⟩ := PTree.All.root hs.ok
    have hcount : (PTree.branch (V := V) i cs).index.count = i.count := rfl
    have hflen : (q.intersecting base i (List.replicate (T.sums.len i.summaries) true)).length = cs.length := by
      rw [q.len_intersecting, List.length_replicate, hsum]
    rw [hcount] at hv ⊢
    show Turn sec σ q mkExtra L m (iterStep sec q m mkExtra ⟨startOf m base i.count, TraverseState.new (.branch i) :: rest⟩) _ _ s
    rw [iterStep_new hl]
    cases ha : anyTrue (q.intersecting base i (List.replicate (T.sums.len i.summaries) true)) with
    | false =>
      obtain ⟨hr, he⟩ := hskip (.branch i) rfl (by simp [chunksOf, ha])
      simp only [Index.count] at hr
      rw [rangeOf_start] at hr
      exact .inr ⟨_, _, ⟨endOf m base i.count, bumpTop m rest⟩, _, hr, he, hv⟩
    | true =>
      simp only [Bool.not_true, Bool.false_eq_true, if_false]
      have hch : chunksOf q mkExtra (.branch i cs) base =
          piecesOf q mkExtra cs (q.intersecting base i (List.replicate (T.sums.len i.summaries) true)) base := by
        simp [chunksOf, ha]
      rw [hch]
      cases m with
      | forward =>
        have := turn_fwd h hst hco (i := i) (pre := []) (todo := cs) (fpre := []) (ftodo := q.intersecting base i (List.replicate (T.sums.len i.summaries) true))
          (o := base) (rest := rest) (rem := rem') (lv := lv) (q := q) (mkExtra := mkExtra) (L := L) hl hne (hs.enter ha) rfl hflen hlv
          (by rw [← hcnt]; exact hv)
        exact this
      | backward =>
        have := turn_bwd h hst hco (i := i) (todo := cs) (post := []) (ftodo := q.intersecting base i (List.replicate (T.sums.len i.summaries) true)) (fpost := [])
          (o := base) (rest := rest) (rem := rem') (lv := lv) (q := q) (mkExtra := mkExtra) (L := L) hl hne (by simpa using hs.enter ha) hflen rfl hlv hv
        rw [List.append_nil, ← hcnt, ← hsum] at this
        exact this

/-! ### several turns -/

theorem next_cont {s : St E} {m : Mode} {fuel : Nat} {it it' : IterState T} {r : Option (Chunk T V X) × IterState T}
    (h1 : Reads sec (iterStep sec q m mkExtra it) s (.cont it'))
    (h2 : ∀ c, Coherent E sec { s with cache := c } → Reads sec (nextFallible sec q m mkExtra fuel it') { s with cache := c } r) :
    Reads sec (nextFallible sec q m mkExtra (fuel + 1) it) s r :=
  Reads.bind h1 h2

theorem next_item {s : St E} {m : Mode} {fuel : Nat} {it it' : IterState T} {a : Chunk T V X}
    (h1 : Reads sec (iterStep sec q m mkExtra it) s (.item a it')) :
    Reads sec (nextFallible sec q m mkExtra (fuel + 1) it) s (some a, it') :=
  Reads.bind h1 fun _ hc => Reads.pure hc _

theorem Turn.next {s : St E} {m : Mode} {fuel : Nat} {it : IterState T} {rem : List (Chunk T V X)} {bound : Nat}
    (ht : Turn sec σ q mkExtra L m (iterStep sec q m mkExtra it) rem bound s) (hst : StoreLe E σ s.store) (hb : bound ≤ fuel)
    (ih : ∀ (t : PTree T V) (it : IterState T) (rem : List (Chunk T V X)) (s : St E), StoreLe E σ s.store → Coherent E sec s →
      Fresh sec σ q mkExtra L m t it rem → t.index.level < fuel → NextIs sec σ q mkExtra L m (nextFallible sec q m mkExtra fuel it) rem s) :
    NextIs sec σ q mkExtra L m (nextFallible sec q m mkExtra (fuel + 1) it) rem s := by
  rcases ht with ⟨t, it', ⟨c, hc, hr⟩, hf, hl⟩ | ⟨ch, rem', it', lv, hr, he, hv⟩
  · rcases ih t it' rem { s with cache := c } hst hc hf (by omega) with ⟨h1, it2, h2, h3⟩ | ⟨ch, rem', it2, lv, h1, h2, h3⟩
    · obtain ⟨c2, hc2, hr2⟩ := h2
      exact .inl ⟨h1, it2, ⟨c2, hc2, by unfold nextFallible; rw [bind_apply, hr]; exact hr2⟩, h3⟩
    · obtain ⟨c2, hc2, hr2⟩ := h1
      exact .inr ⟨ch, rem', it2, lv, ⟨c2, hc2, by unfold nextFallible; rw [bind_apply, hr]; exact hr2⟩, h2, h3⟩
  · exact .inr ⟨ch, rem', it', lv, next_item hr, he, hv⟩

theorem next_fresh (h : E.Lawful) (ht : T.Lawful) {m : Mode} (fuel : Nat) (t : PTree T V) (it : IterState T)
    (rem : List (Chunk T V X)) (s : St E) (hst : StoreLe E σ s.store) (hco : Coherent E sec s)
    (hf : Fresh sec σ q mkExtra L m t it rem) (hl : t.index.level < fuel) :
    NextIs sec σ q mkExtra L m (nextFallible sec q m mkExtra fuel it) rem s := by
  induction fuel generalizing t it rem s with
  | zero => omega
  | succ fuel ih => exact (turn_fresh h ht hst hco hf).next hst (by omega) ih

theorem next_vis (h : E.Lawful) (ht : T.Lawful) {m : Mode} (fuel : Nat) (it : IterState T)
    (rem : List (Chunk T V X)) (s : St E) (lv : Nat) (hst : StoreLe E σ s.store) (hco : Coherent E sec s)
    (hv : Vis sec σ q mkExtra L m it.stack it.offset rem lv) (hl : 2 * L + 4 ≤ fuel + lv) :
    NextIs sec σ q mkExtra L m (nextFallible sec q m mkExtra fuel it) rem s := by
  induction fuel generalizing it rem s lv with
  | zero => have := hv.le; omega
  | succ fuel ih =>
    obtain ⟨o, stack⟩ := it
    simp only at hv
    have hle := hv.le
    have hfresh := fun t it rem s h1 h2 h3 h4 => next_fresh (sec := sec) (σ := σ) (q := q) (mkExtra := mkExtra) (L := L) (m := m) h ht fuel t it rem s h1 h2 h3 h4
    have pop : ∀ (head : TraverseState T) (rest : List (TraverseState T)) (lv' : Nat), head.isExhausted m = true →
        Vis sec σ q mkExtra L m (bumpTop m rest) o rem lv' → lv < lv' →
        NextIs sec σ q mkExtra L m (nextFallible sec q m mkExtra (fuel + 1) ⟨o, head :: rest⟩) rem s := by
      intro head rest lv' hx hv' hlv
      obtain ⟨c, hc, hr⟩ := iterStep_exhausted (E := E) (q := q) (mkExtra := mkExtra) (o := o) (rest := rest) hco hx
      rcases ih ⟨o, bumpTop m rest⟩ rem { s with cache := c } lv' hst hc hv' (by omega) with ⟨h1, it2, h2, h3⟩ | ⟨ch, rem', it2, lv, h1, h2, h3⟩
      · obtain ⟨c2, hc2, hr2⟩ := h2
        exact .inl ⟨h1, it2, ⟨c2, hc2, by unfold nextFallible; rw [bind_apply, hr]; exact hr2⟩, h3⟩
      · obtain ⟨c2, hc2, hr2⟩ := h1
        exact .inr ⟨ch, rem', it2, lv, ⟨c2, hc2, by unfold nextFallible; rw [bind_apply, hr]; exact hr2⟩, h2, h3⟩
    cases hv with
    | nil => exact .inl ⟨rfl, ⟨o, []⟩, Reads.bind (a := .done) (Reads.pure hco _) (fun _ hc => Reads.pure hc _), rfl⟩
    | @fwd i pre todo fpre ftodo _ rest rem' lv' hs h1 h2 h3 hv' =>
      have hne := (PTree.All.root hs.ok).2.2.1
      have hlen : 0 < (fpre ++ ftodo).length := by
        rw [List.length_append, h1, h2, ← List.length_append]
        exact List.length_pos_iff.mpr hne
      cases todo with
      | nil =>
        have hft : ftodo = [] := List.length_eq_zero_iff.mp h2
        subst hft
        refine pop _ _ lv' ?_ (by simpa [piecesOf, sizes_nil] using hv') h3
        simp only [TraverseState.isExhausted]
        rw [Bool.and_eq_true]
        constructor
        · simp only [Bool.not_eq_true', List.isEmpty_eq_false_iff]
          exact List.length_pos_iff.mp hlen
        · simp [h1]
      | cons c todo =>
        obtain ⟨link, hl'⟩ := PTree.All.root hs.linked
        have ht := turn_fwd h hst hco (by simpa using hl') (List.cons_ne_nil c todo) hs h1 h2 h3 hv'
        rw [← iterStep_branch (q := q) hl' ?_ (List.length_pos_iff.mp hlen)] at ht
        · exact ht.next hst (by omega) hfresh
        · simp only [TraverseState.isExhausted, Bool.and_eq_false_iff, decide_eq_false_iff_not]
          right
          rw [List.length_append, h1, h2]
          simp only [List.length_cons]
          omega
    | @bwd i todo post ftodo fpost o' rest rem' lv' hs h1 h2 h3 hv' =>
      have hne := (PTree.All.root hs.ok).2.2.1
      have hlen : 0 < (ftodo ++ fpost).length := by
        rw [List.length_append, h1, h2, ← List.length_append]
        exact List.length_pos_iff.mpr hne
      cases htd : todo with
      | nil =>
        subst htd
        have hft : ftodo = [] := List.length_eq_zero_iff.mp h1
        subst hft
        refine pop _ _ lv' ?_ (by simpa [piecesOf, sizes_nil] using hv') h3
        simp [TraverseState.isExhausted]
      | cons c cs =>
        rw [← htd]
        obtain ⟨link, hl'⟩ := PTree.All.root hs.linked
        have ht := turn_bwd h hst hco (by simpa using hl') (show todo ≠ [] by rw [htd]; exact List.cons_ne_nil _ _) hs h1 h2 h3 hv'
        rw [← iterStep_branch (q := q) hl' ?_ (List.length_pos_iff.mp hlen)] at ht
        · exact ht.next hst (by omega) hfresh
        · simp only [TraverseState.isExhausted, decide_eq_false_iff_not]
          rw [htd]
          simp only [List.length_cons]
          omega

/-! ### a consumer -/

theorem iterNext_of_next {s : St E} {m : Mode} {fuel : Nat} {it : IterState T} {rem : List (Chunk T V X)}
    (hn : NextIs sec σ q mkExtra L m (nextFallible sec q m mkExtra fuel it) rem s) :
    (rem = [] ∧ ∃ it', Reads sec (iterNext sec q m mkExtra fuel it) s (none, it') ∧ it'.stack = []) ∨
    (∃ ch rem' it' lv, Reads sec (iterNext sec q m mkExtra fuel it) s (some (.ok ch), it') ∧ rem = ch :: rem' ∧
      Vis sec σ q mkExtra L m it'.stack it'.offset rem' lv) := by
  rcases hn with ⟨h1, it', ⟨c, hc, hr⟩, h3⟩ | ⟨ch, rem', it', lv, ⟨c, hc, hr⟩, h2, h3⟩
  · refine .inl ⟨h1, it', ⟨c, hc, ?_⟩, h3⟩
    unfold iterNext
    rw [bind_apply]
    unfold M.tryFail
    rw [hr]
    rfl
  · refine .inr ⟨ch, rem', it', lv, ⟨c, hc, ?_⟩, h2, h3⟩
    unfold iterNext
    rw [bind_apply]
    unfold M.tryFail
    rw [hr]
    rfl

/-- The states in which the iterator can be: just created, or running. -/
def Live (sec : Secrets E) (σ : E.σ) (q : Query T) (mkExtra : Index T → X) (L : Nat) (m : Mode) (it : IterState T)
    (rem : List (Chunk T V X)) : Prop :=
  (∃ t, Fresh sec σ q mkExtra L m t it rem ∧ t.index.level ≤ L) ∨ ∃ lv, Vis sec σ q mkExtra L m it.stack it.offset rem lv

theorem iterNext_live (h : E.Lawful) (ht : T.Lawful) {m : Mode} {fuel : Nat} {it : IterState T} {rem : List (Chunk T V X)} {s : St E}
    (hst : StoreLe E σ s.store) (hco : Coherent E sec s) (hl : Live sec σ q mkExtra L m it rem) (hf : 2 * L + 4 ≤ fuel) :
    (rem = [] ∧ ∃ it', Reads sec (iterNext sec q m mkExtra fuel it) s (none, it')) ∨
    (∃ ch rem' it', Reads sec (iterNext sec q m mkExtra fuel it) s (some (.ok ch), it') ∧ rem = ch :: rem' ∧
      Live sec σ q mkExtra L m it' rem') := by
  have hn : NextIs sec σ q mkExtra L m (nextFallible sec q m mkExtra fuel it) rem s := by
    rcases hl with ⟨t, hfr, hlv⟩ | ⟨lv, hv⟩
    · exact next_fresh h ht fuel t it rem s hst hco hfr (by omega)
    · exact next_vis h ht fuel it rem s lv hst hco hv (by omega)
  rcases iterNext_of_next hn with ⟨h1, it', h2, _⟩ | ⟨ch, rem', it', lv, h1, h2, h3⟩
  · exact .inl ⟨h1, it', h2⟩
  · exact .inr ⟨ch, rem', it', h1, h2, .inr ⟨lv, h3⟩⟩

theorem iterTake_live (h : E.Lawful) (ht : T.Lawful) {m : Mode} {fuel : Nat} {between : Nat → St E → St E} (hb : Harmless sec between)
    (n : Nat) {it : IterState T} {rem : List (Chunk T V X)} {s : St E} (hst : StoreLe E σ s.store) (hco : Coherent E sec s)
    (hl : Live sec σ q mkExtra L m it rem) (hf : 2 * L + 4 ≤ fuel) :
    ∃ s', iterTake sec q m mkExtra fuel between n it s = .ok ((rem.take n).map .ok) s' := by
  induction n generalizing it rem s with
  | zero => exact ⟨s, by simp [iterTake]; rfl⟩
  | succ n ih =>
    rcases iterNext_live h ht hst hco hl hf with ⟨h1, it', ⟨c, hc, hr⟩⟩ | ⟨ch, rem', it', ⟨c, hc, hr⟩, h2, h3⟩
    · subst h1
      refine ⟨{ s with cache := c }, ?_⟩
      unfold iterTake
      rw [bind_apply, hr]
      rfl
    · subst h2
      obtain ⟨hb1, hb2⟩ := hb n _ hc
      obtain ⟨s', hs'⟩ := ih (hst.trans hb1) hb2 h3
      refine ⟨s', ?_⟩
      unfold iterTake
      rw [bind_apply, hr]
      simp only
      rw [bind_apply, show (modify (between n) : M E Unit) { s with cache := c } = .ok () (between n { s with cache := c }) from rfl]
      simp only
      rw [bind_apply, hs']
      rfl

theorem live_for {m : Mode} {t : PTree T V} (hs : SeenFor sec σ q t 0) :
    Live sec σ q mkExtra t.index.level m (IterState.new m t.index) (ordered m (chunksOf q mkExtra t 0)) := by
  refine .inl ⟨t, ⟨[], 0, [], t.index.level + 1, ?_, hs, Nat.lt_succ_self _, ?_, by simp⟩, Nat.le_refl _⟩
  · cases m <;> simp [IterState.new, startOf]
  · exact Vis.nil m _

theorem live_new {m : Mode} {t : PTree T V} (hs : Seen sec σ t) :
    Live sec σ q mkExtra t.index.level m (IterState.new m t.index) (ordered m (chunksOf q mkExtra t 0)) :=
  live_for (hs.seenFor q 0)

theorem chunkedTake_spec (h : E.Lawful) (ht : T.Lawful) {m : Mode} {fuel : Nat} {between : Nat → St E → St E} (hb : Harmless sec between)
    (n : Nat) {t : PTree T V} {s : St E} (hs : Seen sec s.store t) (hco : Coherent E sec s) (hf : 2 * t.index.level + 4 ≤ fuel) :
    ∃ s', chunkedTake sec q m mkExtra fuel between n t.index s = .ok (((ordered m (chunksOf q mkExtra t 0)).take n).map .ok) s' :=
  iterTake_live h ht hb n (σ := s.store) (fun _ _ h => h) hco (live_new hs) hf

end Banyan
