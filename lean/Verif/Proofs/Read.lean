import Verif.Proofs.ExtendRoot
/-
Reading of loaded trees.
-/
namespace Banyan

variable {T : TreeTypes} {V : Type} {E : Env T V} {α β : Type}

/-! ### reading computations -/

/-- `m` started in `s` returns `a` and changes nothing but the branch cache, which stays coherent. -/
def Reads (sec : Secrets E) (m : M E α) (s : St E) (a : α) : Prop :=
  ∃ c, Coherent E sec { s with cache := c } ∧ m s = .ok a { s with cache := c }

theorem Reads.pure {sec : Secrets E} {s : St E} (h : Coherent E sec s) (a : α) : Reads sec (Pure.pure a : M E α) s a :=
  ⟨s.cache, h, rfl⟩

theorem Reads.bind {sec : Secrets E} {m : M E α} {f : α → M E β} {s : St E} {a : α} {b : β} (hm : Reads sec m s a)
    (hf : ∀ c, Coherent E sec { s with cache := c } → Reads sec (f a) { s with cache := c } b) :
    Reads sec (m >>= f) s b := by
  obtain ⟨c, h1, h2⟩ := hm
  obtain ⟨c', h3, h4⟩ := hf c h1
  exact ⟨c', h3, by rw [bind_apply, h2]; exact h4⟩

theorem Reads.lift {sec : Secrets E} {s : St E} (h : Coherent E sec s) {x : Except Err α} {a : α} (hx : x = .ok a) :
    Reads sec (M.lift x : M E α) s a := by
  subst hx; exact ⟨s.cache, h, rfl⟩

theorem Reads.loadCached (h : E.Lawful) {sec : Secrets E} {s : St E} (hc : Coherent E sec s) {l : T.Link} {b : Branch T}
    (hl : loadBranchFromLink E sec s.store l = .ok b) : Reads sec (loadBranchCached sec l) s b := by
  obtain ⟨c, h1, ⟨b', h2, h3⟩ | ⟨e, _, h3⟩⟩ := loadBranchCached_coherent h hc l
  · rw [h3 b hl]
    exact ⟨c, h1, h2⟩
  · rw [hl] at h3
    cases h3

theorem Reads.loadBranchM {sec : Secrets E} {s : St E} (hc : Coherent E sec s) {l : T.Link} {b : Branch T}
    (hl : loadBranchFromLink E sec s.store l = .ok b) : Reads sec (loadBranchM sec l) s b := by
  refine ⟨s.cache, hc, ?_⟩
  unfold Banyan.loadBranchM
  rw [hl]

theorem Reads.loadLeafM {sec : Secrets E} {s : St E} (hc : Coherent E sec s) {l : T.Link} {b : Leaf}
    (hl : loadLeafFromLink E sec s.store l = .ok b) : Reads sec (loadLeafM sec l) s b := by
  refine ⟨s.cache, hc, ?_⟩
  unfold Banyan.loadLeafM
  rw [hl]

theorem Reads.root {sec : Secrets E} {m : M E α} {s : St E} {a : α} (h : Reads sec m s a) :
    ∃ s', m s = .ok a s' ∧ s'.root = s.root ∧ s'.store = s.store ∧ s'.offset = s.offset ∧ s'.puts = s.puts ∧
      s'.written = s.written ∧ Coherent E sec s' := by
  obtain ⟨c, h1, h2⟩ := h
  exact ⟨_, h2, rfl, rfl, rfl, rfl, rfl, h1⟩

/-- `m` started in `s` returns `a` and changes nothing but the branch cache, for which `P` stays true. -/
def ReadsP (P : St E → Prop) (m : M E α) (s : St E) (a : α) : Prop :=
  ∃ c, P { s with cache := c } ∧ m s = .ok a { s with cache := c }

/-- In states with `P`, a branch that can be loaded from the store can be loaded through the cache. -/
def Serves (sec : Secrets E) (P : St E → Prop) : Prop :=
  ∀ s l b, P s → loadBranchFromLink E sec s.store l = .ok b → ReadsP P (loadBranchCached sec l) s b

theorem ReadsP.pure {P : St E → Prop} {s : St E} (h : P s) (a : α) : ReadsP P (Pure.pure a : M E α) s a := ⟨s.cache, h, rfl⟩

theorem ReadsP.bind {P : St E → Prop} {m : M E α} {f : α → M E β} {s : St E} {a : α} {b : β} (hm : ReadsP P m s a)
    (hf : ∀ c, P { s with cache := c } → ReadsP P (f a) { s with cache := c } b) : ReadsP P (m >>= f) s b := by
  obtain ⟨c, h1, h2⟩ := hm
  obtain ⟨c', h3, h4⟩ := hf c h1
  exact ⟨c', h3, by rw [bind_apply, h2]; exact h4⟩

theorem ReadsP.lift {P : St E → Prop} {s : St E} (h : P s) {x : Except Err α} {a : α} (hx : x = .ok a) :
    ReadsP P (M.lift x : M E α) s a := by
  subst hx; exact ⟨s.cache, h, rfl⟩

theorem ReadsP.loadLeafM {P : St E → Prop} {sec : Secrets E} {s : St E} (hc : P s) {l : T.Link} {b : Leaf}
    (hl : loadLeafFromLink E sec s.store l = .ok b) : ReadsP P (Banyan.loadLeafM sec l) s b := by
  refine ⟨s.cache, hc, ?_⟩
  unfold Banyan.loadLeafM
  rw [hl]

theorem coherent_serves (h : E.Lawful) (sec : Secrets E) : Serves sec (Coherent E sec) :=
  fun _ _ _ hc hl => Reads.loadCached h hc hl

/-! ### trees with consistent counts -/

/-- Consistent counts and levels: all that reading needs. -/
def Counts (t : PTree T V) : Prop := t.All fun
  | .leaf i vs => T.keys.len i.keys = vs.length
  | .branch i cs => (∀ c ∈ cs, c.index.level < i.level) ∧ i.count = (cs.map fun c => c.index.count).sum
  | .purgedLeaf _ => True
  | .purgedBranch _ => True

/-- All that reading and querying need: like `WF`, without anything about sealed nodes. -/
def Formed (t : PTree T V) : Prop := t.All fun
  | .leaf i vs => T.keys.len i.keys = vs.length ∧ vs ≠ []
  | .branch i cs => cs ≠ [] ∧ (∀ c ∈ cs, c.index.level < i.level) ∧ i.count = (cs.map fun c => c.index.count).sum ∧
      i.summaries = T.sums.ofList (cs.map fun c => c.index.summarize)
  | .purgedLeaf i => 0 < T.keys.len i.keys
  | .purgedBranch i => 0 < i.count

theorem WF.formed {t : PTree T V} (h : WF E t) : Formed t := by
  refine PTree.All.imp ?_ h
  intro n hn
  cases n with
  | leaf i vs => exact ⟨hn.1, hn.2.1⟩
  | branch i cs => exact ⟨hn.1, hn.2.1, hn.2.2.2.1, hn.2.2.2.2.1⟩
  | purgedLeaf => exact hn.2
  | purgedBranch => exact hn.2.1

theorem Formed.counts {t : PTree T V} (h : Formed t) : Counts t := by
  refine PTree.All.imp ?_ h
  intro n hn
  cases n with
  | leaf i vs => exact hn.1
  | branch i cs => exact ⟨hn.2.1, hn.2.2.1⟩
  | purgedLeaf => trivial
  | purgedBranch => trivial

theorem WF.counts {t : PTree T V} (h : WF E t) : Counts t := by
  refine PTree.All.imp ?_ h
  intro n hn
  cases n with
  | leaf i vs => exact hn.1
  | branch i cs => exact ⟨hn.2.1, hn.2.2.2.1⟩
  | purgedLeaf => trivial
  | purgedBranch => trivial

theorem content_length (ht : T.Lawful) {t : PTree T V} (h : Counts t) : t.content.length = t.index.count := by
  induction t using PTree.induct with
  | leaf i vs =>
    have := PTree.All.root h
    simp only [PTree.content, PTree.index, Index.count, List.length_map, List.length_zip]
    rw [CompactSeq.length_toVec ht.keys, this]
    simp
  | branch i cs ih =>
    have h1 := PTree.All.root h
    have h2 := PTree.All.children h
    simp only [PTree.content, PTree.index, Index.count]
    rw [h1.2, PTree.contents_eq, List.length_flatMap]
    congr 1
    apply List.map_congr_left
    intro c hc
    exact ih c hc (h2 c hc)
  | purgedLeaf i => simp [PTree.content, PTree.index, Index.count]
  | purgedBranch i => simp [PTree.content, PTree.index, Index.count]

theorem contents_length (ht : T.Lawful) {cs : List (PTree T V)} (h : ∀ c ∈ cs, Counts c) :
    (PTree.contents cs).length = (cs.map fun c => c.index.count).sum := by
  rw [PTree.contents_eq, List.length_flatMap]
  congr 1
  apply List.map_congr_left
  intro c hc
  exact content_length ht (h c hc)

/-! ### get -/

theorem get0Loop_readsP {P : St E → Prop} {s : St E} (ht : T.Lawful) (hco : P s)
    {rec : Index T → Nat → M E (Option (T.Key × V))} (cs : List (PTree T V)) (o : Nat) (hcnt : ∀ c ∈ cs, Counts c)
    (ho : o < (PTree.contents cs).length)
    (hrec : ∀ c ∈ cs, ∀ o s', s'.store = s.store → P s' → ReadsP P (rec c.index o) s' (c.content[o]?.join)) :
    ReadsP P (get0Loop rec (cs.map PTree.index) o) s ((PTree.contents cs)[o]?.join) := by
  induction cs generalizing o with
  | nil => simp at ho
  | cons c cs ih =>
    have hl := content_length ht (hcnt c (by simp))
    simp only [List.map_cons]
    unfold get0Loop
    by_cases hc : o < c.index.count
    · rw [if_pos hc, PTree.contents_cons, List.getElem?_append_left (by omega)]
      exact hrec c (by simp) o s rfl hco
    · rw [if_neg hc, PTree.contents_cons, List.getElem?_append_right (by omega), hl]
      refine ih _ (fun c hc => hcnt c (by simp [hc])) ?_ (fun c hc => hrec c (by simp [hc]))
      simp only [PTree.contents_cons, List.length_append] at ho
      omega

theorem get0_readsP (h : E.Lawful) (ht : T.Lawful) {sec : Secrets E} {P : St E → Prop} (hP : Serves sec P) (fuel : Nat) (t : PTree T V) (o : Nat) (s : St E)
    (hs : Stored E sec s.store t) (hcnt : Counts t) (hco : P s) (hf : t.index.level < fuel) :
    ReadsP P (get0 sec fuel t.index o) s (t.content[o]?.join) := by
  induction fuel generalizing t o s with
  | zero => omega
  | succ fuel ih =>
    have hl := content_length ht hcnt
    unfold get0
    by_cases ho : o ≥ t.index.count
    · rw [if_pos ho, List.getElem?_eq_none (by omega)]
      exact ReadsP.pure hco _
    · rw [if_neg ho]
      have ho' : o < t.content.length := by omega
      cases t with
      | purgedLeaf i =>
        have : i.link = none := PTree.All.root hs
        have ho2 : o < T.keys.len i.keys := by simpa [PTree.content] using ho'
        simp only [PTree.index, this, PTree.content]
        rw [List.getElem?_replicate, if_pos ho2]
        exact ReadsP.pure hco _
      | purgedBranch i =>
        have : i.link = none := PTree.All.root hs
        have ho2 : o < i.count := by simpa [PTree.content] using ho'
        simp only [PTree.index, this, PTree.content]
        rw [List.getElem?_replicate, if_pos ho2]
        exact ReadsP.pure hco _
      | leaf i vs =>
        obtain ⟨l, z, r, h1, h2, h3, h4⟩ := PTree.All.root hs
        have hlen : T.keys.len i.keys = vs.length := PTree.All.root hcnt
        have hov : o < vs.length := by
          have : o < T.keys.len i.keys := by
            simp only [PTree.index, Index.count] at ho; omega
          omega
        simp only [PTree.index, h1]
        obtain ⟨k, hk⟩ := Option.isSome_iff_exists.mp (ht.keys.get_some i.keys o (by omega))
        rw [hk]
        refine ReadsP.bind (ReadsP.loadLeafM hco h2) fun c hc => ?_
        have hch : childAt E ⟨z, r⟩ o = .ok vs[o] := by
          unfold childAt
          rw [ZSeq.get_of_decompress h h4, List.getElem?_eq_getElem hov]
        refine ReadsP.bind (ReadsP.lift hc hch) fun c hc => ?_
        have hkey : (T.keys.toVec i.keys)[o]? = some k := by
          rw [CompactSeq.getElem?_toVec ht.keys, if_pos (by omega), hk]
        have : ((PTree.leaf i vs).content[o]?).join = some (k, vs[o]) := by
          simp only [PTree.content, List.getElem?_map]
          have hz : ((T.keys.toVec i.keys).zip vs)[o]? = some (k, vs[o]) := by
            rw [List.getElem?_zip_eq_some]
            exact ⟨hkey, List.getElem?_eq_getElem hov⟩
          rw [hz]; rfl
        rw [this]
        exact ReadsP.pure hc _
      | branch i cs =>
        obtain ⟨l, r, h1, h2⟩ := PTree.All.root hs
        simp only [PTree.index, h1]
        refine ReadsP.bind (hP _ _ _ hco h2) fun c hc => ?_
        refine get0Loop_readsP ht hc cs o (PTree.All.children hcnt) (by simpa [PTree.content] using ho') ?_
        intro c' hc' o' s' hst hco'
        have hlv := (PTree.All.root hcnt).1 c' hc'
        refine ih c' o' s' ?_ (PTree.All.children hcnt c' hc') hco' ?_
        · rw [hst]; exact PTree.All.children hs c' hc'
        · simp only [PTree.index, Index.level] at hf; omega

/-! ### collect -/

theorem collect0Loop_readsP {P : St E → Prop} {s : St E} (ht : T.Lawful) (hco : P s)
    {rec : Index T → Nat → List (Option (T.Key × V)) → M E (List (Option (T.Key × V)))} (cs : List (PTree T V)) (o : Nat)
    (into : List (Option (T.Key × V))) (hcnt : ∀ c ∈ cs, Counts c)
    (hrec : ∀ c ∈ cs, ∀ o into s', s'.store = s.store → P s' →
      ReadsP P (rec c.index o into) s' (into ++ c.content.drop o)) :
    ReadsP P (collect0Loop rec (cs.map PTree.index) o into) s (into ++ (PTree.contents cs).drop o) := by
  induction cs generalizing o into s with
  | nil => simpa [collect0Loop] using ReadsP.pure hco into
  | cons c cs ih =>
    have hl := content_length ht (hcnt c (by simp))
    simp only [List.map_cons]
    unfold collect0Loop
    rw [PTree.contents_cons, List.drop_append, hl, ← List.append_assoc]
    by_cases hc : o < c.index.count
    · rw [if_pos hc]
      refine ReadsP.bind (hrec c (by simp) o into s rfl hco) fun c' hc' => ?_
      exact ih hc' _ _ (fun c hc => hcnt c (by simp [hc])) (fun c hc o into s' hs => hrec c (by simp [hc]) o into s' hs)
    · rw [if_neg hc, List.drop_of_length_le (by omega), List.append_nil]
      exact ih hco _ _ (fun c hc => hcnt c (by simp [hc])) (fun c hc o into s' hs => hrec c (by simp [hc]) o into s' hs)

theorem collect0_readsP (h : E.Lawful) (ht : T.Lawful) {sec : Secrets E} {P : St E → Prop} (hP : Serves sec P) (fuel : Nat) (t : PTree T V) (o : Nat)
    (into : List (Option (T.Key × V))) (s : St E)
    (hs : Stored E sec s.store t) (hcnt : Counts t) (hco : P s) (hf : t.index.level < fuel) :
    ReadsP P (collect0 sec fuel t.index o into) s (into ++ t.content.drop o) := by
  induction fuel generalizing t o s into with
  | zero => omega
  | succ fuel ih =>
    have hl := content_length ht hcnt
    unfold collect0
    by_cases ho : o ≥ t.index.count
    · rw [if_pos ho, List.drop_of_length_le (by omega), List.append_nil]
      exact ReadsP.pure hco _
    · rw [if_neg ho]
      cases t with
      | purgedLeaf i =>
        have : i.link = none := PTree.All.root hs
        simp only [PTree.index, this, PTree.content, List.drop_replicate]
        exact ReadsP.pure hco _
      | purgedBranch i =>
        have : i.link = none := PTree.All.root hs
        simp only [PTree.index, this, PTree.content, List.drop_replicate]
        exact ReadsP.pure hco _
      | leaf i vs =>
        obtain ⟨l, z, r, h1, h2, h3, h4⟩ := PTree.All.root hs
        simp only [PTree.index, h1]
        refine ReadsP.bind (ReadsP.loadLeafM hco h2) fun c hc => ?_
        refine ReadsP.bind (ReadsP.lift hc (ZSeq.items_of_decompress h h4)) fun c hc => ?_
        simp only [PTree.content, ← List.map_drop]
        exact ReadsP.pure hc _
      | branch i cs =>
        obtain ⟨l, r, h1, h2⟩ := PTree.All.root hs
        simp only [PTree.index, h1]
        refine ReadsP.bind (hP _ _ _ hco h2) fun c hc => ?_
        refine collect0Loop_readsP ht hc cs o into (PTree.All.children hcnt) ?_
        intro c' hc' o' into' s' hst hco'
        have hlv := (PTree.All.root hcnt).1 c' hc'
        refine ih c' o' into' s' ?_ (PTree.All.children hcnt c' hc') hco' ?_
        · rw [hst]; exact PTree.All.children hs c' hc'
        · simp only [PTree.index, Index.level] at hf; omega

/-! ### is_packed -/

theorem packed_iff {i : BranchIndex T} {init : List (PTree T V)} {last : PTree T V} (hs : i.isSealed = false) :
    Packed (.branch i (init ++ [last])) ↔
    (∀ c ∈ init, c.index.isSealed = true ∧ c.index.level + 1 = i.level) ∧ last.index.level < i.level ∧ Packed last :=
  ⟨fun h => h.inv hs, fun ⟨a, b, c⟩ => .unclosed i init last a b c⟩

open Classical in
theorem isPacked0_readsP {sec : Secrets E} {P : St E → Prop} (hP : Serves sec P) (fuel : Nat) (t : PTree T V) (s : St E)
    (hs : Outlined E sec s.store t) (hcnt : Counts t) (hne : t.All fun | .branch _ cs => cs ≠ [] | _ => True)
    (hco : P s) (hf : t.index.level < fuel) :
    ReadsP P (isPacked0 sec fuel t.index) s (decide (Packed t)) := by
  induction fuel generalizing t s with
  | zero => omega
  | succ fuel ih =>
    unfold isPacked0
    cases t with
    | purgedLeaf i => rw [decide_eq_true (.purgedLeaf i)]; exact ReadsP.pure hco _
    | leaf i vs => rw [decide_eq_true (.leaf i vs)]; exact ReadsP.pure hco _
    | purgedBranch i =>
      have : i.link = none := PTree.All.root hs
      simp only [PTree.index, this]
      rw [decide_eq_true (.purgedBranch i)]; exact ReadsP.pure hco _
    | branch i cs =>
      obtain ⟨l, r, h1, h2⟩ := PTree.All.root hs
      simp only [PTree.index, h1]
      cases hsl : i.isSealed with
      | true =>
        rw [decide_eq_true (.closed i cs hsl)]
        exact ReadsP.pure hco _
      | false =>
        simp only [Bool.false_eq_true, if_false]
        refine ReadsP.bind (hP _ _ _ hco h2) fun c hc => ?_
        have hcs : cs ≠ [] := PTree.All.root hne
        obtain ⟨init, last, rfl⟩ : ∃ init last, cs = init ++ [last] :=
          ⟨cs.dropLast, cs.getLast hcs, (List.dropLast_concat_getLast hcs).symm⟩
        simp only [List.map_append, List.map_cons, List.map_nil, getLast?_append_singleton, List.dropLast_concat]
        have hlv := (PTree.All.root hcnt).1 last (by simp)
        refine ReadsP.bind (ih last _ (PTree.All.children hs last (by simp)) (PTree.All.children hcnt last (by simp))
          (PTree.All.children hne last (by simp)) hc ?_) fun c hc => ?_
        · simp only [PTree.index, Index.level] at hf; omega
        · have heq : decide (Packed (PTree.branch i (init ++ [last]))) =
              ((init.map PTree.index).all (fun child => child.isSealed && child.level == i.level - 1) &&
                decide (last.index.level < i.level) && decide (Packed last)) := by
            rw [Bool.eq_iff_iff]
            simp only [decide_eq_true_eq, Bool.and_eq_true, List.all_eq_true, List.mem_map,
              forall_exists_index, and_imp, forall_apply_eq_imp_iff₂, beq_iff_eq]
            rw [packed_iff hsl]
            constructor
            · rintro ⟨a, b, c⟩
              exact ⟨⟨fun x hx => ⟨(a x hx).1, by have := (a x hx).2; omega⟩, b⟩, c⟩
            · rintro ⟨⟨a, b⟩, c⟩
              exact ⟨fun x hx => ⟨(a x hx).1, by have := (a x hx).2; omega⟩, b, c⟩
          rw [heq]
          exact ReadsP.pure hc _

/-! ### check_invariants -/

theorem checkLevels_ok (i : BranchIndex T) (cs : List (Index T)) (msgs : List InvMsg)
    (h1 : i.isSealed = true → ∀ c ∈ cs, c.level + 1 = i.level) (h2 : ∀ c ∈ cs, c.level < i.level) :
    checkLevels i cs msgs = msgs := by
  induction cs generalizing msgs with
  | nil => rfl
  | cons c cs ih =>
    unfold checkLevels
    rw [ih _ (fun hs c hc => h1 hs c (by simp [hc])) (fun c hc => h2 c (by simp [hc]))]
    cases hs : i.isSealed with
    | true =>
      have := h1 hs c (by simp)
      simp only [if_true, checkMsg]
      rw [if_pos (by simp; omega)]
    | false =>
      have := h2 c (by simp)
      simp [checkMsg, this]

theorem checkSummaries_ok (cs : List (Index T)) (msgs : List InvMsg) :
    checkSummaries (cs.zip (cs.map Index.summarize)) msgs = msgs := by
  induction cs generalizing msgs with
  | nil => rfl
  | cons c cs ih =>
    simp only [List.map_cons, List.zip_cons_cons]
    unfold checkSummaries
    rw [ih]
    simp [checkMsg]

/-- The structural invariants of all nodes that are not purged. -/
def Kept (E : Env T V) (cfg : Config) (t : PTree T V) : Prop := t.All fun
  | .leaf i vs => WFAt E (.leaf i vs)
  | .branch i cs => WFAt E (.branch i cs) ∧ i.isSealed = cfg.branchSealed (cs.map PTree.index) i.level
  | .purgedLeaf _ => True
  | .purgedBranch _ => True

theorem WF.kept {cfg : Config} {t : PTree T V} (h : WF E t) (hw : Within E cfg t) : Kept E cfg t := by
  intro n hn
  cases n with
  | leaf i vs => exact h _ hn
  | branch i cs => exact ⟨h _ hn, (hw _ hn).2⟩
  | purgedLeaf => trivial
  | purgedBranch => trivial

theorem checkInvariantsLoop_readsP {P : St E → Prop} {s : St E} (hco : P s)
    {rec : Index T → Int → List InvMsg → M E (Int × List InvMsg)} (cs : List (PTree T V)) (level : Int) (msgs : List InvMsg)
    (hrec : ∀ c ∈ cs, ∀ level s', s'.store = s.store → P s' →
      ∃ level', ReadsP P (rec c.index level msgs) s' (level', msgs)) :
    ∃ level', ReadsP P (checkInvariantsLoop rec (cs.map PTree.index) level msgs) s (level', msgs) := by
  induction cs generalizing level s with
  | nil => exact ⟨level, ReadsP.pure hco _⟩
  | cons c cs ih =>
    obtain ⟨l1, h1⟩ := hrec c (by simp) level s rfl hco
    obtain ⟨c1, hc1, hm1⟩ := h1
    obtain ⟨l2, c2, hc2, hm2⟩ := ih hc1 l1 (fun c hc level s' hs => hrec c (by simp [hc]) level s' hs)
    refine ⟨l2, c2, hc2, ?_⟩
    simp only [List.map_cons, checkInvariantsLoop]
    rw [bind_apply, hm1]
    exact hm2

theorem checkInvariants0_readsP (h : E.Lawful) (ht : T.Lawful) {sec : Secrets E} {P : St E → Prop} (hP : Serves sec P) {cfg : Config} (fuel : Nat) (t : PTree T V)
    (level : Int) (msgs : List InvMsg) (s : St E) (hs : Stored E sec s.store t) (hw : Kept E cfg t) (hco : P s)
    (hf : t.index.level < fuel) :
    ∃ level', ReadsP P (checkInvariants0 sec cfg fuel t.index level msgs) s (level', msgs) := by
  induction fuel generalizing t level s with
  | zero => omega
  | succ fuel ih =>
    unfold checkInvariants0
    generalize (if (!t.index.isSealed) = true then min level ((t.index.level : Int) - 1) else level) = level1
    cases t with
    | purgedLeaf i =>
      have : i.link = none := PTree.All.root hs
      simp only [PTree.index, this]
      exact ⟨_, ReadsP.pure hco _⟩
    | purgedBranch i =>
      have : i.link = none := PTree.All.root hs
      simp only [PTree.index, this]
      exact ⟨_, ReadsP.pure hco _⟩
    | leaf i vs =>
      obtain ⟨l, z, r, h1, h2, h3, h4⟩ := PTree.All.root hs
      obtain ⟨w1, _⟩ := PTree.All.root hw
      simp only [PTree.index, h1]
      refine ⟨level1, ReadsP.bind (ReadsP.loadLeafM hco h2) fun c hc => ?_⟩
      refine ReadsP.bind (ReadsP.lift hc (ZSeq.count_of_decompress h h4)) fun c hc => ?_
      have : checkMsg (vs.length == T.keys.len i.keys) .valueCount msgs = msgs := by simp [checkMsg, w1]
      rw [this]
      exact ReadsP.pure hc _
    | branch i cs =>
      obtain ⟨l, r, h1, h2⟩ := PTree.All.root hs
      obtain ⟨⟨w1, w3, w4, w5, w6, w7, w2⟩, w8⟩ := PTree.All.root hw
      simp only [PTree.index, h1]
      have hlev : i.level > 0 := by obtain ⟨c, _, hc⟩ := w4; omega
      have hsum : T.sums.toVec i.summaries = (cs.map PTree.index).map Index.summarize := by
        rw [w6, CompactSeq.toVec_ofList ht.sums _ (by simpa using w1)]
        simp
      have hlen : T.sums.len i.summaries = cs.length := by
        rw [w6, ht.sums.len_ofList _ (by simpa using w1)]
        simp
      obtain ⟨c1, hc1, hm1⟩ := hP _ _ _ hco h2
      have := checkInvariantsLoop_readsP (rec := checkInvariants0 sec cfg fuel) hc1 cs level1 msgs (by
        intro c hc level s' hst hco'
        refine ih c level s' ?_ (PTree.All.children hw c hc) hco' ?_
        · rw [hst]; exact PTree.All.children hs c hc
        · have := w3 c hc
          simp only [PTree.index, Index.level] at hf; omega)
      obtain ⟨l2, c2, hc2, hm2⟩ := this
      refine ⟨l2, c2, hc2, ?_⟩
      rw [bind_apply, hm1]
      simp only
      have e1 : checkMsg ((cs.map PTree.index).length == T.sums.len i.summaries) .branchCount msgs = msgs := by
        simp [checkMsg, hlen]
      have e2 : checkLevels i (cs.map PTree.index) msgs = msgs := by
        refine checkLevels_ok i _ msgs ?_ ?_
        · intro hsl c hc
          obtain ⟨c', hc', rfl⟩ := List.mem_map.mp hc
          have := ((w2 hsl).1 c' hc').2
          omega
        · intro c hc
          obtain ⟨c', hc', rfl⟩ := List.mem_map.mp hc
          exact w3 c' hc'
      rw [e1, e2, hsum, checkSummaries_ok, ← w8]
      have e3 : checkMsg (i.isSealed == i.isSealed) .sealedFlag msgs = msgs := by simp [checkMsg]
      rw [bind_apply]
      unfold M.assert
      simp only [hlev, decide_true, if_true, e3]
      exact hm2

/-! ### with a coherent cache -/

theorem get0_reads (h : E.Lawful) (ht : T.Lawful) {sec : Secrets E} (fuel : Nat) (t : PTree T V) (o : Nat) (s : St E)
    (hs : Stored E sec s.store t) (hcnt : Counts t) (hco : Coherent E sec s) (hf : t.index.level < fuel) :
    Reads sec (get0 sec fuel t.index o) s (t.content[o]?.join) :=
  get0_readsP h ht (coherent_serves h sec) fuel t o s hs hcnt hco hf

theorem collect0_reads (h : E.Lawful) (ht : T.Lawful) {sec : Secrets E} (fuel : Nat) (t : PTree T V) (o : Nat)
    (into : List (Option (T.Key × V))) (s : St E)
    (hs : Stored E sec s.store t) (hcnt : Counts t) (hco : Coherent E sec s) (hf : t.index.level < fuel) :
    Reads sec (collect0 sec fuel t.index o into) s (into ++ t.content.drop o) :=
  collect0_readsP h ht (coherent_serves h sec) fuel t o into s hs hcnt hco hf

open Classical in
theorem isPacked0_reads (h : E.Lawful) {sec : Secrets E} (fuel : Nat) (t : PTree T V) (s : St E)
    (hs : Outlined E sec s.store t) (hcnt : Counts t) (hne : t.All fun | .branch _ cs => cs ≠ [] | _ => True)
    (hco : Coherent E sec s) (hf : t.index.level < fuel) :
    Reads sec (isPacked0 sec fuel t.index) s (decide (Packed t)) :=
  isPacked0_readsP (coherent_serves h sec) fuel t s hs hcnt hne hco hf

theorem checkInvariants0_reads (h : E.Lawful) (ht : T.Lawful) {sec : Secrets E} {cfg : Config} (fuel : Nat) (t : PTree T V)
    (level : Int) (msgs : List InvMsg) (s : St E) (hs : Stored E sec s.store t) (hw : WF E t) (hwi : Within E cfg t) (hco : Coherent E sec s)
    (hf : t.index.level < fuel) :
    ∃ level', Reads sec (checkInvariants0 sec cfg fuel t.index level msgs) s (level', msgs) :=
  checkInvariants0_readsP h ht (coherent_serves h sec) fuel t level msgs s hs (hw.kept hwi) hco hf

end Banyan
