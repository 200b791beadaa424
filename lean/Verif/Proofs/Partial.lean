import Verif.Proofs.SnapIter
import Verif.Spec.Partial
/-
Reading from stores that hold only a part of the blocks of a tree.
-/
set_option autoImplicit false
namespace Banyan

open PTree

variable {T : TreeTypes} {V : Type} {E : Env T V} {X : Type} {cx : Ctx E} {q : Query T} {mkExtra : Index T → X} {sec : Secrets E}

/-! ### the nodes are nodes of the tree -/

mutual
theorem wayTo_nodes (t : PTree T V) (o : Nat) : ∀ n ∈ t.wayTo o, n ∈ t.nodes := by
  cases t with
  | leaf i vs => intro n hn; unfold wayTo at hn; split at hn <;> simp_all [nodes]
  | branch i cs =>
    intro n hn
    unfold wayTo at hn
    unfold nodes
    split at hn
    · rcases List.mem_cons.mp hn with rfl | hn
      · exact List.mem_cons_self
      · exact List.mem_cons_of_mem _ (wayToL_nodes cs o n hn)
    · cases hn
  | purgedLeaf i => intro n hn; simp [wayTo] at hn
  | purgedBranch i => intro n hn; simp [wayTo] at hn
theorem wayToL_nodes (cs : List (PTree T V)) (o : Nat) : ∀ n ∈ wayToL cs o, n ∈ nodesL cs := by
  cases cs with
  | nil => intro n hn; simp [wayToL] at hn
  | cons c cs =>
    intro n hn
    unfold wayToL at hn
    unfold nodesL
    split at hn
    · exact List.mem_append_left _ (wayTo_nodes c o n hn)
    · exact List.mem_append_right _ (wayToL_nodes cs _ n hn)
end

mutual
theorem tailFrom_nodes (t : PTree T V) (o : Nat) : ∀ n ∈ t.tailFrom o, n ∈ t.nodes := by
  cases t with
  | leaf i vs => intro n hn; unfold tailFrom at hn; split at hn <;> simp_all [nodes]
  | branch i cs =>
    intro n hn
    unfold tailFrom at hn
    unfold nodes
    split at hn
    · rcases List.mem_cons.mp hn with rfl | hn
      · exact List.mem_cons_self
      · exact List.mem_cons_of_mem _ (tailFromL_nodes cs o n hn)
    · cases hn
  | purgedLeaf i => intro n hn; simp [tailFrom] at hn
  | purgedBranch i => intro n hn; simp [tailFrom] at hn
theorem tailFromL_nodes (cs : List (PTree T V)) (o : Nat) : ∀ n ∈ tailFromL cs o, n ∈ nodesL cs := by
  cases cs with
  | nil => intro n hn; simp [tailFromL] at hn
  | cons c cs =>
    intro n hn
    unfold tailFromL at hn
    unfold nodesL
    rcases List.mem_append.mp hn with hn | hn
    · exact List.mem_append_left _ (tailFrom_nodes c o n hn)
    · exact List.mem_append_right _ (tailFromL_nodes cs _ n hn)
end

/-! ### get -/

theorem get0Loop_partial {s : St E} (ht : T.Lawful)
    {rec : Index T → Nat → M E (Option (T.Key × V))} (cs : List (PTree T V)) (o : Nat) (hcnt : ∀ c ∈ cs, Counts c)
    (ho : o < (contents cs).length) (hav : ∀ n ∈ wayToL cs o, StoredAt E sec s.store n)
    (hrec : ∀ c ∈ cs, ∀ o, (∀ n ∈ c.wayTo o, StoredAt E sec s.store n) → Reads sec (rec c.index o) s (c.content[o]?.join)) :
    Reads sec (get0Loop rec (cs.map PTree.index) o) s ((contents cs)[o]?.join) := by
  induction cs generalizing o with
  | nil => simp at ho
  | cons c cs ih =>
    have hl := content_length ht (hcnt c (by simp))
    simp only [List.map_cons]
    unfold get0Loop
    unfold wayToL at hav
    by_cases hc : o < c.index.count
    · rw [if_pos hc] at hav
      rw [if_pos hc, contents_cons, List.getElem?_append_left (by omega)]
      exact hrec c (by simp) o hav
    · rw [if_neg hc] at hav
      rw [if_neg hc, contents_cons, List.getElem?_append_right (by omega), hl]
      refine ih _ (fun c hc => hcnt c (by simp [hc])) ?_ hav (fun c hc => hrec c (by simp [hc]))
      simp only [contents_cons, List.length_append] at ho
      omega

theorem get0_partial (h : E.Lawful) (ht : T.Lawful) (fuel : Nat) (t : PTree T V) (o : Nat) (s : St E)
    (hlk : t.All LinkedAt) (hav : ∀ n ∈ t.wayTo o, StoredAt E sec s.store n) (hcnt : Counts t) (hco : Coherent E sec s)
    (hf : t.index.level < fuel) : Reads sec (get0 sec fuel t.index o) s (t.content[o]?.join) := by
  induction fuel generalizing t o s with
  | zero => omega
  | succ fuel ih =>
    have hl := content_length ht hcnt
    cases t with
    | leaf i vs =>
      by_cases ho : o < T.keys.len i.keys
      · refine get0_reads h ht (fuel + 1) (.leaf i vs) o s (fun n hn => ?_) hcnt hco hf
        rw [nodes, List.mem_singleton] at hn
        subst hn
        exact hav _ (by simp [wayTo, ho])
      · unfold get0
        rw [if_pos (show o ≥ (PTree.leaf i vs).index.count from Nat.le_of_not_lt ho), List.getElem?_eq_none (by rw [hl]; exact Nat.le_of_not_lt ho)]
        exact Reads.pure hco _
    | purgedLeaf i =>
      refine get0_reads h ht (fuel + 1) (.purgedLeaf i) o s (fun n hn => ?_) hcnt hco hf
      rw [nodes, List.mem_singleton] at hn
      subst hn
      have hk : LinkedAt (PTree.purgedLeaf (V := V) i) := PTree.All.root hlk
      exact hk
    | purgedBranch i =>
      refine get0_reads h ht (fuel + 1) (.purgedBranch i) o s (fun n hn => ?_) hcnt hco hf
      rw [nodes, List.mem_singleton] at hn
      subst hn
      have hk : LinkedAt (PTree.purgedBranch (V := V) i) := PTree.All.root hlk
      exact hk
    | branch i cs =>
      unfold get0
      by_cases ho : o < i.count
      · have ho' : ¬ o ≥ (PTree.branch (V := V) i cs).index.count := Nat.not_le.mpr ho
        rw [if_neg ho']
        unfold wayTo at hav
        rw [if_pos ho] at hav
        obtain ⟨l, r, h1, h2⟩ := hav _ List.mem_cons_self
        simp only [PTree.index, h1]
        refine Reads.bind (Reads.loadCached h hco h2) fun c hc => ?_
        refine get0Loop_partial ht cs o (PTree.All.children hcnt) ?_ (fun n hn => hav n (List.mem_cons_of_mem _ hn)) ?_
        · have : (contents cs).length = i.count := hl
          omega
        · intro c' hc' o' hav'
          have hlv := (PTree.All.root hcnt).1 c' hc'
          refine ih c' o' _ (PTree.All.children hlk c' hc') hav' (PTree.All.children hcnt c' hc') hc ?_
          simp only [PTree.index, Index.level] at hf; omega
      · rw [if_pos (show o ≥ (PTree.branch i cs).index.count from Nat.le_of_not_lt ho), List.getElem?_eq_none (by rw [hl]; exact Nat.le_of_not_lt ho)]
        exact Reads.pure hco _

/-! ### collect -/

theorem collect0Loop_partial {s : St E} (ht : T.Lawful) (hco : Coherent E sec s)
    {rec : Index T → Nat → List (Option (T.Key × V)) → M E (List (Option (T.Key × V)))} (cs : List (PTree T V)) (o : Nat)
    (into : List (Option (T.Key × V))) (hcnt : ∀ c ∈ cs, Counts c) (hav : ∀ n ∈ tailFromL cs o, StoredAt E sec s.store n)
    (hrec : ∀ c ∈ cs, ∀ o into s', s'.store = s.store → Coherent E sec s' → (∀ n ∈ c.tailFrom o, StoredAt E sec s.store n) →
      Reads sec (rec c.index o into) s' (into ++ c.content.drop o)) :
    Reads sec (collect0Loop rec (cs.map PTree.index) o into) s (into ++ (contents cs).drop o) := by
  induction cs generalizing o into s with
  | nil => simpa [collect0Loop] using Reads.pure hco into
  | cons c cs ih =>
    have hl := content_length ht (hcnt c (by simp))
    simp only [List.map_cons]
    unfold collect0Loop
    unfold tailFromL at hav
    have hav1 := fun n hn => hav n (List.mem_append_left _ hn)
    have hav2 := fun n hn => hav n (List.mem_append_right _ hn)
    rw [contents_cons, List.drop_append, hl, ← List.append_assoc]
    by_cases hc : o < c.index.count
    · rw [if_pos hc]
      refine Reads.bind (hrec c (by simp) o into s rfl hco hav1) fun c' hc' => ?_
      exact ih hc' _ _ (fun c hc => hcnt c (by simp [hc])) hav2 (fun c hc o into s' hs => hrec c (by simp [hc]) o into s' hs)
    · rw [if_neg hc, List.drop_of_length_le (by omega), List.append_nil]
      exact ih hco _ _ (fun c hc => hcnt c (by simp [hc])) hav2 (fun c hc o into s' hs => hrec c (by simp [hc]) o into s' hs)

theorem collect0_partial (h : E.Lawful) (ht : T.Lawful) (fuel : Nat) (t : PTree T V) (o : Nat)
    (into : List (Option (T.Key × V))) (s : St E)
    (hlk : t.All LinkedAt) (hav : ∀ n ∈ t.tailFrom o, StoredAt E sec s.store n) (hcnt : Counts t) (hco : Coherent E sec s)
    (hf : t.index.level < fuel) : Reads sec (collect0 sec fuel t.index o into) s (into ++ t.content.drop o) := by
  induction fuel generalizing t o s into with
  | zero => omega
  | succ fuel ih =>
    have hl := content_length ht hcnt
    cases t with
    | leaf i vs =>
      by_cases ho : o < T.keys.len i.keys
      · refine collect0_reads h ht (fuel + 1) (.leaf i vs) o into s (fun n hn => ?_) hcnt hco hf
        rw [nodes, List.mem_singleton] at hn
        subst hn
        exact hav _ (by simp [tailFrom, ho])
      · unfold collect0
        rw [if_pos (show o ≥ (PTree.leaf i vs).index.count from Nat.le_of_not_lt ho), List.drop_of_length_le (by rw [hl]; exact Nat.le_of_not_lt ho), List.append_nil]
        exact Reads.pure hco _
    | purgedLeaf i =>
      refine collect0_reads h ht (fuel + 1) (.purgedLeaf i) o into s (fun n hn => ?_) hcnt hco hf
      rw [nodes, List.mem_singleton] at hn
      subst hn
      have hk : LinkedAt (PTree.purgedLeaf (V := V) i) := PTree.All.root hlk
      exact hk
    | purgedBranch i =>
      refine collect0_reads h ht (fuel + 1) (.purgedBranch i) o into s (fun n hn => ?_) hcnt hco hf
      rw [nodes, List.mem_singleton] at hn
      subst hn
      have hk : LinkedAt (PTree.purgedBranch (V := V) i) := PTree.All.root hlk
      exact hk
    | branch i cs =>
      unfold collect0
      by_cases ho : o < i.count
      · have ho' : ¬ o ≥ (PTree.branch (V := V) i cs).index.count := Nat.not_le.mpr ho
        rw [if_neg ho']
        unfold tailFrom at hav
        rw [if_pos ho] at hav
        obtain ⟨l, r, h1, h2⟩ := hav _ List.mem_cons_self
        simp only [PTree.index, h1]
        refine Reads.bind (Reads.loadCached h hco h2) fun c hc => ?_
        refine collect0Loop_partial ht hc cs o into (PTree.All.children hcnt) (fun n hn => hav n (List.mem_cons_of_mem _ hn)) ?_
        intro c' hc' o' into' s' hst hco' hav'
        have hlv := (PTree.All.root hcnt).1 c' hc'
        refine ih c' o' into' s' (PTree.All.children hlk c' hc') (by rw [hst]; exact hav') (PTree.All.children hcnt c' hc') hco' ?_
        simp only [PTree.index, Index.level] at hf; omega
      · rw [if_pos (show o ≥ (PTree.branch i cs).index.count from Nat.le_of_not_lt ho), List.drop_of_length_le (by rw [hl]; exact Nat.le_of_not_lt ho), List.append_nil]
        exact Reads.pure hco _

/-! ### snapshots -/

theorem chunkedTake_partial (h : E.Lawful) (ht : T.Lawful) {m : Mode} {fuel : Nat} {between : Nat → St E → St E} (hb : Harmless sec between)
    (n : Nat) {t : PTree T V} {s : St E} (hs : SeenFor sec s.store q t 0) (hco : Coherent E sec s) (hf : 2 * t.index.level + 4 ≤ fuel) :
    ∃ s', chunkedTake sec q m mkExtra fuel between n t.index s = .ok (((ordered m (chunksOf q mkExtra t 0)).take n).map .ok) s' :=
  iterTake_live h ht hb n (σ := s.store) (fun _ _ h => h) hco (live_for hs) hf

/-- What is needed of a store for a query. -/
theorem Snap.seenFor (ht : T.Lawful) {s s' s2 : St E} {t : PTree T V} (h : Snap cx s (some t) s')
    (hsame : SameBlocks E s'.store s2.store (t.needs q 0)) : SeenFor cx.sec s2.store q t 0 :=
  ⟨fun n hn => (h.stored t rfl n hn).linked, (h.wf t rfl).iterOk ht,
    fun n hn => (h.stored t rfl n (needs_nodes q t 0 n hn)).congr (hsame n hn)⟩

theorem Snap.chunks_partial (h : E.Lawful) (ht : T.Lawful) {s s' s2 : St E} {t : PTree T V} (hs : Snap cx s (some t) s') (mode : Mode)
    (hsame : SameBlocks E s'.store s2.store (t.needs q 0)) (hco : Coherent E cx.sec s2) :
    Delivers (fun between n fuel t => Tree.chunks q mode mkExtra between n fuel t) cx.sec (snapshot cx s) s2
      (ordered mode (optChunks q mkExtra (some t))) := by
  intro between n fuel hb hf
  rw [snapshot_level, hs.level] at hf
  unfold Tree.chunks snapshot
  rw [hs.root]
  exact chunkedTake_partial h ht hb n (hs.seenFor ht hsame) hco hf

theorem Snap.get_partial (h : E.Lawful) (ht : T.Lawful) {s s' s2 : St E} {t : PTree T V} (hs : Snap cx s (some t) s') (o : Nat)
    (hsame : SameBlocks E s'.store s2.store (t.wayTo o)) (hco : Coherent E cx.sec s2) :
    Yields (fun fuel t => Tree.get fuel t o) (snapshot cx s) s2 (t.content[o]?.join) := by
  intro fuel hf
  rw [snapshot_level, hs.level] at hf
  unfold Tree.get snapshot
  rw [hs.root]
  obtain ⟨c, _, h2⟩ := get0_partial h ht fuel t o s2 (fun n hn => (hs.stored t rfl n hn).linked)
    (fun n hn => (hs.stored t rfl n (wayTo_nodes t o n hn)).congr (hsame n hn)) (hs.wf t rfl).counts hco hf
  exact ⟨_, h2⟩

theorem Snap.collectFrom_partial (h : E.Lawful) (ht : T.Lawful) {s s' s2 : St E} {t : PTree T V} (hs : Snap cx s (some t) s') (o : Nat)
    (hsame : SameBlocks E s'.store s2.store (t.tailFrom o)) (hco : Coherent E cx.sec s2) :
    Yields (fun fuel t => Tree.collectFrom fuel t o) (snapshot cx s) s2 (t.content.drop o) := by
  intro fuel hf
  rw [snapshot_level, hs.level] at hf
  unfold Tree.collectFrom snapshot
  rw [hs.root]
  obtain ⟨c, _, h2⟩ := collect0_partial h ht fuel t o [] s2 (fun n hn => (hs.stored t rfl n hn).linked)
    (fun n hn => (hs.stored t rfl n (tailFrom_nodes t o n hn)).congr (hsame n hn)) (hs.wf t rfl).counts hco hf
  exact ⟨_, by simpa using h2⟩

/-! ### what the needed nodes have to do with the query -/

theorem At.trans {c : List (Option (T.Key × V))} {o p : Nat} {t n : PTree T V} (h : At c o t) (hn : At t.content p n) : At c (o + p) n := by
  obtain ⟨a, b, h1, h2⟩ := h
  obtain ⟨a', b', h3, h4⟩ := hn
  exact ⟨a ++ a', b' ++ b, by rw [h1, h3]; simp, by simp [h2, h4]⟩

theorem anyTrue_get {bs : List Bool} (h : anyTrue bs = true) : ∃ j : Nat, bs[j]? = some true := by
  unfold anyTrue at h
  obtain ⟨b, h1, h2⟩ := List.any_eq_true.mp h
  obtain ⟨j, hj⟩ := List.mem_iff_getElem?.mp h1
  exact ⟨j, by rw [hj]; exact congrArg some h2⟩

theorem leaf_match (ht : T.Lawful) {covers : T.Summary → T.Key → Prop} {m : Nat → T.Key → Bool} (hq : QueryFor q covers m)
    {i : LeafIndex T} {vs : List V} (hlen : T.keys.len i.keys = vs.length) {o : Nat}
    (ha : anyTrue (q.containing o i (List.replicate (T.keys.len i.keys) true)) = true) : HasMatch m o (.leaf i vs) := by
  obtain ⟨j, hj⟩ := anyTrue_get ha
  have hjl := (List.getElem?_eq_some_iff.mp hj).1
  rw [q.len_containing, List.length_replicate] at hjl
  obtain ⟨k, hk⟩ := Option.isSome_iff_exists.mp (ht.keys.get_some i.keys j hjl)
  have := hq.containing o i (List.replicate (T.keys.len i.keys) true) j k (by simp) hk
  rw [hj, List.getElem?_replicate, if_pos hjl] at this
  have hjv : j < vs.length := by omega
  refine ⟨j, k, vs[j], ?_, by simpa using this.symm⟩
  have hkey : (T.keys.toVec i.keys)[j]? = some k := by
    rw [CompactSeq.getElem?_toVec ht.keys, if_pos (by omega), hk]
  simp only [PTree.content, List.getElem?_map]
  have hz : ((T.keys.toVec i.keys).zip vs)[j]? = some (k, vs[j]) := by
    rw [List.getElem?_zip_eq_some]
    exact ⟨hkey, List.getElem?_eq_getElem hjv⟩
  rw [hz]; rfl

mutual
theorem needs_match (ht : T.Lawful) {covers : T.Summary → T.Key → Prop} {m : Nat → T.Key → Bool} (hq : QueryFor q covers m)
    (t : PTree T V) (hc : Counts t) (base : Nat) :
    ∀ i vs, PTree.leaf i vs ∈ t.needs q base → ∃ o, At t.content o (.leaf i vs) ∧ HasMatch m (base + o) (.leaf i vs) := by
  intro i vs hn
  cases t with
  | leaf i' vs' =>
    unfold needs at hn
    split at hn
    · next ha =>
      rw [List.mem_singleton] at hn
      cases hn
      exact ⟨0, ⟨[], [], by simp, rfl⟩, leaf_match ht hq (PTree.All.root hc) ha⟩
    · cases hn
  | branch i' cs =>
    unfold needs at hn
    split at hn
    · rcases List.mem_cons.mp hn with hn | hn
      · cases hn
      · exact needsL_match ht hq cs (PTree.All.children hc) _ base i vs hn
    · cases hn
  | purgedLeaf i => simp [needs] at hn
  | purgedBranch i => simp [needs] at hn
theorem needsL_match (ht : T.Lawful) {covers : T.Summary → T.Key → Prop} {m : Nat → T.Key → Bool} (hq : QueryFor q covers m)
    (cs : List (PTree T V)) (hc : ∀ c ∈ cs, Counts c) (bs : List Bool) (base : Nat) :
    ∀ i vs, PTree.leaf i vs ∈ needsL q cs bs base → ∃ o, At (contents cs) o (.leaf i vs) ∧ HasMatch m (base + o) (.leaf i vs) := by
  intro i vs hn
  cases cs with
  | nil => simp [needsL] at hn
  | cons c cs =>
    cases bs with
    | nil => simp [needsL] at hn
    | cons b bs =>
      unfold needsL at hn
      rcases List.mem_append.mp hn with hn | hn
      · split at hn
        · obtain ⟨o, h1, h2⟩ := needs_match ht hq c (hc c (by simp)) base i vs hn
          refine ⟨o, ?_, h2⟩
          have h0 : At (contents (c :: cs)) 0 c := ⟨[], contents cs, by simp [contents_cons], rfl⟩
          simpa using h0.trans h1
        · cases hn
      · obtain ⟨o, ⟨a, b', h1, h2⟩, h3⟩ := needsL_match ht hq cs (fun c hm => hc c (by simp [hm])) bs _ i vs hn
        refine ⟨c.index.count + o, ⟨c.content ++ a, b', ?_, ?_⟩, by rw [← Nat.add_assoc]; exact h3⟩
        · rw [contents_cons, h1]; simp
        · rw [List.length_append, content_length ht (hc c (by simp)), h2]
end

end Banyan
