import Verif.Proofs.Writes
import Verif.Proofs.Edge
import Verif.Props.PackEdge
import Verif.Props.Retain
import Verif.Props.Outline
/-
Purging needs only the blocks of the branches of a tree: C94.
-/
set_option autoImplicit false
namespace Banyan

open PTree Concrete

variable {T : TreeTypes} {V : Type} {E : Env T V} {cx : Ctx E} {s s2 s' : St E} {c : List (Option (T.Key × V))} {t : PTree T V}

/-- `s2` is a builder for the tree of `s` that has only the blocks of the branches of the tree, in another store with another cache. -/
structure Branched (cx : Ctx E) (s s2 : St E) : Prop where
  root : s2.root = s.root
  offset : s2.offset = s.offset
  alike : Alike E s.store s2.store
  coherent : Coherent E cx.sec s2
  branches : ∀ t : PTree T V, Shows cx s t → ∀ i cs, .branch i cs ∈ t.nodes → ∀ l, i.link = some l → E.get s2.store l = E.get s.store l

/-- The blocks of the branches are known. -/
inductive BranchesKnown (E : Env T V) (sec : Secrets E) (K : Known T) : Index T → Prop
  | leaf (i : LeafIndex T) : BranchesKnown E sec K (.leaf i)
  | purged (i : Index T) : i.link = none → BranchesKnown E sec K i
  | branch (i : BranchIndex T) (l : T.Link) (b : Bytes) (cs : List (Index T)) (r : Nat × Nat) : i.link = some l → K l b → cs ≠ [] →
      (∀ σ, E.get σ l = .ok b → loadBranchFromLink E sec σ l = .ok ⟨cs, r⟩) → (∀ c ∈ cs, BranchesKnown E sec K c) →
      BranchesKnown E sec K (.branch i)

theorem BranchesKnown.mono {sec : Secrets E} {K K' : Known T} (hk : ∀ l b, K l b → K' l b) {i : Index T} (h : BranchesKnown E sec K i) :
    BranchesKnown E sec K' i := by
  induction h with
  | leaf i => exact .leaf i
  | purged i h => exact .purged i h
  | branch i l b cs r h1 h2 h3 h4 _ ih => exact .branch i l b cs r h1 (hk _ _ h2) h3 h4 ih

theorem branchesKnown_of_stored {sec : Secrets E} {σ σ2 : E.σ} : (t : PTree T V) → Stored E sec σ t → WF E t →
    (∀ i cs, .branch i cs ∈ t.nodes → ∀ l, i.link = some l → E.get σ2 l = E.get σ l) →
    BranchesKnown E sec (fun l b => E.get σ l = .ok b ∧ E.get σ2 l = .ok b) t.index
  | .leaf i vs, _, _, _ => .leaf i
  | .purgedLeaf i, _, _, _ => .leaf i
  | .purgedBranch i, hs, _, _ => .purged _ (stored_here hs)
  | .branch i cs, hs, hw, h => by
    obtain ⟨l, r, h1, h2⟩ := stored_here hs
    obtain ⟨b, hb⟩ := loadBranchFromLink_get h2
    refine .branch i l b _ r h1 ⟨hb, ?_⟩ ?_ (loadBranchFromLink_block hb h2) fun c hc => ?_
    · rw [← hb]
      exact h i cs (self_mem_nodes _) l h1
    · have := (hw _ (self_mem_nodes _)).1
      simpa using this
    · obtain ⟨d, hd, rfl⟩ := List.mem_map.1 hc
      have : sizeOf d < sizeOf cs := List.sizeOf_lt_of_mem hd
      exact branchesKnown_of_stored d (stored_child hs hd) (fun n hn => hw n (mem_nodes_branch.mpr (.inr ⟨d, hd, hn⟩)))
        fun j ds hn => h j ds (mem_nodes_branch.mpr (.inr ⟨d, hd, hn⟩))
termination_by t => sizeOf t

theorem BranchesKnown.blocks {sec : Secrets E} {σ σ2 : E.σ} {K : Known T} (hl : ∀ l b, K l b → E.get σ l = .ok b)
    (hr : ∀ l b, K l b → E.get σ2 l = .ok b) {x : Index T} (h : BranchesKnown E sec K x) : ∀ t : PTree T V, t.index = x → Stored E sec σ t →
    ∀ i cs, .branch i cs ∈ t.nodes → ∀ l, i.link = some l → E.get σ2 l = E.get σ l := by
  induction h with
  | leaf i =>
    intro t ht hs j ds hn
    cases t with
    | leaf i vs => simp [PTree.nodes] at hn
    | purgedLeaf i => simp [PTree.nodes] at hn
    | purgedBranch i => cases ht
    | branch i cs => cases ht
  | purged i h =>
    intro t ht hs j ds hn
    cases t with
    | leaf i vs => simp [PTree.nodes] at hn
    | purgedLeaf i => simp [PTree.nodes] at hn
    | purgedBranch i => simp [PTree.nodes] at hn
    | branch i cs =>
      obtain ⟨l, r, h1, h2⟩ := stored_here hs
      rw [← ht] at h
      rw [show (PTree.branch i cs).index.link = i.link from rfl, h1] at h
      cases h
  | branch i l b is r h1 h2 h3 h4 _ ih =>
    intro t ht hs j ds hn
    cases t with
    | leaf i vs => simp [PTree.nodes] at hn
    | purgedLeaf i => simp [PTree.nodes] at hn
    | purgedBranch i => simp [PTree.nodes] at hn
    | branch i' cs =>
      cases ht
      obtain ⟨l', r', g1, g2⟩ := stored_here hs
      rw [h1] at g1
      cases g1
      rw [h4 _ (hl _ _ h2)] at g2
      have g3 : is = cs.map PTree.index := congrArg Branch.children (Except.ok.inj g2)
      rcases mem_nodes_branch.mp hn with g4 | ⟨d, hd, hn⟩
      · cases g4
        intro l2 hl2
        rw [h1] at hl2
        cases hl2
        rw [hl _ _ h2, hr _ _ h2]
      · exact ih d.index (by rw [g3]; exact List.mem_map_of_mem hd) d rfl (stored_child hs hd) j ds hn

/-! ### two runs side by side -/

section
variable {K : Known T} {p : Origin T} {p2 : List Bytes}

theorem retainLoop_both {rec : Nat → Index T → Int → M E (Index T × Int)}
    (hrec : ∀ (K : Known T) (s s2 : St E) (o : Nat) (i : Index T) (level : Int), Twin E cx.sec K p p2 s s2 → BranchesKnown E cx.sec K i →
      Both cx.sec K p p2 (rec o i level) s s2 fun K' r => BranchesKnown E cx.sec K' r.1)
    (children : List (Index T)) (K : Known T) (s s2 : St E) (o : Nat) (level : Int) (h : Twin E cx.sec K p p2 s s2)
    (hk : ∀ c ∈ children, BranchesKnown E cx.sec K c) :
    Both cx.sec K p p2 (retainLoop rec children o level) s s2
      fun K' r => r.1.length = children.length ∧ ∀ c ∈ r.1, BranchesKnown E cx.sec K' c := by
  induction children generalizing K s s2 o level with
  | nil => exact Both.pure h fun _ => ⟨rfl, hk⟩
  | cons child rest ih =>
    unfold retainLoop
    refine Both.bind (hrec K s s2 o child level h (hk child (by simp))) ?_
    rintro K1 ⟨child1, level1⟩ s1 s21 hk1 h1 hq1
    refine Both.bind (ih K1 s1 s21 _ level1 h1 fun c hc => (hk c (by simp [hc])).mono hk1) ?_
    rintro K2 ⟨rest', changed, level2⟩ s3 s23 hk2 h2 hq2
    simp only
    have g0 := (hk child (by simp)).mono fun l b hb => hk2 l b (hk1 l b hb)
    split
    · refine Both.pure h2 fun _ hs3 hs1 => ⟨by simp [(hq2 hs3).2.1], fun c hc => ?_⟩
      rcases List.mem_cons.1 hc with rfl | hc
      · exact (hq1 hs1).2.mono hk2
      · exact (hq2 hs3).2.2 c hc
    · refine Both.pure h2 fun _ hs3 hs1 => ⟨by simp [(hq2 hs3).2.1], fun c hc => ?_⟩
      rcases List.mem_cons.1 hc with rfl | hc
      · exact g0
      · exact (hq2 hs3).2.2 c hc

/-- As `Both.bind`, with what is known about the first run. -/
theorem Both.bindEq {α β : Type} {m : M E α} {f : α → M E β} {Q : Known T → α → Prop} {R : Known T → β → Prop} (hm : Both cx.sec K p p2 m s s2 Q)
    (hf : ∀ K' a s' s2', m s = .ok a s' → (∀ l b, K l b → K' l b) → Twin E cx.sec K' p p2 s' s2' → (Small E s' → Small E s ∧ Q K' a) →
      Both cx.sec K' p p2 (f a) s' s2' fun K'' b => Small E s' → R K'' b) : Both cx.sec K p p2 (m >>= f) s s2 R := by
  unfold Both at hm
  cases h1 : m s with
  | ok a s' =>
    rw [h1] at hm
    obtain ⟨K', s2', g1, g2, g3, g4⟩ := hm
    have hf := hf K' a s' s2' h1 g2 g3 g4
    unfold Both at hf ⊢
    rw [bind_apply, bind_apply, h1, g1]
    simp only
    cases h2 : f a s' with
    | ok b s'' =>
      rw [h2] at hf
      obtain ⟨K'', s2'', k1, k2, k3, k4⟩ := hf
      exact ⟨K'', s2'', k1, fun l b h => k2 l b (g2 l b h), k3, fun hs => ⟨(g4 (k4 hs).1).1, (k4 hs).2 (k4 hs).1⟩⟩
    | error e s'' =>
      rw [h2] at hf
      obtain ⟨K'', s2'', k1, k2, k3⟩ := hf
      exact ⟨K'', s2'', k1, fun l b h => k2 l b (g2 l b h), k3⟩
  | error e s' =>
    rw [h1] at hm
    obtain ⟨K', s2', g1, g2, g3⟩ := hm
    unfold Both
    rw [bind_apply, bind_apply, h1, g1]
    exact ⟨K', s2', rfl, g2, g3⟩

theorem retainLoop_ne {rec : Nat → Index T → Int → M E (Index T × Int)} {child : Index T} {rest : List (Index T)} {o : Nat} {level : Int}
    {r : List (Index T) × Bool × Int} (h : retainLoop rec (child :: rest) o level s = .ok r s') : r.1 ≠ [] := by
  unfold retainLoop at h
  rw [bind_apply] at h
  rcases h1 : rec o child level s with ⟨⟨c1, l1⟩, s1⟩ | ⟨e, s1⟩ <;> rw [h1] at h
  · simp only [bind_apply] at h
    rcases h2 : retainLoop rec rest (o + child.count) l1 s1 with ⟨⟨r2, ch, l2⟩, s3⟩ | ⟨e, s3⟩ <;> rw [h2] at h
    · simp only at h
      split at h <;> cases h <;> simp
    · cases h
  · cases h

theorem Both.loadOptNone {i : BranchIndex T} (hi : i.link = none) {f : Option (Branch T) → M E (Index T × Int)} {R : Known T → Index T × Int → Prop}
    (hf : Both cx.sec K p p2 (f none) s s2 R) : Both cx.sec K p p2 (loadBranchOpt cx.sec i >>= f) s s2 R := by
  have e : ∀ s : St E, (loadBranchOpt cx.sec i >>= f) s = f none s := by
    intro s
    rw [bind_apply]
    unfold loadBranchOpt Banyan.loadBranch
    rw [hi]
  unfold Both at hf ⊢
  rw [e, e]
  exact hf

theorem Both.loadOptSome (h : Twin E cx.sec K p p2 s s2) {i : BranchIndex T} {l : T.Link} {b : Bytes} {x : Branch T} (hi : i.link = some l) (hk : K l b)
    (hl : ∀ σ, E.get σ l = .ok b → loadBranchFromLink E cx.sec σ l = .ok x) {f : Option (Branch T) → M E (Index T × Int)}
    {R : Known T → Index T × Int → Prop} (hf : Both cx.sec K p p2 (f (some x)) s s2 R) :
    Both cx.sec K p p2 (loadBranchOpt cx.sec i >>= f) s s2 R := by
  have e : ∀ s : St E, E.get s.store l = .ok b → (loadBranchOpt cx.sec i >>= f) s = f (some x) s := by
    intro s hb
    rw [bind_apply]
    unfold loadBranchOpt Banyan.loadBranch
    rw [hi]
    simp only [hl _ hb]
  unfold Both at hf ⊢
  rw [e s (h.left _ _ hk), e s2 (h.right _ _ hk)]
  exact hf

theorem retain0_both (he : E.Lawful) (q : Query T) (fuel : Nat) (K : Known T) (s s2 : St E) (o : Nat) (i : Index T) (level : Int)
    (h : Twin E cx.sec K p p2 s s2) (hk : BranchesKnown E cx.sec K i) :
    Both cx.sec K p p2 (retain0 cx q fuel o i level) s s2 fun K' r => BranchesKnown E cx.sec K' r.1 := by
  induction fuel generalizing K s s2 o i level with
  | zero => exact Both.throw h _
  | succ fuel ih =>
    unfold retain0
    cases i with
    | leaf i =>
      simp only
      split
      · split
        · exact Both.pure h fun _ => .leaf _
        · exact Both.pure h fun _ => .leaf _
      · exact Both.pure h fun _ => .leaf _
    | branch i =>
      simp only
      split
      · exact Both.loadOptNone rfl (Both.pure h fun _ => .purged _ rfl)
      · cases hk with
        | purged _ hi => exact Both.loadOptNone hi (Both.pure h fun _ => .purged _ hi)
        | branch _ l b cs r h1 h2 h3 h4 h5 =>
          refine Both.loadOptSome h h1 h2 h4 ?_
          simp only
          refine Both.bindEq (retainLoop_both (fun K s s2 o i level h hk => ih K s s2 o i level h hk) cs K s s2 o _ h h5) ?_
          rintro K1 ⟨children, changed, level1⟩ s1 s21 heq hk1 g1 hq1
          simp only
          split
          · have hne : children ≠ [] := by
              cases cs with
              | nil => exact absurd rfl h3
              | cons c cs => exact retainLoop_ne heq
            refine Both.bind (persistBranch_both he g1 children hne) ?_
            rintro K2 ⟨link, n⟩ s3 s23 hk2 g2 hq2
            refine Both.pure g2 fun _ hs3 hs1 => ?_
            obtain ⟨b', x, k1, k2⟩ := (hq2 hs3).2
            exact .branch _ link b' children x rfl k1 hne k2 fun c hc => ((hq1 hs1).2.2 c hc).mono hk2
          · exact Both.pure g1 fun _ _ => .branch i l b cs r h1 (hk1 _ _ h2) h3 h4 fun c hc => (h5 c hc).mono hk1

theorem retain_both (he : E.Lawful) (h : Twin E cx.sec K p p2 s s2) (fuel : Nat) (q : Query T)
    (hk : ∀ i, s.root = some i → BranchesKnown E cx.sec K i) :
    match retain cx fuel q s with
    | .ok _ s' => ∃ K' s2', retain cx fuel q s2 = .ok () s2' ∧ Twin E cx.sec K' p p2 s' s2' ∧
        (Small E s' → ∀ i, s'.root = some i → BranchesKnown E cx.sec K' i)
    | .error e s' => ∃ K' s2', retain cx fuel q s2 = .error e s2' ∧ Twin E cx.sec K' p p2 s' s2' := by
  cases hr : s.root with
  | none =>
    have e1 : ∀ s : St E, s.root = none → retain cx fuel q s = .ok () s := by
      intro s hs
      unfold retain
      rw [bind_apply]
      simp only [getIndex, hs]
      rfl
    rw [e1 s hr]
    exact ⟨K, s2, e1 s2 (h.root.trans hr), h, fun _ i hi => by rw [hr] at hi; cases hi⟩
  | some index =>
    have e1 : ∀ s : St E, s.root = some index → retain cx fuel q s = (retain0 cx q fuel 0 index i32max >>= fun x => setIndex (some x.1)) s := by
      intro s hs
      unfold retain
      rw [bind_apply]
      simp only [getIndex, hs]
    rw [e1 s hr, e1 s2 (h.root.trans hr)]
    have h1 := retain0_both he q fuel K s s2 0 index i32max h (hk index hr)
    unfold Both at h1
    rw [bind_apply]
    cases h2 : retain0 cx q fuel 0 index i32max s with
    | ok a s' =>
      rw [h2] at h1
      obtain ⟨K', s2', g1, _, g3, g4⟩ := h1
      refine ⟨K', { s2' with root := some a.1 }, ?_, ?_, fun hs i hi => ?_⟩
      · rw [bind_apply, g1]
        rfl
      · exact ⟨rfl, g3.offset, g3.puts, g3.alike, g3.left, g3.right, g3.new, Coherent.mono (fun _ _ h => h) rfl g3.co,
          Coherent.mono (fun _ _ h => h) rfl g3.co2⟩
      · cases hi
        exact (g4 hs).2
    | error e s' =>
      rw [h2] at h1
      obtain ⟨K', s2', g1, _, g3⟩ := h1
      exact ⟨K', s2', by rw [bind_apply, g1], g3⟩

end

theorem Branched.twin (h : Branched cx s s2) (hco : Coherent E cx.sec s) :
    Twin E cx.sec (fun l b => E.get s.store l = .ok b ∧ E.get s2.store l = .ok b)
      ⟨s.puts, fun l b => E.get s.store l = .ok b⟩ s2.puts s s2 :=
  ⟨h.root, h.offset, ⟨[], by simp, by simp⟩, h.alike, fun _ _ h => h.1, fun _ _ h => h.2, fun _ _ _ h => .inl h, hco, h.coherent⟩

theorem Branched.known (ok : cx.Ok) (hr : Reach cx s) (hs : Small E s) (hd : Branched cx s s2) :
    Coherent E cx.sec s ∧ ∀ i, s.root = some i →
      BranchesKnown E cx.sec (fun l b => E.get s.store l = .ok b ∧ E.get s2.store l = .ok b) i := by
  obtain ⟨t0, hi⟩ := ok.inv hr hs
  refine ⟨hi.holds.coherent, fun i hroot => ?_⟩
  obtain ⟨t, sh⟩ := hr.shows ok hs (by rw [hroot]; simp)
  have h1 := sh.root
  rw [hroot] at h1
  cases h1
  exact branchesKnown_of_stored t sh.stored (hr.wf ok hs sh).wf (hd.branches t sh)

theorem Twin.branched {K : Known T} {s2' : St E} (h : Twin E cx.sec K ⟨s.puts, fun l b => E.get s.store l = .ok b⟩ s2.puts s' s2')
    (hk : ∀ i, s'.root = some i → BranchesKnown E cx.sec K i) : Branched cx s' s2' :=
  ⟨h.root, h.offset, h.alike, h.co2, fun t sh => (hk _ sh.root).blocks h.left h.right t rfl sh.stored⟩

/-- C94: a builder that has only the blocks of the branches of a tree, and none of the values, can purge it. The result is the same tree as with
all blocks, and the same blocks are written. And so on: the builder has the blocks of the branches of the new tree. -/
theorem C94_retain (ok : cx.Ok) (hr : Reach cx s) (hs : Small E s) (hd : Branched cx s s2) (fuel : Nat) (q : Query T)
    (he : retain cx fuel q s = .ok () s') :
    ∃ s2' bs, retain cx fuel q s2 = .ok () s2' ∧ s2'.root = s'.root ∧ s'.puts = s.puts ++ bs ∧ s2'.puts = s2.puts ++ bs ∧
      (Small E s' → Branched cx s' s2') := by
  obtain ⟨hco, hk⟩ := hd.known ok hr hs
  have h := retain_both ok.env (hd.twin hco) fuel q hk
  rw [he] at h
  obtain ⟨K', s2', h1, h2, h3⟩ := h
  obtain ⟨bs, h4, h5⟩ := h2.puts
  exact ⟨s2', bs, h1, h2.root, h4, h5, fun hs' => h2.branched (h3 hs')⟩

/-- C94: if purging fails with all blocks then it fails in the same way with those of the branches only. -/
theorem C94_retain_fails (ok : cx.Ok) (hr : Reach cx s) (hs : Small E s) (hd : Branched cx s s2) (fuel : Nat) (q : Query T) {e : Err}
    (he : retain cx fuel q s = .error e s') :
    ∃ s2' bs, retain cx fuel q s2 = .error e s2' ∧ s2'.root = s'.root ∧ s'.puts = s.puts ++ bs ∧ s2'.puts = s2.puts ++ bs := by
  obtain ⟨hco, hk⟩ := hd.known ok hr hs
  have h := retain_both ok.env (hd.twin hco) fuel q hk
  rw [he] at h
  obtain ⟨K', s2', h1, h2⟩ := h
  obtain ⟨bs, h4, h5⟩ := h2.puts
  exact ⟨s2', bs, h1, h2.root, h4, h5⟩

/-- C94: what was purged without the values is the purged tree. In every store that has the blocks of the old tree and those of the builder that
had only the branches, all elements that satisfy the predicate of the query are found. -/
theorem C94_retain_joined (ok : cx.Ok) (hfr : Frugal E) (hr : Reach cx s) (hd : Branched cx s s2) (hc : Contains cx s c) (fuel : Nat)
    (hf : rootLevel s.root < fuel) (q : Query T) (covers : T.Summary → T.Key → Prop) (p : Nat → T.Key → Bool) (hcov : Covering T covers)
    (hq : QueryFor q covers p) (he : retain cx fuel q s = .ok () s') (hs : Small E s') {s2' s3 : St E}
    (he2 : retain cx fuel q s2 = .ok () s2') (hroot : s3.root = s2'.root) (hold : StoreLe E s.store s3.store)
    (hnew : StoreLe E s2'.store s3.store) (hco : Coherent E cx.sec s3) :
    ∃ c', Contains cx s3 c' ∧ c'.length = c.length ∧
      ∀ n : Nat, c'[n]? = c[n]? ∨ (c'[n]? = some none ∧ ∀ k v, c[n]? = some (some (k, v)) → p n k = false) := by
  have hs0 := ((frame0_retain ok.env fuel q).ok he).small hs
  obtain ⟨hco1, hk⟩ := hd.known ok hr hs0
  have h := retain_both ok.env (hd.twin hco1) fuel q hk
  rw [he] at h
  obtain ⟨K', s2'', h1, h2, _⟩ := h
  rw [he2] at h1
  cases h1
  have he' : s' = endState (retain cx fuel q) s := by unfold endState; rw [he]
  obtain ⟨c', g1, g2⟩ := C16_retain_keeps_matches ok hr fuel hf q covers p hcov hq he hs hc
  exact ⟨c', contains_elsewhere ok (he' ▸ hr.run (.retain fuel q (.refl s) hf)) hs g1
    (hroot.trans h2.root) (fun l b hb => (h2.new hfr l b hb).elim (hold l b) fun hb => hnew l b (h2.right l b hb)) hco, g2⟩

/-! ### purging and appending, forever -/

theorem AllKnown.branches {sec : Secrets E} {σ : E.σ} {K : Known T} (hl : ∀ l b, K l b → E.get σ l = .ok b) {i : Index T}
    (h : AllKnown E sec K i) : BranchesKnown E sec K i := by
  induction h with
  | purged i h => exact .purged i h
  | leaf i l b h1 h2 => exact .leaf i
  | branch i l b cs r h1 h2 h3 _ ih => exact .branch i l b cs r h1 h2 (loadBranchFromLink_ne (h3 σ (hl _ _ h2))) h3 ih

/-- C94: elements can be added without packing, and after that the builder again has the blocks of all branches. -/
theorem C94_extendUnpacked (ok : cx.Ok) (hr : Reach cx s) (hs : Small E s) (hd : Branched cx s s2) (fuel : Nat) (xs : List (T.Key × V))
    (he : extendUnpacked cx fuel xs s = .ok () s') :
    ∃ s2' bs, extendUnpacked cx fuel xs s2 = .ok () s2' ∧ s2'.root = s'.root ∧ s'.puts = s.puts ++ bs ∧ s2'.puts = s2.puts ++ bs ∧
      (Small E s' → Branched cx s' s2') := by
  obtain ⟨hco, hk⟩ := hd.known ok hr hs
  have h := extendUnpacked_fresh ok.env (hd.twin hco) fuel xs
  rw [he] at h
  obtain ⟨K', s2', h1, hk', h2, h3⟩ := h
  obtain ⟨bs, h4, h5⟩ := h2.puts
  refine ⟨s2', bs, h1, h2.root, h4, h5, fun hs' => h2.branched fun r hroot => ?_⟩
  rcases h3 hs' with ⟨-, e⟩ | ⟨-, i, e, ha⟩ | ⟨a, i, more, l, d, x, e0, e, k1, k2, -, k4, k5⟩
  · exact (hk r (e ▸ hroot)).mono hk'
  · rw [hroot] at e
    cases e
    exact ha.branches h2.left
  · rw [hroot] at e
    cases e
    refine .branch i l d (a :: more) x k1 k2 (by simp) k4 fun c hc => ?_
    rcases List.mem_cons.1 hc with rfl | hc
    · exact (hk _ e0).mono hk'
    · exact (k5 c hc).branches h2.left

/-- What a builder without values can do: purge, and add elements without packing. -/
inductive Chore (T : TreeTypes) (V : Type) where
  | retain (fuel : Nat) (q : Query T)
  | extendUnpacked (fuel : Nat) (xs : List (T.Key × V))

/-- One operation. -/
def Chore.run (cx : Ctx E) : Chore T V → M E Unit
  | .retain fuel q => Banyan.retain cx fuel q
  | .extendUnpacked fuel xs => Banyan.extendUnpacked cx fuel xs

/-- An operation may be called: there is space for the elements. -/
def Chore.Allowed (s : St E) : Chore T V → Prop
  | .retain fuel _ => rootLevel s.root < fuel
  | .extendUnpacked fuel xs => rootLevel s.root < fuel ∧ rootCount s.root + xs.length ≤ maxElements

/-- Some operations in a row, all of which are allowed and succeed. -/
inductive Chores (cx : Ctx E) : List (Chore T V) → St E → St E → Prop
  | nil (s : St E) : Chores cx [] s s
  | cons {w : Chore T V} {ws : List (Chore T V)} {s s1 s' : St E} : w.Allowed s → w.run cx s = .ok () s1 → Chores cx ws s1 s' →
      Chores cx (w :: ws) s s'

theorem Chore.frame (ok : cx.Ok) {w : Chore T V} {s1 : St E} (h : w.run cx s = .ok () s1) :
    StoreLe E s.store s1.store ∧ (Small E s1 → Small E s) := by
  cases w with
  | retain fuel q => exact ⟨((frame0_retain ok.env fuel q).ok h).store, ((frame0_retain ok.env fuel q).ok h).small⟩
  | extendUnpacked fuel xs => exact ⟨((frame0_extendUnpacked ok.env fuel xs).ok h).store, ((frame0_extendUnpacked ok.env fuel xs).ok h).small⟩

theorem Chores.small (ok : cx.Ok) {ws : List (Chore T V)} (h : Chores cx ws s s') (hs : Small E s') : Small E s := by
  induction h with
  | nil s => exact hs
  | cons _ h1 _ ih => exact (Chore.frame ok h1).2 (ih hs)

theorem Chore.reach (hr : Reach cx s) {w : Chore T V} (ha : w.Allowed s) {s1 : St E} (h : w.run cx s = .ok () s1) : Reach cx s1 := by
  have e1 : s1 = endState (w.run cx) s := by unfold endState; rw [h]
  rw [e1]
  cases w with
  | retain fuel q => exact hr.run (.retain fuel q (.refl s) ha)
  | extendUnpacked fuel xs => exact hr.run (.extendUnpacked fuel xs (.refl s) ha.1 ha.2)

/-- The blocks after an operation with all blocks: the old ones and those of the builder that has only the branches. -/
theorem Branched.step (ok : cx.Ok) (hr : Reach cx s) (hs : Small E s) (hd : Branched cx s s2) {w : Chore T V} {s1 : St E}
    (h : w.run cx s = .ok () s1) : ∃ s21 bs, w.run cx s2 = .ok () s21 ∧ s21.root = s1.root ∧ s1.puts = s.puts ++ bs ∧
      s21.puts = s2.puts ++ bs ∧ (Small E s1 → Branched cx s1 s21) ∧
      (Frugal E → ∀ l b, E.get s1.store l = .ok b → E.get s.store l = .ok b ∨ E.get s21.store l = .ok b) := by
  obtain ⟨hco, hk⟩ := hd.known ok hr hs
  cases w with
  | retain fuel q =>
    obtain ⟨s21, bs, g1, g2, g3, g4, g5⟩ := C94_retain ok hr hs hd fuel q h
    have h := retain_both ok.env (hd.twin hco) fuel q hk
    rw [show Banyan.retain cx fuel q s = _ from ‹_›] at h
    obtain ⟨K', s', k1, k2, _⟩ := h
    rw [g1] at k1
    cases k1
    exact ⟨s21, bs, g1, g2, g3, g4, g5, fun hfr l b hb => (k2.new hfr l b hb).imp id (k2.right l b)⟩
  | extendUnpacked fuel xs =>
    obtain ⟨s21, bs, g1, g2, g3, g4, g5⟩ := C94_extendUnpacked ok hr hs hd fuel xs h
    have h := extendUnpacked_fresh ok.env (hd.twin hco) fuel xs
    rw [show Banyan.extendUnpacked cx fuel xs s = _ from ‹_›] at h
    obtain ⟨K', s', k1, _, k2, _⟩ := h
    rw [g1] at k1
    cases k1
    exact ⟨s21, bs, g1, g2, g3, g4, g5, fun hfr l b hb => (k2.new hfr l b hb).imp id (k2.right l b)⟩

/-- C94: a builder without values can go on forever: whatever sequence of purging and adding elements succeeds with all blocks succeeds for it, with
the same tree as result, and the same blocks are written. -/
theorem C94_history (ok : cx.Ok) (hr : Reach cx s) (hd : Branched cx s s2) {ws : List (Chore T V)} (hw : Chores cx ws s s') (hs : Small E s') :
    ∃ s2' bs, Chores cx ws s2 s2' ∧ s2'.root = s'.root ∧ s'.puts = s.puts ++ bs ∧ s2'.puts = s2.puts ++ bs ∧ Branched cx s' s2' := by
  induction hw generalizing s2 with
  | nil s => exact ⟨s2, [], .nil s2, hd.root, by simp, by simp, hd⟩
  | @cons w ws s s1 s' ha h1 h2 ih =>
    have hs1 := h2.small ok hs
    obtain ⟨s21, bs, g1, g2, g3, g4, g5, _⟩ := hd.step ok hr ((Chore.frame ok h1).2 hs1) h1
    obtain ⟨s2', bs', k1, k2, k3, k4, k5⟩ := ih (Chore.reach hr ha h1) (g5 hs1) hs
    refine ⟨s2', bs ++ bs', .cons ?_ g1 k1, k2, by rw [k3, g3, List.append_assoc], by rw [k4, g4, List.append_assoc], k5⟩
    cases w with
    | retain fuel q => exact (congrArg (fun r => rootLevel r < fuel) hd.root).mpr ha
    | extendUnpacked fuel xs =>
      exact (congrArg (fun r => rootLevel r < fuel ∧ rootCount r + xs.length ≤ maxElements) hd.root).mpr ha

theorem Chores.unique {ws : List (Chore T V)} {a b : St E} (h1 : Chores cx ws s a) (h2 : Chores cx ws s b) : a = b := by
  induction h1 with
  | nil s => cases h2; rfl
  | cons _ g _ ih =>
    cases h2 with
    | cons _ g' k =>
      rw [g] at g'
      cases g'
      exact ih k

/-- C94: wherever the blocks that were there at the start and those of such a builder come together, the whole tree can be read: it has the content
that it has if all operations are done with all blocks. -/
theorem C94_history_joined (ok : cx.Ok) (hfr : Frugal E) (hr : Reach cx s) (hd : Branched cx s s2) {ws : List (Chore T V)} (hw : Chores cx ws s s')
    (hs : Small E s') (hc : Contains cx s' c) {s2' s3 : St E} (he2 : Chores cx ws s2 s2') (hroot : s3.root = s2'.root)
    (hold : StoreLe E s.store s3.store) (hnew : StoreLe E s2'.store s3.store) (hco : Coherent E cx.sec s3) : Contains cx s3 c := by
  have main : Reach cx s' ∧ s2'.root = s'.root ∧ StoreLe E s2.store s2'.store ∧
      ∀ l b, E.get s'.store l = .ok b → E.get s.store l = .ok b ∨ E.get s2'.store l = .ok b := by
    clear hold hc
    induction hw generalizing s2 with
    | nil s => cases he2; exact ⟨hr, hd.root, StoreLe.refl _, fun l b h => .inl h⟩
    | @cons w ws s s1 s' ha h1 h2 ih =>
      have hs1 := h2.small ok hs
      obtain ⟨s21, bs, g1, _, _, _, g5, g6⟩ := hd.step ok hr ((Chore.frame ok h1).2 hs1) h1
      cases he2 with
      | cons _ g1' he2 =>
        rw [g1] at g1'
        cases g1'
        obtain ⟨k0, k1, k2, k3⟩ := ih (Chore.reach hr ha h1) (g5 hs1) hs he2
        exact ⟨k0, k1, ((Chore.frame ok g1).1).trans k2, fun l b hb => (k3 l b hb).elim (fun hb => (g6 hfr l b hb).imp id (k2 l b)) .inr⟩
  obtain ⟨k0, k1, k2, k3⟩ := main
  exact contains_elsewhere ok k0 hs hc (hroot.trans k1) (fun l b hb => (k3 l b hb).elim (hold l b) (hnew l b)) hco

/-! ### a concrete case -/

/-- C94: no key for the values is needed (C74_retain). -/
example : retain (E := env) ⟨tiny, ⟨(ctx tiny).sec.indexKey, (show env.CKey from (99 : Nat))⟩⟩ 10 (keyRange 5 5) unpacked10 =
    .ok () retained10 :=
  (congrFun (C74_retain (cx := ctx tiny) rfl 10 (keyRange 5 5)) unpacked10).trans retained10_ok

/-- Whether the blocks of the branches of a loaded tree are not lost. -/
def branchesLeft (ns : List Nat) (s : St env) : Bool :=
  match loaded tiny s with
  | some t => t.nodes.all fun n => match n with
    | .branch i _ => match i.link with
      | some (l : Nat) => decide ((punch ns s.store).blocks[l]? = s.store.blocks[l]?)
      | none => true
    | _ => true
  | none => false

theorem hole_branched {s : St env} (hr : Reach (ctx tiny) s) (hs : Small env s) (ns : List Nat) (h : branchesLeft ns s = true) :
    Branched (ctx tiny) s (hole ns s) := by
  refine ⟨rfl, rfl, hole_alike ns s, hole_coherent tiny _ _, fun t sh => ?_⟩
  unfold branchesLeft at h
  cases ht : loaded tiny s with
  | none => rw [ht] at h; cases h
  | some t' =>
    obtain rfl := sh.unique tiny_ok.env (shows_of_loaded tiny_ok hr hs ht)
    rw [ht] at h
    intro i cs hn l hl
    have h2 := List.all_eq_true.1 h _ hn
    simp only [hl] at h2
    have h3 : ∀ (a b : Store) (l : Nat), a.blocks[l]? = b.blocks[l]? → a.get l = b.get l := by
      intro a b l h
      unfold Store.get
      rw [h]
    exact h3 _ _ l (of_decide_eq_true h2)

/-- Ten elements, of which only the blocks of the five branches are left. -/
def branches10 : St env := hole [0, 1, 3, 4, 7, 8] unpacked10

theorem branches10_branched : Branched (ctx tiny) unpacked10 branches10 := hole_branched unpacked10_reach unpacked10_small _ (by decide +kernel)

/-- C94: elements are purged where no value is left, with the same tree as result as if all blocks were there. -/
example : ∃ s1, retain (ctx tiny) 10 (keyRange 5 5) branches10 = .ok () s1 ∧ s1.root = retained10.root ∧ Branched (ctx tiny) retained10 s1 := by
  obtain ⟨s1, _, h1, h2, _, _, h3⟩ := C94_retain tiny_ok unpacked10_reach unpacked10_small branches10_branched 10 (keyRange 5 5) retained10_ok
  exact ⟨s1, h1, h2, h3 retained10_small⟩

/-- C94: together with the other blocks this is the tree with ten positions in which the element with key 5 is still there. -/
example : ∃ (s1 : St env) (c' : List (Option (Nat × Nat))), retain (ctx tiny) 10 (keyRange 5 5) branches10 = .ok () s1 ∧
    Contains (ctx tiny) (rejoin unpacked10 s1) c' ∧ c'.length = 10 ∧ c'[5]? = some (some (5, 50)) := by
  have key : ∀ {s s2 s' s2' : St env} {c : List (Option (Nat × Nat))}, Reach (ctx tiny) s → Branched (ctx tiny) s s2 → Contains (ctx tiny) s c →
      rootLevel s.root < 10 → retain (ctx tiny) 10 (keyRange 5 5) s = .ok () s' → Small env s' →
      retain (ctx tiny) 10 (keyRange 5 5) s2 = .ok () s2' → within s.store (rejoin s s2').store = true → within s2'.store (rejoin s s2').store = true →
      c.length = 10 → c[5]? = some (some (5, 50)) →
      ∃ c' : List (Option (Nat × Nat)), Contains (ctx tiny) (rejoin s s2') c' ∧ c'.length = 10 ∧ c'[5]? = some (some (5, 50)) := by
    intro s s2 s' s2' c hr hd hc hf he hs he2 h1 h2 h3 h4
    obtain ⟨c', g1, g2, g3⟩ := C94_retain_joined (s3 := rejoin s s2') tiny_ok env_frugal hr hd hc 10 hf (keyRange 5 5) covers _ covering (keyRange_queryFor 5 5) he hs
      he2 rfl (within_le h1) (within_le h2) (rejoin_coherent _ _)
    refine ⟨c', g1, g2.trans h3, ?_⟩
    rcases g3 5 with h | ⟨_, h⟩
    · exact h.trans h4
    · exact absurd (h (5 : Nat) 50 h4) (by decide)
  obtain ⟨c', g⟩ := key unpacked10_reach branches10_branched unpacked10_contains (by decide +kernel) retained10_ok retained10_small
    (s2' := endState (retain (ctx tiny) 10 (keyRange 5 5)) branches10) (ok_of_succeeds (by decide +kernel)) (by decide +kernel) (by decide +kernel) rfl rfl
  exact ⟨_, c', ok_of_succeeds (by decide +kernel), g⟩

/-- C94: purge, add three elements, and purge again, where no value is left. -/
example : let a := endState (extendUnpacked (ctx tiny) 10 (seq 10 3)) retained10
    let b := endState (retain (ctx tiny) 10 (keyRange 11 11)) a
    ∃ s1, Chores (ctx tiny) [.retain 10 (keyRange 5 5), .extendUnpacked 10 (seq 10 3), .retain 10 (keyRange 11 11)] branches10 s1 ∧
      s1.root = b.root ∧ Branched (ctx tiny) b s1 ∧ rootCount s1.root = 13 := by
  have key : ∀ {s s2 a b c : St env}, Reach (ctx tiny) s → Branched (ctx tiny) s s2 → retain (ctx tiny) 10 (keyRange 5 5) s = .ok () a →
      extendUnpacked (ctx tiny) 10 (seq 10 3) a = .ok () b → retain (ctx tiny) 10 (keyRange 11 11) b = .ok () c →
      rootLevel s.root < 10 → rootLevel a.root < 10 ∧ rootCount a.root + 3 ≤ maxElements → rootLevel b.root < 10 → Small env c →
      ∃ s1, Chores (ctx tiny) [.retain 10 (keyRange 5 5), .extendUnpacked 10 (seq 10 3), .retain 10 (keyRange 11 11)] s2 s1 ∧
        s1.root = c.root ∧ Branched (ctx tiny) c s1 := by
    intro s s2 a b c hr hd h1 h2 h3 k1 k2 k3 hs
    obtain ⟨s1, _, g1, g2, _, _, g3⟩ := C94_history tiny_ok hr hd
      (ws := [.retain 10 (keyRange 5 5), .extendUnpacked 10 (seq 10 3), .retain 10 (keyRange 11 11)])
      (.cons k1 h1 (.cons k2 h2 (.cons k3 h3 (.nil c)))) hs
    exact ⟨s1, g1, g2, g3⟩
  obtain ⟨s1, g1, g2, g3⟩ := key unpacked10_reach branches10_branched retained10_ok
    (b := endState (extendUnpacked (ctx tiny) 10 (seq 10 3)) retained10)
    (c := endState (retain (ctx tiny) 10 (keyRange 11 11)) (endState (extendUnpacked (ctx tiny) 10 (seq 10 3)) retained10))
    (ok_of_succeeds (by decide +kernel)) (ok_of_succeeds (by decide +kernel)) (by decide +kernel) (by decide +kernel) (by decide +kernel)
    (small_of (by decide +kernel))
  exact ⟨s1, g1, g2, g3, by rw [g2]; decide +kernel⟩

/-- C94: a branch that is not purged as a whole is needed: without its block, purging fails. -/
theorem C94_needed : ∀ n ∈ [5, 6, 9, 10], errorOf (retain (ctx tiny) 10 (keyRange 5 5)) (hole [n] unpacked10) = some (.fail "not there") := by
  decide +kernel

/-- C94: a branch that is purged as a whole is not read. -/
example : (show Option Nat from rootLink (endState (retain (ctx tiny) 10 (keyRange 5 5)) (hole [2] unpacked10)).root) = some 12 ∧
    (show Option Nat from rootLink retained10.root) = some 12 := by decide +kernel

end Banyan
