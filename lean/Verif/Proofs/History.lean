import Verif.Spec.History
import Verif.Proofs.Retain
import Verif.Proofs.Works
/-
Invariants of executions.
-/
set_option autoImplicit false
namespace Banyan

open PTree

variable {T : TreeTypes} {V : Type} {E : Env T V} {cx : Ctx E} {I : NodeInv cx} {α : Type}

/-! ### failed operations -/

theorem err_setIndex {m : M E α} {g : α → Option (Index T)} (hm : Frame cx m) {s s' : St E} {e : Err}
    (h : (m >>= fun a => (setIndex (g a) : M E Unit)) s = .error e s') : Ext cx s s' := by
  rw [bind_apply] at h
  cases hms : m s with
  | ok a s1 => rw [hms] at h; cases h
  | error e1 s1 => rw [hms] at h; cases h; exact hm.err hms

theorem extend_error (h : E.Lawful) {fuel : Nat} {xs : List (T.Key × V)} {s s' : St E} {e : Err}
    (he : extend cx fuel xs s = .error e s') : Ext cx s s' := by
  unfold extend at he
  split at he
  · cases he
  · exact err_setIndex (cx := cx) (m := (getIndex >>= fun index => extendAbove cx fuel index u32max xs))
      (g := fun r => some r.1) (Frame.bind frame_getIndex fun _ => frame_extendAbove h _ _ _ _) he

theorem extendUnpacked_error (h : E.Lawful) {fuel : Nat} {xs : List (T.Key × V)} {s s' : St E} {e : Err}
    (he : extendUnpacked cx fuel xs s = .error e s') : Ext cx s s' :=
  err_setIndex (cx := cx) (m := (getIndex >>= fun index => extendUnpacked0 cx fuel index xs))
    (g := fun r => r) (Frame.bind frame_getIndex fun _ => frame_extendUnpacked0 h _ _ _) he

theorem retain_error (h : E.Lawful) {fuel : Nat} {q : Query T} {s s' : St E} {e : Err}
    (he : retain cx fuel q s = .error e s') : Ext cx s s' := by
  unfold retain at he
  rw [bind_apply] at he
  simp only [getIndex] at he
  cases hr : s.root with
  | none => rw [hr] at he; cases he
  | some i =>
    rw [hr] at he
    exact err_setIndex (cx := cx) (m := retain0 cx q fuel 0 i i32max) (g := fun r => some r.1)
      (frame_retain0 h _ _ _ _ _) he

theorem repair_error (h : E.Lawful) {fuel : Nat} {s s' : St E} {e : Err}
    (he : repair cx fuel s = .error e s') : Ext cx s s' := by
  unfold repair at he
  rw [bind_apply] at he
  simp only [getIndex] at he
  cases hr : s.root with
  | none => rw [hr] at he; cases he
  | some i =>
    rw [hr] at he
    simp only at he
    rw [bind_apply] at he
    cases hm : repair0 cx fuel i [] i32max s with
    | ok a s1 => rw [hm] at he; cases he
    | error e1 s1 => rw [hm] at he; cases he; exact (frame_repair0 h _ _ _ _).err hm

theorem treeFromRoots_error (h : E.Lawful) {rs : List (Index T)} {s s' : St E} {e : Err}
    (he : treeFromRoots cx rs s = .error e s') : Ext cx s s' := by
  unfold treeFromRoots at he
  simp only [← bind_assoc] at he
  exact err_setIndex (cx := cx) (g := fun r => r.getLast?)
    (Frame.bind (Frame.bind (Frame.assert _ _) fun _ => Frame.assert _ _) fun _ => frame_treeFromRootsLoop h _ _) he

/-- What is left after a failed `pack`. -/
theorem pack_error (h : E.Lawful) (ht : T.Lawful) (hv : cx.cfg.Valid) {fuel : Nat} {t : Option (PTree T V)}
    {s s' : St E} {e : Err} (hh : HoldsI I s t) (hfuel : rootLevel s.root < fuel)
    (he : pack cx fuel s = .error e s') (hs : Small E s') :
    ∃ t', HoldsI I s' t' ∧ (t' = t ∨ optContent t' = contents (optRoots t) ∧ OptPacked t' ∧
      rootLevel s'.root ≤ (contents (optRoots t)).length ∧ OptMinRoot t') := by
  have hpk : pack cx fuel s = (roots cx fuel >>= fun rs => treeFromRoots cx rs >>= fun _ => getIndex >>= fun root =>
    Tree.collectFrom fuel (snapshot cx s) (rootCount root) >>= fun items =>
      match sequenceOpt items with
      | none => throw (.fail "found purged data")
      | some remainder => extend cx (fuel + rootLevel root) remainder) s := rfl
  rw [hpk, bind_apply] at he
  obtain ⟨c, hc, hroots⟩ := roots_reads hh hfuel
  rw [hroots] at he
  simp only at he
  rw [bind_apply] at he
  have hh0 : HoldsI I { s with cache := c } t := ⟨hh.root, hc, hh.good⟩
  cases hm : treeFromRoots cx ((optRoots t).map index) { s with cache := c } with
  | error e1 s1 =>
    rw [hm] at he
    cases he
    have hx := treeFromRoots_error h hm
    exact ⟨t, hh0.mono hx.ext0 hx.root, Or.inl rfl⟩
  | ok a s1 =>
    rw [hm] at he
    simp only [bind_apply, getIndex] at he
    have hext : Ext cx s1 s' := by
      cases hcol : Tree.collectFrom fuel (snapshot cx s) (rootCount s1.root) s1 with
      | error e2 s2 =>
        rw [hcol] at he
        cases he
        exact (frame_treeCollectFrom h _ _ _).err hcol
      | ok items s2 =>
        rw [hcol] at he
        simp only at he
        have h2 := (frame_treeCollectFrom (cx := cx) h _ _ _).ok hcol
        cases hq : sequenceOpt items with
        | none => rw [hq] at he; cases he; exact h2
        | some r => rw [hq] at he; exact h2.trans (extend_error h he)
    have hinfo : (∀ r ∈ optRoots t, Good I s.store r) ∧ (∀ r ∈ optRoots t, r.index.isSealed = true) ∧
        (optRoots t).Pairwise (fun a b => a.index.level ≥ b.index.level) := by
      cases t with
      | none => simp [optRoots]
      | some t =>
        have := optRoots_info t
        exact ⟨fun r hr => (hh.good t rfl).mem (this.mem r hr), this.sealed, this.sorted⟩
    obtain ⟨t1, k1, k2, k3, k4, _, k6, _, k8⟩ := (treeFromRoots_spec (I := I) (vals := fun _ => True) (R := fun _ => True) h ht hv
      (fun _ _ => trivial) (optRoots t) { s with cache := c } hc hinfo.1 hinfo.2.1 hinfo.2.2).ok hm (hext.small hs)
    refine ⟨t1, k1.mono hext.ext0 hext.root, Or.inr ⟨k2, k3, ?_, k8⟩⟩
    rw [hext.root]
    by_cases hr : optRoots t = []
    · have := k6 hr
      subst this
      rw [k1.root]
      exact Nat.zero_le _
    · exact k4 hr

/-! ### loading -/

theorem max?_eq {l : List Nat} {m : Nat} (hm : m ∈ l) (hle : ∀ x ∈ l, x ≤ m) : l.max? = some m := by
  rw [List.max?_eq_some_iff]
  exact ⟨hm, hle⟩

/-- Loading the root of a tree from its link. -/
theorem createIndex_spec {σ : E.σ} {i : BranchIndex T} {cs : List (PTree T V)} {l : T.Link}
    (hg : Good I σ (.branch i cs)) (hl : i.link = some l) (isSealed : List (Index T) → Nat → Bool) :
    ∃ bytes r, E.get σ l = .ok bytes ∧ createIndexFromLink E cx.sec isSealed σ l =
      .ok (.branch { i with keyBytes := (cs.map fun c => c.index.keyBytes).sum + bytes.length,
                            isSealed := isSealed (cs.map index) i.level }, r) := by
  have h0 := hg (.branch i cs) (self_mem_nodes _)
  obtain ⟨⟨l', r, h1, h2⟩, ⟨_, h5, h6, h7, h8, h9, _⟩, _⟩ := h0
  rw [hl] at h1
  cases h1
  unfold loadBranchFromLink at h2
  unfold createIndexFromLink
  cases hb : getBlock E σ l with
  | error e => rw [hb] at h2; cases h2
  | ok bytes =>
    rw [hb] at h2
    simp only at h2 ⊢
    refine ⟨bytes, ?_⟩
    cases hd : deserializeCompressed E cx.sec.indexKey bytes with
    | error e => rw [hd] at h2; cases h2
    | ok x =>
      obtain ⟨children, range⟩ := x
      rw [hd] at h2
      simp only [mkBranch] at h2 ⊢
      split at h2
      · cases h2
      · injection h2 with h2
        injection h2 with h2 h3
        subst h2 h3
        obtain ⟨c0, hc0, hlv⟩ := h6
        have hmax : maxLevel (cs.map index) = some c0.index.level := by
          unfold maxLevel
          refine max?_eq ?_ ?_
          · rw [List.map_map]
            exact List.mem_map.mpr ⟨c0, hc0, rfl⟩
          · intro x hx
            rw [List.map_map] at hx
            obtain ⟨c, hc, rfl⟩ := List.mem_map.mp hx
            have := h5 c hc
            show c.index.level ≤ _
            omega
        rw [hmax]
        refine ⟨range, getBlock_eq.mp hb, ?_⟩
        simp only [List.map_map, hlv]
        rw [show (Index.count ∘ index : PTree T V → Nat) = fun c => c.index.count from rfl, ← h7,
          show (Index.valueBytes ∘ index : PTree T V → Nat) = fun c => c.index.valueBytes from rfl, ← h9,
          show (Index.summarize ∘ index : PTree T V → T.Summary) = fun c => c.index.summarize from rfl, ← h8,
          show (Index.keyBytes ∘ index : PTree T V → Nat) = fun c => c.index.keyBytes from rfl, ← hl]

/-- Replacing the index of the root of a good branch. -/
theorem Good.root {σ : E.σ} {i i' : BranchIndex T} {cs : List (PTree T V)} (hg : Good I σ (.branch i cs))
    (h : StoredAt E cx.sec σ (.branch i' cs) ∧ WFAt E (.branch i' cs) ∧ I.J σ (.branch i' cs)) :
    Good I σ (.branch i' cs) := by
  intro n hn
  simp only [nodes, List.mem_cons] at hn
  rcases hn with rfl | hn
  · exact h
  · exact hg n (by simp [nodes, hn])

theorem load_spec (hv : cx.cfg.Valid) (hI : I.Reloads) {s : St E} {i : BranchIndex T} {cs : List (PTree T V)} {l : T.Link}
    (hh : HoldsI I s (some (.branch i cs))) (hl : i.link = some l) :
    ∃ s' i', loadStreamBuilder cx l s = .ok () s' ∧ HoldsI I s' (some (.branch i' cs)) ∧
      i' = { i with keyBytes := i'.keyBytes, isSealed := cx.cfg.branchSealed (cs.map index) i.level } ∧
      s'.store = s.store ∧ s'.cache = s.cache ∧ s'.puts = s.puts ∧ s'.written = s.written := by
  have hg := hh.good _ rfl
  obtain ⟨bytes, r, hb, h1⟩ := createIndex_spec hg hl (fun items level => cx.cfg.branchSealed items level)
  have h0 := hg (.branch i cs) (self_mem_nodes _)
  obtain ⟨hst, hwf, hJ⟩ := h0
  refine ⟨{ s with root := some (.branch { i with keyBytes := (cs.map fun c => c.index.keyBytes).sum + bytes.length,
                                                  isSealed := cx.cfg.branchSealed (cs.map index) i.level }), offset := r.2 },
    _, by unfold loadStreamBuilder; rw [h1], ⟨rfl, hh.coherent, ?_⟩, rfl, rfl, rfl, rfl, rfl⟩
  intro t' ht'
  cases ht'
  exact hg.root ⟨hst, ⟨hwf.1, hwf.2.1, hwf.2.2.1, hwf.2.2.2.1, hwf.2.2.2.2.1, hwf.2.2.2.2.2.1, branchSealed_wf hv hwf.2.1⟩, hI hJ hl hb⟩

/-! ### the invariant -/

/-- The invariant of a builder. -/
structure Inv (I : NodeInv cx) (s : St E) (t : Option (PTree T V)) : Prop where
  holds : HoldsI I s t
  purge : OptPurgeOk t
  level : rootLevel s.root ≤ (optContent t).length + 1
  count : (optContent t).length ≤ maxElements
  minRoot : OptMinRoot t

theorem Inv.branch {I : NodeInv cx} {s : St E} {t : Option (PTree T V)} (hi : Inv I s t) {i : BranchIndex T} {l : T.Link}
    (hr : s.root = some (.branch i)) (hl : i.link = some l) : ∃ cs, t = some (.branch i cs) := by
  have hroot := hi.holds.root
  rw [hr] at hroot
  cases t with
  | none => cases hroot
  | some t =>
    cases t with
    | leaf _ _ => cases hroot
    | purgedLeaf _ => cases hroot
    | purgedBranch i2 =>
      cases hroot
      have h2 : i.link = none := ((hi.holds.good _ rfl) _ (self_mem_nodes _)).1
      rw [hl] at h2
      cases h2
    | branch i2 cs => cases hroot; exact ⟨cs, rfl⟩

/-- The invariant does not depend on the configuration. -/
theorem Inv.reconfigure {c c' : Config} {sec : Secrets E} {I : NodeInv (⟨c, sec⟩ : Ctx E)} {I' : NodeInv (⟨c', sec⟩ : Ctx E)}
    (hJ : I.J = I'.J) {s : St E} {t : Option (PTree T V)} (h : Inv I s t) : Inv I' s t := by
  refine ⟨⟨h.holds.root, h.holds.coherent, fun t' ht' => ?_⟩, h.purge, h.level, h.count, h.minRoot⟩
  refine PTree.All.imp (fun n hn => ?_) (h.holds.good t' ht')
  exact ⟨hn.1, hn.2.1, hJ ▸ hn.2.2⟩

theorem Inv.level_lt {s : St E} {t : Option (PTree T V)} (h : Inv I s t) : (rootLevel s.root : Int) ≤ i32max := by
  have h1 := h.level
  have h2 := h.count
  unfold maxElements at h2
  unfold i32max
  omega

theorem Inv.ext {s s' : St E} {t : Option (PTree T V)} (h : Inv I s t) (hx : Ext cx s s') : Inv I s' t :=
  ⟨h.holds.mono hx.ext0 hx.root, h.purge, by rw [hx.root]; exact h.level, h.count, h.minRoot⟩

theorem Erased.length_eq {m : Nat → T.Key → Bool} {o : Nat} {a b : List (Option (T.Key × V))} (h : Erased m o a b) :
    b.length = a.length := by
  induction a generalizing o b with
  | nil => cases b with
    | nil => rfl
    | cons _ _ => exact h.elim
  | cons x a ih => cases b with
    | nil => exact h.elim
    | cons y b => simp [ih h.2]

theorem OptRetained.count {q : Query T} {t t' : Option (PTree T V)} (h : OptRetained q t t') (ht : T.Lawful)
    (hc : ∀ t0, t = some t0 → Counts t0) (hc' : ∀ t0, t' = some t0 → Counts t0) :
    (optContent t').length = (optContent t).length := by
  cases t <;> cases t' <;> try exact h.elim
  · rfl
  · obtain ⟨l', h⟩ := h
    show (content _).length = (content _).length
    rw [content_length ht (hc _ rfl), content_length ht (hc' _ rfl), unlink_count h.unlink]

theorem Inv.extend (h : E.Lawful) (ht : T.Lawful) (hv : cx.cfg.Valid) {s : St E} {t : Option (PTree T V)} (hi : Inv I s t)
    (fuel : Nat) (xs : List (T.Key × V)) (hf : rootLevel s.root < fuel) (hn : rootCount s.root + xs.length ≤ maxElements)
    (hs : Small E (endState (Banyan.extend cx fuel xs) s)) : ∃ t', Inv I (endState (Banyan.extend cx fuel xs) s) t' := by
  have hcount := rootCount_eq ht hi.holds
  have hlv := hi.level
  have hm : maxElements = 2147483645 := rfl
  have hu : u32max = 4294967295 := rfl
  unfold endState at hs ⊢
  cases hr : Banyan.extend cx fuel xs s with
  | error e s' => exact ⟨t, hi.ext (extend_error h hr)⟩
  | ok a s' =>
    rw [hr] at hs
    simp only at hs ⊢
    by_cases hx : xs = []
    · subst hx
      cases hr
      exact ⟨t, hi⟩
    have hxl : 0 < xs.length := List.length_pos_iff.mpr hx
    obtain ⟨t', k1, k2, _, _, _, k6, k7, k8⟩ := (extend_spec (I := I) (vals := fun _ => True) (R := fun _ => True) h ht hv
      (fun _ _ => trivial) fuel xs t s hi.holds (fun _ _ => trivial) hf (by omega) (Or.inr fun _ => trivial)).ok hr hs
    have : (optContent t').length = (optContent t).length + xs.length := by rw [k2]; simp
    exact ⟨t', k1, k6 hi.purge, by omega, by omega, k8 hi.minRoot⟩

theorem Inv.extendUnpacked (h : E.Lawful) (ht : T.Lawful) (hv : cx.cfg.Valid) {s : St E} {t : Option (PTree T V)} (hi : Inv I s t)
    (fuel : Nat) (xs : List (T.Key × V)) (hn : rootCount s.root + xs.length ≤ maxElements)
    (hs : Small E (endState (Banyan.extendUnpacked cx fuel xs) s)) :
    ∃ t', Inv I (endState (Banyan.extendUnpacked cx fuel xs) s) t' := by
  have hcount := rootCount_eq ht hi.holds
  have hlv := hi.level
  have hm : maxElements = 2147483645 := rfl
  have hu : u32max = 4294967295 := rfl
  unfold endState at hs ⊢
  cases hr : Banyan.extendUnpacked cx fuel xs s with
  | error e s' => exact ⟨t, hi.ext (extendUnpacked_error h hr)⟩
  | ok a s' =>
    rw [hr] at hs
    simp only at hs ⊢
    by_cases hx : xs = []
    · subst hx
      have : Banyan.extendUnpacked cx fuel [] s = .ok () s := rfl
      rw [this] at hr
      cases hr
      exact ⟨t, hi⟩
    have hxl : 0 < xs.length := List.length_pos_iff.mpr hx
    obtain ⟨t', k1, k2, _, k6, k7, k8, k9, _⟩ := (extendUnpacked_spec (I := I) (vals := fun _ => True) (R := fun _ => True) h ht hv
      (fun _ _ => trivial) fuel xs t s hi.holds (fun _ _ => trivial) (by omega)).ok hr hs
    have : (optContent t').length = (optContent t).length + xs.length := by rw [k2]; simp
    refine ⟨t', k1, k6 hi.purge, ?_, by omega, k9 hi.minRoot⟩
    cases t with
    | none =>
      have := k8 rfl
      omega
    | some t =>
      have hpos := WF.count_pos (hi.holds.good t rfl).wf
      have : (optContent (some t)).length = t.index.count := content_length ht (hi.holds.good t rfl).counts
      omega

theorem Inv.pack (h : E.Lawful) (ht : T.Lawful) (hv : cx.cfg.Valid) {s : St E} {t : Option (PTree T V)} (hi : Inv I s t)
    (fuel : Nat) (hf : rootLevel s.root < fuel) (hs : Small E (endState (Banyan.pack cx fuel) s)) :
    ∃ t', Inv I (endState (Banyan.pack cx fuel) s) t' := by
  have hcount := hi.count
  have hm : maxElements = 2147483645 := rfl
  have hu : u32max = 4294967295 := rfl
  unfold endState at hs ⊢
  cases hr : Banyan.pack cx fuel s with
  | error e s' =>
    rw [hr] at hs
    simp only at hs ⊢
    obtain ⟨t', k1, k2⟩ := pack_error h ht hv hi.holds hf hr hs
    obtain ⟨rest, hrest⟩ := optRoots_content hi.purge (fun t' ht' => by
      have := hi.level_lt
      subst ht'
      rw [hi.holds.level] at this
      exact this)
    rcases k2 with rfl | ⟨k2, k3, k4, k5⟩
    · have hroot : s'.root = s.root := by rw [k1.root, hi.holds.root]
      exact ⟨t', k1, hi.purge, by rw [hroot]; exact hi.level, hi.count, hi.minRoot⟩
    · refine ⟨t', k1, OptPacked.purgeOk k1 k3, ?_, ?_, k5⟩
      · rw [k2]; omega
      · rw [k2]
        have := congrArg List.length hrest
        simp only [List.length_append] at this
        omega
  | ok a s' =>
    rw [hr] at hs
    simp only at hs ⊢
    obtain ⟨t', k1, k2, k3, k4, _, _, k7⟩ := (pack_spec (I := I) (R := fun _ => True) h ht hv
      fuel t (fun _ _ => trivial) s hi.holds hi.purge hf hi.level_lt (by omega)).ok hr hs
    exact ⟨t', k1, OptPacked.purgeOk k1 k3, by rw [k2]; exact k4, by rw [k2]; exact hi.count, k7⟩

theorem Inv.retain (h : E.Lawful) (ht : T.Lawful) (hv : cx.cfg.Valid) (hI : I.Rewrites) {s : St E} {t : Option (PTree T V)}
    (hi : Inv I s t) (fuel : Nat) (q : Query T) (hf : rootLevel s.root < fuel)
    (hs : Small E (endState (Banyan.retain cx fuel q) s)) : ∃ t', Inv I (endState (Banyan.retain cx fuel q) s) t' := by
  unfold endState at hs ⊢
  cases hr : Banyan.retain cx fuel q s with
  | error e s' => exact ⟨t, hi.ext (retain_error h hr)⟩
  | ok a s' =>
    rw [hr] at hs
    simp only at hs ⊢
    obtain ⟨t', k1, k2⟩ := (retain_spec (I := I) (vals := fun _ => True) (R := fun _ => True) h ht hv hI
      (fun _ _ => trivial) q fuel t s hi.holds hf).ok hr hs
    have hc := k2.count ht (fun t0 h0 => (hi.holds.good t0 h0).counts) (fun t0 h0 => (k1.good t0 h0).counts)
    refine ⟨t', k1, k2.purgeOk hi.purge (by rw [← hi.holds.root]; exact hi.level_lt), ?_, by rw [hc]; exact hi.count, k2.minRoot hi.minRoot⟩
    rw [k1.root, k2.level, ← hi.holds.root, hc]
    exact hi.level

/-! ### operations among other threads -/

theorem Inv.final {s : St E} {t : Option (PTree T V)} {F : E.σ × String} (p : Script E F) (hi : Inv I s t) (hF : StoreLe E s.store F.1) :
    Inv (I.final F) (s.final p) t where
  holds :=
    { root := hi.holds.root
      coherent := fun l b hl => (by cases hl)
      good := by
        intro t' ht' n hn
        obtain ⟨h1, h2, h3⟩ := hi.holds.good t' ht' n hn
        refine ⟨?_, ?_, I.mono hF h3⟩
        · exact (StoredAt.final (cx := cx) (p := p) n) ▸ h1.mono hF
        · exact (WFAt.final (F := F) n) ▸ h2 }
  purge := hi.purge
  level := hi.level
  count := hi.count
  minRoot := hi.minRoot

theorem Inv.ofFinal {s : St E} {t : Option (PTree T V)} {m0 : String} {p : Script E (s.store, m0)} (hi : Inv (I.final (s.store, m0)) (s.final p) t)
    (hc : Exact E cx.sec s) : Inv I s t where
  holds :=
    { root := hi.holds.root
      coherent := hc.coherent
      good := by
        intro t' ht' n hn
        obtain ⟨h1, h2, h3⟩ := hi.holds.good t' ht' n hn
        refine ⟨?_, ?_, h3⟩
        · have h4 := StoredAt.final (cx := cx) (p := p) n
          exact h4.mp h1
        · have h4 := WFAt.final (F := (s.store, m0)) n
          exact h4.mp h2 }
  purge := hi.purge
  level := hi.level
  count := hi.count
  minRoot := hi.minRoot

theorem endState_resultAt {F : E.σ × String} {m : M (E.final F) α} {s s' : St (E.final F)} {r : Except Err α} (hm : m s = resultAt r s') :
    endState m s = s' := by
  unfold endState
  rw [hm]
  cases r <;> rfl

/-- What a program among other threads does is what the operation does alone, in the environment of the end. -/
theorem WProg.Runs.op (h : E.Lawful) {p : WProg T α} {s s' : St E} {r : Except Err α} (hx : p.Runs cx.sec s r s') (hc : Exact E cx.sec s)
    {m0 : String} {p' : WProg T α} {m : M (E.final (s'.store, m0)) α} (hp : p' = p) (hm : p'.run (cx.final (s'.store, m0)).sec = m) :
    ∃ q q' : Script E (s'.store, m0), m (s.final q) = resultAt r (s'.final q') := by
  subst hp hm
  exact hx.alone h hc m0

theorem Small.final {s : St E} {F : E.σ × String} {q : Script E F} (h : Small E s) : Small (E.final F) (s.final q) := h

/-- What the writing operations do among other threads, seen from the environment of the end. -/
theorem Job.spec (h : E.Lawful) (ht : T.Lawful) (hv : cx.cfg.Valid) (hI : I.Rewrites) {p : WProg T Unit} {s s' : St E} {r : Except Err Unit}
    (hp : Job cx s p) (hx : p.Runs cx.sec s r s') (hc : Exact E cx.sec s) (m0 : String) :
    ∃ q q' : Script E (s'.store, m0), ∀ t, Inv (I.final (s'.store, m0)) (s.final q) t → Small E s' →
      ∃ t', Inv (I.final (s'.store, m0)) (s'.final q') t' := by
  have hl := Env.final_lawful h (s'.store, m0)
  have hI' := hI.final (s'.store, m0)
  cases hp with
  | extend fuel xs hf hn =>
    obtain ⟨q, q', hq⟩ := hx.op h hc (wextend_final fuel xs) (WProg.run_extend (cx := cx.final (s'.store, m0)) fuel xs)
    refine ⟨q, q', fun t hi hs => ?_⟩
    have := hi.extend hl ht hv fuel xs hf hn (by rw [endState_resultAt hq]; exact hs.final)
    rwa [endState_resultAt hq] at this
  | extendUnpacked fuel xs hf hn =>
    obtain ⟨q, q', hq⟩ := hx.op h hc (wextendUnpacked_final fuel xs) (WProg.run_extendUnpacked (cx := cx.final (s'.store, m0)) fuel xs)
    refine ⟨q, q', fun t hi hs => ?_⟩
    have := hi.extendUnpacked hl ht hv fuel xs hn (by rw [endState_resultAt hq]; exact hs.final)
    rwa [endState_resultAt hq] at this
  | pack fuel hf =>
    obtain ⟨q, q', hq⟩ := hx.op h hc (wpack_final fuel) (WProg.run_pack (cx := cx.final (s'.store, m0)) fuel)
    refine ⟨q, q', fun t hi hs => ?_⟩
    have := hi.pack hl ht hv fuel hf (by rw [endState_resultAt hq]; exact hs.final)
    rwa [endState_resultAt hq] at this
  | retain fuel qu hf =>
    obtain ⟨q, q', hq⟩ := hx.op h hc (wretain_final fuel qu) (WProg.run_retain (cx := cx.final (s'.store, m0)) fuel qu)
    refine ⟨q, q', fun t hi hs => ?_⟩
    have := hi.retain hl ht hv hI' fuel qu hf (by rw [endState_resultAt hq]; exact hs.final)
    rwa [endState_resultAt hq] at this

/-- The frame of the writing operations among other threads. -/
theorem Job.ext0 (h : E.Lawful) {p : WProg T Unit} {s s' : St E} {r : Except Err Unit}
    (hp : Job cx s p) (hx : p.Runs cx.sec s r s') (hc : Exact E cx.sec s) : Ext0 cx s s' := by
  let m0 := ""
  have hl := Env.final_lawful h (s'.store, m0)
  have key : ∃ q q' : Script E (s'.store, m0), Ext0 (cx.final (s'.store, m0)) (s.final q) (s'.final q') := by
    cases hp with
    | extend fuel xs hf hn =>
      obtain ⟨q, q', hq⟩ := hx.op h hc (wextend_final fuel xs) (WProg.run_extend (cx := cx.final (s'.store, m0)) fuel xs)
      have := (frame0_extend (cx := cx.final (s'.store, m0)) hl fuel xs (s.final q)).1
      exact ⟨q, q', by rwa [endState_resultAt hq] at this⟩
    | extendUnpacked fuel xs hf hn =>
      obtain ⟨q, q', hq⟩ := hx.op h hc (wextendUnpacked_final fuel xs) (WProg.run_extendUnpacked (cx := cx.final (s'.store, m0)) fuel xs)
      have := (frame0_extendUnpacked (cx := cx.final (s'.store, m0)) hl fuel xs (s.final q)).1
      exact ⟨q, q', by rwa [endState_resultAt hq] at this⟩
    | pack fuel hf =>
      obtain ⟨q, q', hq⟩ := hx.op h hc (wpack_final fuel) (WProg.run_pack (cx := cx.final (s'.store, m0)) fuel)
      have := (frame0_pack (cx := cx.final (s'.store, m0)) hl fuel (s.final q)).1
      exact ⟨q, q', by rwa [endState_resultAt hq] at this⟩
    | retain fuel qu hf =>
      obtain ⟨q, q', hq⟩ := hx.op h hc (wretain_final fuel qu) (WProg.run_retain (cx := cx.final (s'.store, m0)) fuel qu)
      have := (frame0_retain (cx := cx.final (s'.store, m0)) hl fuel qu (s.final q)).1
      exact ⟨q, q', by rwa [endState_resultAt hq] at this⟩
  obtain ⟨q, q', hq⟩ := key
  obtain ⟨new, h1, h2⟩ := hq.puts
  exact ⟨(hx.exact h).1, fun _ => ((hx.exact h).2 hc).coherent, ⟨new, h1, h2.ofFinal⟩, hq.written⟩

theorem Job.inv (h : E.Lawful) (ht : T.Lawful) (hv : cx.cfg.Valid) (hI : I.Rewrites) {p : WProg T Unit} {s s' : St E} {r : Except Err Unit}
    (hp : Job cx s p) (hx : p.Runs cx.sec s r s') (hc : Exact E cx.sec s) {t : Option (PTree T V)} (hi : Inv I s t) (hs : Small E s') :
    ∃ t', Inv I s' t' := by
  obtain ⟨q, q', hq⟩ := hp.spec h ht hv hI hx hc ""
  obtain ⟨t', hi'⟩ := hq t (hi.final q (hx.exact h).1) hs
  exact ⟨t', hi'.ofFinal ((hx.exact h).2 hc)⟩

theorem Run.ext0 (h : E.Lawful) {a s : St E} (hr : Run cx a s) : Ext0 cx a s := by
  induction hr with
  | refl s => exact Ext0.refl s
  | extend fuel xs _ _ _ ih => exact ih.trans (frame0_extend h fuel xs _).1
  | extendUnpacked fuel xs _ _ _ ih => exact ih.trans (frame0_extendUnpacked h fuel xs _).1
  | pack fuel _ _ ih => exact ih.trans (frame0_pack h fuel _).1
  | retain fuel q _ _ ih => exact ih.trans (frame0_retain h fuel q _).1
  | rollback _ _ ih1 ih2 => exact ih1.trans (ih2.trans (Ext0.setRoot _ _))
  | world σ γ _ h1 h2 ih =>
    exact ih.trans ⟨h1, fun _ => h2, ⟨[], by simp, Nat.le_refl _⟩, ⟨[], by simp⟩⟩
  | threaded _ h1 h2 h3 ih => exact ih.trans (h2.ext0 h h3 h1)

theorem Run.inv (h : E.Lawful) (ht : T.Lawful) (hv : cx.cfg.Valid) (hI : I.Rewrites) {a s : St E} (hr : Run cx a s)
    (hi : ∃ t, Inv I a t) (hs : Small E s) : ∃ t, Inv I s t := by
  induction hr with
  | refl s => exact hi
  | extend fuel xs _ hf hn ih =>
    obtain ⟨t, hi⟩ := ih hi ((frame0_extend h fuel xs _).1.small hs)
    exact hi.extend h ht hv fuel xs hf hn hs
  | extendUnpacked fuel xs _ hf hn ih =>
    obtain ⟨t, hi⟩ := ih hi ((frame0_extendUnpacked h fuel xs _).1.small hs)
    exact hi.extendUnpacked h ht hv fuel xs hn hs
  | pack fuel _ hf ih =>
    obtain ⟨t, hi⟩ := ih hi ((frame0_pack h fuel _).1.small hs)
    exact hi.pack h ht hv fuel hf hs
  | retain fuel q _ hf ih =>
    obtain ⟨t, hi⟩ := ih hi ((frame0_retain h fuel q _).1.small hs)
    exact hi.retain h ht hv hI fuel q hf hs
  | rollback h1 h2 ih1 ih2 =>
    have hx := h2.ext0 h
    obtain ⟨t, hi⟩ := ih1 hi (hx.small hs)
    refine ⟨t, ⟨hi.holds.root, hx.coherent hi.holds.coherent, fun t' ht' => (hi.holds.good t' ht').mono hx.store⟩, hi.purge, hi.level, hi.count, hi.minRoot⟩
  | world σ γ _ h1 h2 ih =>
    obtain ⟨t, hi⟩ := ih hi hs
    exact ⟨t, ⟨hi.holds.root, h2, fun t' ht' => (hi.holds.good t' ht').mono h1⟩, hi.purge, hi.level, hi.count, hi.minRoot⟩
  | threaded _ h1 h2 h3 ih =>
    obtain ⟨t, hi⟩ := ih hi ((h2.ext0 h h3 h1).small hs)
    exact h2.inv h ht hv hI h3 h1 hi hs

/-- Sealed trees are packed. -/
theorem Packed.of_sealed {t : PTree T V} (h : t.index.isSealed = true) : Packed t := by
  cases t with
  | leaf i vs => exact .leaf _ _
  | branch i cs => exact .closed _ _ h
  | purgedLeaf i => exact .purgedLeaf _
  | purgedBranch i => exact .purgedBranch _

/-- Marking the root of a tree as sealed or not, according to some configuration, keeps packed trees packed. -/
theorem Packed.remark {i i' : BranchIndex T} {cs : List (PTree T V)} (hw : WFAt E (.branch i cs)) (hlv : i'.level = i.level)
    (hp : Packed (.branch i cs)) : Packed (.branch i' cs) := by
  by_cases hs : i'.isSealed = true
  · exact .closed _ _ hs
  cases hp with
  | closed _ _ h =>
    have h7 := (hw.2.2.2.2.2.2 h).1
    rcases List.eq_nil_or_concat cs with h0 | ⟨init, last, h0⟩
    · exact absurd h0 hw.1
    · rw [List.concat_eq_append] at h0
      subst h0
      refine .unclosed _ _ _ (fun c hc => by rw [hlv]; exact h7 c (by simp [hc])) ?_ (Packed.of_sealed (h7 last (by simp)).1)
      have := (h7 last (by simp)).2
      omega
  | unclosed _ init last q1 q2 q3 =>
    exact .unclosed _ _ _ (by rw [hlv]; exact q1) (by rw [hlv]; exact q2) q3

theorem PurgeOk.remark {i i' : BranchIndex T} {cs : List (PTree T V)} (hw : WFAt E (.branch i cs)) (hlv : i'.level = i.level)
    (hp : PurgeOk (.branch i cs) (i.level : Int)) : PurgeOk (.branch i' cs) (i'.level : Int) := by
  by_cases hs : i'.isSealed = true
  · exact Or.inl ⟨hs, Int.le_refl _⟩
  right
  rw [hlv]
  rcases hp with hp | hp
  · have h7 := (hw.2.2.2.2.2.2 hp.1).1
    obtain ⟨c, hc, hcl⟩ := hw.2.2.1
    exact (rootsOfL_closed (cs := cs) (n := i.level - 1) (fun c hc => ⟨(h7 c hc).1, by have := (h7 c hc).2; omega⟩) (by omega)).1
  · exact hp

theorem load_inv (hv : cx.cfg.Valid) (ht : T.Lawful) (hI : I.Reloads) {s : St E} {t : Option (PTree T V)} (hi : Inv I s t) {i : BranchIndex T} {l : T.Link}
    (hr : s.root = some (.branch i)) (hl : i.link = some l) :
    ∃ s' t', loadStreamBuilder cx l s = .ok () s' ∧ Inv I s' t' ∧ optContent t' = optContent t ∧ (OptPacked t → OptPacked t') ∧
      s'.store = s.store ∧ s'.written = s.written := by
  have hroot := hi.holds.root
  rw [hr] at hroot
  cases t with
  | none => cases hroot
  | some t =>
    cases t with
    | leaf _ _ => cases hroot
    | purgedLeaf _ => cases hroot
    | purgedBranch i2 =>
      cases hroot
      have := ((hi.holds.good _ rfl) _ (self_mem_nodes _)).1
      have h2 : i.link = none := this
      rw [hl] at h2
      cases h2
    | branch i2 cs =>
      cases hroot
      obtain ⟨s', i', h1, h2, h3, h4, h5, h6, h7⟩ := load_spec hv hI hi.holds hl
      have hlv : i'.level = i.level := by rw [h3]
      have hw := ((hi.holds.good _ rfl) _ (self_mem_nodes _)).2.1
      refine ⟨s', _, h1, ⟨h2, ?_, ?_, hi.count, fun hl => hi.minRoot (by rw [← hlv]; exact hl)⟩, rfl, ?_, h4, h7⟩
      · exact PurgeOk.remark hw hlv hi.purge
      · rw [h2.level]
        have := hi.level
        rw [hi.holds.level] at this
        show i'.level ≤ _
        rw [hlv]
        exact this
      · exact fun hp => Packed.remark hw hlv hp

end Banyan
