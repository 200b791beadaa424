import Verif.Spec.Outline
import Verif.Props.Graph
import Verif.Props.Partial
import Verif.Props.Retain
/-
The index of a tree can be used without its values: C74.
-/
set_option autoImplicit false
namespace Banyan

open PTree Concrete

variable {T : TreeTypes} {V : Type} {E : Env T V} {cx : Ctx E} {sec : Secrets E} {s s2 : St E} {t : PTree T V}

theorem SameIndexKey.load {a b : Secrets E} (h : SameIndexKey a b) : loadBranchFromLink E a = loadBranchFromLink E b := by
  funext σ l
  unfold loadBranchFromLink
  rw [show a.indexKey = b.indexKey from h]

theorem branches_mem {i : BranchIndex T} {cs : List (PTree T V)} (h : .branch i cs ∈ t.nodes) : .branch i cs ∈ t.branches :=
  List.mem_filter.mpr ⟨h, rfl⟩

/-- A branch whose block is there, also for a reader with another key for the values. -/
theorem Snap.outlinedAt {s' : St E} (hs : Snap cx s (some t) s') (hk : SameIndexKey sec cx.sec) {n : PTree T V} (hn : n ∈ t.nodes)
    {ns : List (PTree T V)} (hsame : SameBlocks E s'.store s2.store ns) (hm : ∀ i cs, n = .branch i cs → n ∈ ns) :
    OutlinedAt E sec s2.store n := by
  have h := hs.stored t rfl n hn
  cases n with
  | leaf i vs => obtain ⟨l, _, _, h, _⟩ := h; exact ⟨l, h⟩
  | purgedLeaf i => exact h
  | purgedBranch i => exact h
  | branch i cs =>
    obtain ⟨l, r, h1, h2⟩ := h
    refine ⟨l, r, h1, ?_⟩
    rw [hk.load]
    have := getBlock_congr (hsame _ (hm i cs rfl) l h1)
    unfold loadBranchFromLink at h2 ⊢
    rw [this]
    exact h2

/-- The branches are all there, also for a reader with another key for the values. -/
theorem Snap.outlined {s' : St E} (hs : Snap cx s (some t) s') (hk : SameIndexKey sec cx.sec) (hsame : SameBlocks E s'.store s2.store t.branches) :
    Outlined E sec s2.store t := fun n hn => hs.outlinedAt hk hn hsame fun i cs h => by subst h; exact branches_mem hn

/-- C66: an iteration over the indexes needs only the blocks of the branches it visits, whatever the key for the values. -/
theorem C66_indexes (ok : cx.Ok) (hr : Reach cx s) (hs : Small E s) (sh : Shows cx s t) (hk : SameIndexKey sec cx.sec) (q : Query T) (mode : Mode)
    (hsame : SameBlocks E s.store s2.store (t.visited q mode)) (hco : Coherent E sec s2) (o : Nat) :
    Enumerates (fun between n fuel t => Tree.indexes q mode between n fuel t) sec (some (t.index, sec, o)) s2
      ((visits q mode t 0).map fun x => x.2.index) := by
  have hsn := hr.snap ok hs sh
  refine ⟨turns q t 0 + 2, fun between n fuel hb hf => ?_⟩
  unfold Tree.indexes
  refine indexTake_spec ok.env hb n (σ := s2.store) (fun _ _ h => h) hco (ivis_new ⟨fun x hx => ?_, (hsn.wf t rfl).iterOk ok.types⟩) (by omega)
  refine hsn.outlinedAt hk (visits_nodes q mode t 0 x hx) hsame fun i cs h => ?_
  exact List.mem_filter.mpr ⟨List.mem_map.mpr ⟨x, hx, rfl⟩, by rw [h]⟩

/-- C66: the visited branches are branches of the tree, and no branch is among them without a reason: it is the root, or it is a child,
selected by the query, of another one. -/
theorem C66_visited (q : Query T) (mode : Mode) (n : PTree T V) (h : n ∈ t.visited q mode) : n ∈ t.branches ∧
    (n = t ∨ ∃ o i pre post, .branch i (pre ++ n :: post) ∈ t.visited q mode ∧
      (q.intersecting o i (List.replicate (T.sums.len i.summaries) true))[pre.length]? = some true) := by
  obtain ⟨h1, h2⟩ := List.mem_filter.mp h
  obtain ⟨x, hx, rfl⟩ := List.mem_map.mp h1
  refine ⟨List.mem_filter.mpr ⟨visits_nodes q mode t 0 x hx, h2⟩, ?_⟩
  rcases (C33_pruned q mode).mp (show (x.1, x.2) ∈ _ from hx) with ⟨_, h3⟩ | ⟨o, i, pre, post, h3, _, h4⟩
  · exact .inl h3
  · exact .inr ⟨o, i, pre, post, List.mem_filter.mpr ⟨List.mem_map.mpr ⟨_, h3, rfl⟩, rfl⟩, h4⟩

/-- C74: the indexes delivered to a reader who has only the blocks of the branches, and no key for the values, are those delivered to a
reader who has everything (`C33_indexes`). -/
theorem C74_indexes (ok : cx.Ok) (hr : Reach cx s) (hs : Small E s) (sh : Shows cx s t) (hk : SameIndexKey sec cx.sec)
    (hsame : SameBlocks E s.store s2.store t.branches) (hco : Coherent E sec s2) (q : Query T) (mode : Mode) (o : Nat) :
    Enumerates (fun between n fuel t => Tree.indexes q mode between n fuel t) sec (some (t.index, sec, o)) s2
      ((visits q mode t 0).map fun x => x.2.index) := by
  have hsn := hr.snap ok hs sh
  refine ⟨turns q t 0 + 2, fun between n fuel hb hf => ?_⟩
  unfold Tree.indexes
  exact indexTake_spec ok.env hb n (σ := s2.store) (fun _ _ h => h) hco (ivis_new ((hsn.outlined hk hsame).visible ((hsn.wf t rfl).iterOk ok.types) _ _ _)) (by omega)

/-- C74: the same for `is_packed`, `left_roots` and `dump_graph`. -/
theorem C74_shape (ok : cx.Ok) (hr : Reach cx s) (hs : Small E s) (sh : Shows cx s t) (hk : SameIndexKey sec cx.sec)
    (hsame : SameBlocks E s.store s2.store t.branches) (hco : Coherent E sec s2) (o : Nat) :
    (∃ b, Yields Tree.isPacked (snapshot cx s) s b ∧ Yields Tree.isPacked (some (t.index, sec, o)) s2 b) ∧
    (∃ is : List (Index T), Yields Tree.leftRoots (snapshot cx s) s (is.map fun i => some (i, cx.sec, 2 ^ 64 - 1)) ∧
      Yields Tree.leftRoots (some (t.index, sec, o)) s2 (is.map fun i => some (i, sec, 2 ^ 64 - 1))) ∧
    (∃ g, Yields Tree.dumpGraph (snapshot cx s) s g ∧ Yields Tree.dumpGraph (some (t.index, sec, o)) s2 g) := by
  have hsn := hr.snap ok hs sh
  have hout := hsn.outlined hk hsame
  have hw := hsn.wf t rfl
  refine ⟨⟨_, hsn.sees.isPacked ok.env, ?_⟩, ⟨(lefts t).map index, ?_, ?_⟩, ⟨_, hsn.dumpGraph ok.env, ?_⟩⟩
  · intro fuel hf
    obtain ⟨c, _, h2⟩ := isPacked0_reads ok.env fuel t s2 hout hw.counts hw.nonempty hco hf
    exact ⟨_, h2⟩
  · have := hsn.leftRoots ok.env
    unfold leftTrees at this
    rw [List.map_map]
    exact this
  · intro fuel hf
    unfold Tree.leftRoots
    obtain ⟨γ, _, h2⟩ := leftRoots0_reads ok.env fuel t s2 hout hw.counts hw.nonempty hco hf
    refine ⟨{ s2 with cache := γ }, ?_⟩
    simp only
    rw [bind_apply, h2]
    rfl
  · intro fuel hf
    obtain ⟨γ, _, h2⟩ := dumpGraph0_reads ok.env fuel t none 0 s2 hout hw.counts hco hf
    exact ⟨_, h2⟩

/-- C74: the same for `roots`. -/
theorem C74_roots (ok : cx.Ok) (hr : Reach cx s) (hs : Small E s) (sh : Shows cx s t) (hk : SameIndexKey sec cx.sec)
    (hsame : SameBlocks E s.store s2.store t.branches) (hroot : s2.root = s.root) (hco : Coherent E sec s2) :
    ∃ is, (∀ fuel, rootLevel s.root < fuel → ∃ s', roots cx fuel s = .ok is s') ∧
      ∀ fuel, rootLevel s.root < fuel → ∃ s', roots ⟨cx.cfg, sec⟩ fuel s2 = .ok is s' := by
  have hsn := hr.snap ok hs sh
  have hcnt := (hsn.wf t rfl).counts
  have key : ∀ (cy : Ctx E) (s' : St E), s'.root = some t.index → Outlined E cy.sec s'.store t → Coherent E cy.sec s' →
      ∀ fuel, t.index.level < fuel → ∃ s'', roots cy fuel s' = .ok ((rootsOf t i32max).2.map index) s'' := by
    intro cy s' hroot hout hco fuel hf
    obtain ⟨γ, _, h2⟩ := roots0_reads fuel t i32max [] s' hout hcnt hco hf
    refine ⟨{ s' with cache := γ }, ?_⟩
    have e : ∀ r, s'.root = r →
        roots cy fuel s' = (match r with | some index => rootsImpl cy.sec fuel index | none => pure [] : M E (List (Index T))) s' := by
      rintro _ rfl; rfl
    rw [e _ hroot]
    simp only [rootsImpl]
    rw [bind_apply, h2]
    simp only [List.nil_append]
    rfl
  rw [show rootLevel s.root = t.index.level by rw [sh.root]; rfl]
  exact ⟨_, key cx s sh.root (hsn.stored t rfl).outlined hsn.coherent, key ⟨cx.cfg, sec⟩ s2 (hroot.trans sh.root) (hsn.outlined hk hsame) hco⟩

/-! ### operations that only write branches -/

theorem SameIndexKey.persist {cfg : Config} {a b : Secrets E} (h : SameIndexKey a b) (items : List (Index T)) :
    persistBranch ⟨cfg, a⟩ items = persistBranch ⟨cfg, b⟩ items := by
  unfold persistBranch
  simp only
  rw [show a.indexKey = b.indexKey from h]

theorem SameIndexKey.loadOpt {a b : Secrets E} (h : SameIndexKey a b) (i : BranchIndex T) : loadBranchOpt a i = loadBranchOpt b i := by
  unfold loadBranchOpt loadBranch
  rw [h.load]

theorem SameIndexKey.retain0 {cfg : Config} {a b : Secrets E} (h : SameIndexKey a b) (q : Query T) (fuel : Nat) :
    Banyan.retain0 ⟨cfg, a⟩ q fuel = Banyan.retain0 ⟨cfg, b⟩ q fuel := by
  induction fuel with
  | zero => rfl
  | succ fuel ih =>
    funext o i l
    cases i with
    | leaf i => rfl
    | branch i =>
      unfold Banyan.retain0
      simp only
      rw [ih]
      simp only [h.loadOpt, h.persist]

/-- C74: `retain` does exactly the same for somebody without the key for the values. -/
theorem C74_retain (hk : SameIndexKey sec cx.sec) (fuel : Nat) (q : Query T) : retain ⟨cx.cfg, sec⟩ fuel q = retain cx fuel q := by
  unfold retain
  rw [show cx = ⟨cx.cfg, cx.sec⟩ from rfl, hk.retain0]

/-- C74: so does `load_stream_builder`. -/
theorem C74_load (hk : SameIndexKey sec cx.sec) (l : T.Link) : loadStreamBuilder ⟨cx.cfg, sec⟩ l = loadStreamBuilder cx l := by
  funext s
  unfold loadStreamBuilder createIndexFromLink
  simp only
  rw [show sec.indexKey = cx.sec.indexKey from hk]

/-- Branches are readable, leaves are leaves of another tree. -/
def Holding.outline (cx : Ctx E) (t : PTree T V) : Holding cx where
  S := fun σ n => OutlinedAt E cx.sec σ n ∧ ∀ i vs, n = .leaf i vs → n ∈ t.nodes
  mono := fun h hs => ⟨hs.1.mono h, hs.2⟩
  leaf := fun h => h.1
  branch := ⟨fun h => h.1, fun h => ⟨h, fun _ _ h => nomatch h⟩⟩
  purgedLeaf := ⟨fun h => h.1, fun h => ⟨h, fun _ _ h => nomatch h⟩⟩
  purgedBranch := ⟨fun h => h.1, fun h => ⟨h, fun _ _ h => nomatch h⟩⟩

theorem retain_outline {cy : Ctx E} (ok : cy.Ok) {q : Query T} {fuel : Nat} {R : Err → Prop} (hR : ∀ e, Allowed E cy.cfg (fun _ => False) e → R e)
    (hout : Outlined E cy.sec s2.store t) (hw : WF E t) (hroot : s2.root = some t.index) (hf : t.index.level < fuel) :
    Post (retain cy fuel q) s2 (fun _ s3 => ∃ t' l', s3.root = some t'.index ∧ GoodW (.outline cy t) (NodeInv.trivial cy) s3.store t' ∧
      Retained q 0 t i32max t' l') R := by
  unfold retain
  refine Post.getIndexBind ?_
  rw [hroot]
  simp only
  have hg : GoodW (.outline cy t) (NodeInv.trivial cy) s2.store t := fun n hn => ⟨⟨hout n hn, fun _ _ _ => hn⟩, hw n hn, trivial⟩
  refine Post.bind0 (cx := cy) (frame_retain0 ok.env q fuel 0 t.index i32max).frame0 (fun _ => frame0_setIndex _)
    (retain0_specW (H := .outline cy t) (I := NodeInv.trivial cy) ok.env ok.types ok.cfg (NodeInv.trivial_rewrites cy) hR q fuel t 0 i32max s2 hg hf) ?_
  rintro ⟨i, l⟩ s' hx _ ⟨t', h1, h2, h3⟩
  simp only at h1 h3 ⊢
  subst h1
  show Small E _ → _
  intro _
  exact ⟨t', l, rfl, h2, h3⟩

/-- C74: `retain` can be done by somebody who has only the blocks of the branches and no key for the values. If the blocks of the leaves are
available afterwards, somebody with the keys reads what C16 promises. -/
theorem C74_retain_without_values (ok : cx.Ok) (hr : Reach cx s) (hs : Small E s) (sh : Shows cx s t) {c : List (Option (T.Key × V))}
    (hc : Contains cx s c) (hk : SameIndexKey sec cx.sec) (hsame : SameBlocks E s.store s2.store t.branches) (hroot : s2.root = s.root)
    (q : Query T) (covers : T.Summary → T.Key → Prop) (p : Nat → T.Key → Bool) (hcov : Covering T covers) (hq : QueryFor q covers p)
    (fuel : Nat) (hf : rootLevel s.root < fuel) {s3 : St E} (he : retain ⟨cx.cfg, sec⟩ fuel q s2 = .ok () s3) (hs3 : Small E s3) :
    ∃ c', c'.length = c.length ∧
      (∀ n : Nat, c'[n]? = c[n]? ∨ (c'[n]? = some none ∧ ∀ k v, c[n]? = some (some (k, v)) → p n k = false)) ∧
      ∀ s4 : St E, s4.root = s3.root → StoreLe E s3.store s4.store → SameBlocks E s.store s4.store t.fullLeaves → Coherent E cx.sec s4 →
        Contains cx s4 c' := by
  have hsn := hr.snap ok hs sh
  have hw := hsn.wf t rfl
  have hcc := hc.unique (hsn.collect ok.env ok.types)
  subst hcc
  have okr : (⟨cx.cfg, sec⟩ : Ctx E).Ok := ⟨ok.env, ok.types, ok.cfg⟩
  rw [sh.root] at hf
  obtain ⟨t', l', h1, h2, h3⟩ := (retain_outline (cy := ⟨cx.cfg, sec⟩) (q := q) (R := fun _ => True) okr (fun _ _ => trivial)
    (hsn.outlined hk hsame) hw (hroot.trans sh.root) hf).ok he hs3
  have her := h3.erased covers p hcov hq
  refine ⟨t'.content, her.length_eq, fun n => ?_, ?_⟩
  · have := her.get n
    rwa [Nat.zero_add] at this
  · intro s4 g1 g2 g3 g4
    have hst : Stored E cx.sec s4.store t' := by
      intro n hn
      obtain ⟨⟨k1, k2⟩, _, _⟩ := h2 n hn
      cases n with
      | leaf i vs =>
        have hm := k2 i vs rfl
        exact StoredAt.congr (hsn.stored t rfl _ hm) fun l hl => g3 _ (List.mem_filter.mpr ⟨hm, rfl⟩) l hl
      | purgedLeaf i => exact k1
      | purgedBranch i => exact k1
      | branch i cs =>
        obtain ⟨l, r, m1, m2⟩ := k1
        simp only at m2
        rw [hk.load] at m2
        exact ⟨l, r, m1, loadBranchFromLink_mono g2 m2⟩
    have : Sees cx.sec (snapshot cx s4) t' s4 := ⟨⟨s4.offset, by unfold snapshot; rw [g1, h1]; rfl⟩, g4, hst, h2.counts, h2.wf.nonempty⟩
    exact this.collect ok.env ok.types

/-- C74: and it fails for them only for a cause outside of the tree. -/
theorem C74_retain_never_aborts (ok : cx.Ok) (hr : Reach cx s) (hs : Small E s) (sh : Shows cx s t) (hk : SameIndexKey sec cx.sec)
    (hsame : SameBlocks E s.store s2.store t.branches) (hroot : s2.root = s.root) (q : Query T) (fuel : Nat) (hf : rootLevel s.root < fuel)
    {e : Err} {s3 : St E} (he : retain ⟨cx.cfg, sec⟩ fuel q s2 = .error e s3) (hs3 : Small E s3) : Allowed E cx.cfg (fun _ => False) e := by
  have hsn := hr.snap ok hs sh
  rw [sh.root] at hf
  exact (retain_outline (cy := ⟨cx.cfg, sec⟩) (q := q) (R := Allowed E cx.cfg (fun _ => False)) ⟨ok.env, ok.types, ok.cfg⟩ (fun _ h => h)
    (hsn.outlined hk hsame) (hsn.wf t rfl) (hroot.trans sh.root) hf).err he hs3

/-! ### an example -/

/-- Somebody with another key for the values. -/
def outsider : Secrets env := ⟨(3 : Nat), (8 : Nat)⟩

theorem outsider_key : SameIndexKey outsider (ctx tiny).sec := rfl

/-- All blocks of leaves are missing. -/
theorem example74 : ((loaded tiny unpacked10).map fun t => avoids [0, 1, 3, 4, 7, 8] t.branches) = some true := by decide +kernel

example : ∃ is : List (Index types), is.length = 11 ∧
    (∃ bound, ∀ n fuel, bound ≤ fuel → ∃ s', Tree.indexes allQuery .forward idle n fuel (unpacked10.root.map fun r => (r, outsider, 0))
      (hole [0, 1, 3, 4, 7, 8] unpacked10) = .ok ((is.take n).map .ok) s') ∧
    ∃ b, Yields Tree.isPacked (snapshot (ctx tiny) unpacked10) unpacked10 b ∧
      Yields Tree.isPacked (unpacked10.root.map fun r => (r, outsider, 0)) (hole [0, 1, 3, 4, 7, 8] unpacked10) b := by
  have hx := example74
  have hn : ((loaded tiny unpacked10).map fun t => t.nodes.length) = some 11 := by decide +kernel
  cases ht : loaded tiny unpacked10 with
  | none => rw [ht] at hx; cases hx
  | some t =>
    rw [ht] at hx hn
    simp only [Option.map_some, Option.some.injEq] at hx hn
    have sh := shows_of_loaded tiny_ok unpacked10_reach unpacked10_small ht
    have hroot : unpacked10.root = some t.index := sh.root
    have hco : Coherent env outsider (hole [0, 1, 3, 4, 7, 8] unpacked10) := by intro l b h; cases h
    obtain ⟨bound, h2⟩ := C74_indexes (s2 := hole [0, 1, 3, 4, 7, 8] unpacked10) tiny_ok unpacked10_reach unpacked10_small sh outsider_key
      (sameBlocks_of _ _ _ hx) hco allQuery .forward 0
    have hs := C74_shape (s2 := hole [0, 1, 3, 4, 7, 8] unpacked10) tiny_ok unpacked10_reach unpacked10_small sh outsider_key
      (sameBlocks_of _ _ _ hx) hco 0
    rw [hroot]
    refine ⟨_, ?_, ⟨bound, fun n fuel hf => h2 idle n fuel (idle_harmless _) hf⟩, hs.1⟩
    have hall := congrArg List.length (C33_all tiny_ok unpacked10_reach unpacked10_small sh)
    rw [List.length_map] at hall ⊢
    exact hall.trans hn

/-- C74: the roots are listed without the values. -/
example : ∃ is, valueOf (roots (ctx tiny) 10) unpacked10 = some is ∧ (is.map fun i => i.count) = [4, 2] ∧
    valueOf (roots ⟨tiny, outsider⟩ 10) (hole [0, 1, 3, 4, 7, 8] unpacked10) = some is := by
  have key : ∀ {s s2 : St env} {t : PTree types Nat}, Reach (ctx tiny) s → Small env s → Shows (ctx tiny) s t → SameBlocks env s.store s2.store t.branches →
      s2.root = s.root → Coherent env outsider s2 → rootLevel s.root < 10 → ∃ is, valueOf (roots (ctx tiny) 10) s = some is ∧
        valueOf (roots ⟨tiny, outsider⟩ 10) s2 = some is := by
    intro s s2 t hr hs sh hb hroot hco hl
    obtain ⟨is, h1, h2⟩ := C74_roots tiny_ok hr hs sh outsider_key hb hroot hco
    obtain ⟨_, h1⟩ := h1 10 hl
    obtain ⟨_, h2⟩ := h2 10 hl
    have h2 : roots ⟨tiny, outsider⟩ 10 s2 = _ := h2
    exact ⟨is, by unfold valueOf; rw [h1], by unfold valueOf; rw [h2]⟩
  have hx := example74
  cases ht : loaded tiny unpacked10 with
  | none => rw [ht] at hx; cases hx
  | some t =>
    rw [ht] at hx
    simp only [Option.map_some, Option.some.injEq] at hx
    have hc : (valueOf (roots (ctx tiny) 10) unpacked10).map (fun is => is.map fun i => i.count) = some [4, 2] := by decide +kernel
    have hco : Coherent env outsider (hole [0, 1, 3, 4, 7, 8] unpacked10) := by intro l b h; cases h
    have hh : ∀ ns (s : St env), (hole ns s).root = s.root := fun _ _ => rfl
    obtain ⟨is, h1, h2⟩ := key (s2 := hole [0, 1, 3, 4, 7, 8] unpacked10) unpacked10_reach unpacked10_small
      (shows_of_loaded tiny_ok unpacked10_reach unpacked10_small ht) (sameBlocks_of _ _ _ hx) (hh _ _) hco (by decide +kernel)
    rw [h1] at hc
    exact ⟨is, h1, Option.some.inj hc, h2⟩

/-- The indexes for the keys from 3 to 4 are delivered without the blocks of the leaves and of the last branch. -/
theorem example66i : ((loaded tiny unpacked10).map fun t => avoids [0, 1, 3, 4, 7, 8, 9] (t.visited (keyRange 3 4) .backward)) = some true := by
  decide +kernel

example : ∃ is : List (Index types), is.length = 6 ∧
    ∃ bound, ∀ n fuel, bound ≤ fuel → ∃ s', Tree.indexes (keyRange 3 4) .backward idle n fuel (unpacked10.root.map fun r => (r, outsider, 0))
      (hole [0, 1, 3, 4, 7, 8, 9] unpacked10) = .ok ((is.take n).map .ok) s' := by
  have hx := example66i
  have hn : ((loaded tiny unpacked10).map fun t => (visits (keyRange 3 4) .backward t 0).length) = some 6 := by decide +kernel
  cases ht : loaded tiny unpacked10 with
  | none => rw [ht] at hx; cases hx
  | some t =>
    rw [ht] at hx hn
    simp only [Option.map_some, Option.some.injEq] at hx hn
    have sh := shows_of_loaded tiny_ok unpacked10_reach unpacked10_small ht
    have hroot : unpacked10.root = some t.index := sh.root
    have hco : Coherent env outsider (hole [0, 1, 3, 4, 7, 8, 9] unpacked10) := by intro l b h; cases h
    obtain ⟨bound, h2⟩ := C66_indexes (s2 := hole [0, 1, 3, 4, 7, 8, 9] unpacked10) tiny_ok unpacked10_reach unpacked10_small sh outsider_key
      (keyRange 3 4) .backward (sameBlocks_of _ _ _ hx) hco 0
    rw [hroot]
    exact ⟨_, by rw [List.length_map]; exact hn, bound, fun n fuel hf => h2 idle n fuel (idle_harmless _) hf⟩

/-- The values are not available to them: the blocks are missing, and where they are there the key does not fit. -/
example : elements tiny unpacked10 = some ((seq 0 10).map some) ∧
    errorOf (Tree.collect 20 (unpacked10.root.map fun r => (r, (ctx tiny).sec, 0))) (hole [0, 1, 3, 4, 7, 8] unpacked10) ≠ none ∧
    errorOf (Tree.collect 20 (unpacked10.root.map fun r => (r, outsider, 0))) unpacked10 ≠ none := by decide +kernel

/-- The first list, with missing blocks taken from the second one. -/
def fillIn : List (Option Bytes) → List (Option Bytes) → List (Option Bytes)
  | [], _ => []
  | b, [] => b
  | some x :: b, _ :: a => some x :: fillIn b a
  | none :: b, y :: a => y :: fillIn b a

theorem fillIn_le (b a : List (Option Bytes)) (l : Nat) (x : Bytes) (h : b[l]? = some (some x)) : (fillIn b a)[l]? = some (some x) := by
  induction b generalizing a l with
  | nil => cases h
  | cons y b ih =>
    cases a with
    | nil => cases y <;> exact h
    | cons z a =>
      cases l with
      | zero =>
        simp only [List.getElem?_cons_zero, Option.some.injEq] at h
        subst h
        rfl
      | succ l =>
        cases y <;> exact ih a l h

/-- The outsider retains one element, in a store without leaves. -/
def relayed : St env := endState (retain ⟨tiny, outsider⟩ 10 (keyRange 5 5)) (hole [0, 1, 3, 4, 7, 8] unpacked10)

/-- Then the blocks of the leaves are added. -/
def rejoin (a b : St env) : St env := { b with store := (⟨fillIn b.store.blocks a.store.blocks, 0⟩ : Store), cache := [] }

def rejoined : St env := rejoin unpacked10 relayed

theorem rejoin_le (a b : St env) : StoreLe env b.store (rejoin a b).store := by
  intro (l : Nat) x hx
  have hx : Store.get b.store l = .ok x := hx
  show Store.get (rejoin a b).store l = .ok x
  unfold Store.get at hx ⊢
  have key : b.store.blocks[l]? = some (some x) := by
    split at hx
    · rename_i y hy
      cases hx
      exact hy
    · cases hx
  show (match (fillIn b.store.blocks a.store.blocks)[l]? with | some (some b) => Except.ok b | _ => .error "not there") = _
  rw [fillIn_le _ _ l x key]

theorem rejoin_root (a b : St env) : (rejoin a b).root = b.root := rfl

theorem rejoin_coherent (a b : St env) : Coherent env (ctx tiny).sec (rejoin a b) := by intro l b h; cases h

theorem hole_root (ns : List Nat) (s : St env) : (hole ns s).root = s.root := rfl

theorem withRoom_hole_root (n : Nat) (ns : List Nat) (s : St env) : (withRoom n (hole ns s)).root = s.root := rfl

theorem sameBlocks_withRoom (n : Nat) {a : env.σ} {b : St env} {l : List (PTree types Nat)} (h : SameBlocks env a b.store l) :
    SameBlocks env a (withRoom n b).store l := h

/-- The blocks of the nodes are the same. -/
def agree (a b : Store) (l : List (PTree types Nat)) : Bool :=
  l.all fun n => match (show Option Nat from n.index.link) with | some l => decide (b.blocks[l]? = a.blocks[l]?) | none => true

theorem sameBlocks_of_agree {a b : Store} {l : List (PTree types Nat)} (h : agree a b l = true) : SameBlocks env a b l := by
  intro n hn k hk
  have h1 := List.all_eq_true.mp h n hn
  rw [show (show Option Nat from n.index.link) = some k from hk] at h1
  have h2 : b.blocks[(show Nat from k)]? = a.blocks[(show Nat from k)]? := by simpa using h1
  show Store.get b k = Store.get a k
  unfold Store.get
  rw [h2]

example : ∃ c' : List (Option (Nat × Nat)), c'.length = 10 ∧ c'[5]? = some (some (5, 50)) ∧ Contains (ctx tiny) rejoined c' := by
  have hx := example74
  have hy : ((loaded tiny unpacked10).map fun t => agree unpacked10.store rejoined.store t.fullLeaves) = some true := by decide +kernel
  cases ht : loaded tiny unpacked10 with
  | none => rw [ht] at hx; cases hx
  | some t =>
    rw [ht] at hx hy
    simp only [Option.map_some, Option.some.injEq] at hx hy
    have sh := shows_of_loaded tiny_ok unpacked10_reach unpacked10_small ht
    obtain ⟨c', h1, h2, h3⟩ := C74_retain_without_values (s2 := hole [0, 1, 3, 4, 7, 8] unpacked10) (s3 := relayed) tiny_ok unpacked10_reach
      unpacked10_small sh unpacked10_contains outsider_key (sameBlocks_of _ _ _ hx) (hole_root _ _) (keyRange 5 5) covers _ covering (keyRange_queryFor 5 5) 10
      (by decide +kernel) (ok_of_succeeds (by decide +kernel)) (small_of (by decide +kernel))
    refine ⟨c', h1, ?_, h3 rejoined (rejoin_root _ _) (rejoin_le _ _) (sameBlocks_of_agree hy) (rejoin_coherent _ _)⟩
    rcases h2 5 with h | ⟨_, h⟩
    · exact h
    · exact absurd (h (5 : Nat) 50 rfl) (by decide)

/-- Elements have really been removed. -/
example : elements tiny rejoined = some (List.replicate 4 none ++ (seq 4 6).map some) := by decide +kernel

/-- The store is full: `retain` fails, for this reason. -/
example : Allowed env tiny (fun _ => False) (.fail "full") := by
  have hx := example74
  cases ht : loaded tiny unpacked10 with
  | none => rw [ht] at hx; cases hx
  | some t =>
    rw [ht] at hx
    simp only [Option.map_some, Option.some.injEq] at hx
    have sh := shows_of_loaded tiny_ok unpacked10_reach unpacked10_small ht
    exact C74_retain_never_aborts (s2 := withRoom 0 (hole [0, 1, 3, 4, 7, 8] unpacked10)) tiny_ok unpacked10_reach unpacked10_small sh outsider_key
      (sameBlocks_withRoom 0 (sameBlocks_of _ _ _ hx)) (withRoom_hole_root _ _ _) (keyRange 5 5) 10 (by decide +kernel) (error_of (by decide +kernel)) (small_of (by decide +kernel))

end Banyan
