import Verif.Proofs.Shape
import Verif.Props.Pack
import Verif.Props.Nodes
import Verif.Props.Append
import Verif.Concrete.Load
/-
The shape of trees: C51, C53.
-/
set_option autoImplicit false
namespace Banyan

open PTree Concrete

variable {T : TreeTypes} {V : Type} {E : Env T V} {cx : Ctx E} {s s' : St E} {t : PTree T V}

/-! ### C51 -/

/-- C51: if no leaf was sealed because of its size, then the shape of a tree built by any sequence of `extend` calls is a function
of the configuration and the number of elements: the level is the smallest one (from 1) that has room for the elements, and all
nodes are full except for those on the right edge. -/
theorem C51_shape (ok : cx.Ok) {n : Nat} (hb : Extended cx s n) (hs : Small E s) (ht : Shows cx s t) (hl : LimitedByCount cx.cfg t) :
    ∃ l, 1 ≤ l ∧ n ≤ cx.cfg.capacity l ∧ (l = 1 ∨ cx.cfg.capacity (l - 1) < n) ∧ t.shape = cx.cfg.fullShape l n := by
  obtain ⟨t0, xs, h1, h2, h3, h4, h5⟩ := hb.spec ok hs
  obtain ⟨u, rfl⟩ : ∃ u, t0 = some u := by
    cases t0 with
    | none => have := ht.root; rw [h1.root] at this; cases this
    | some u => exact ⟨u, rfl⟩
  obtain rfl := ht.unique ok.env h1.shows
  have hg := h1.good t rfl
  have hnp : NoPurge t := noPurge_of_content hg.wf h4
  have hcl : CountLeaves cx.cfg t := by
    intro x hx
    cases x with
    | leaf i vs =>
      obtain ⟨_, w2, w3⟩ := C37_leaves ok hb.steady hs ht hx
      have hlen : T.keys.len i.keys = vs.length := (hg.wf _ hx).1
      show i.isSealed = (T.keys.len i.keys == cx.cfg.maxLeafCount)
      cases hse : i.isSealed with
      | true => rw [hl i vs hx hse]; simp
      | false =>
        obtain ⟨_, _, _, _, _, _, w4, _⟩ := w3.2
        have := (w4 hse).2.1
        symm
        rw [beq_eq_false_iff_ne]
        omega
    | _ => trivial
  have hn : t.index.count = n := by
    rw [← content_length ok.types hg.counts]
    show (optContent (some t)).length = n
    rw [h4, List.length_map, h5]
  have hwi := hb.steady.within ok hs ht
  obtain ⟨k1, k2, k3, k4⟩ := shape_spec hg.wf hwi hnp hcl h3.1 h2
  rw [hn] at k1 k2 k3 k4
  refine ⟨t.index.level, h3.2.2, k2, ?_, k4⟩
  by_cases hl1 : t.index.level = 1
  · exact .inl hl1
  · right
    cases t with
    | branch i cs =>
      have hlv : 2 ≤ i.level := by have := h3.2.2; simp only [index, Index.level] at this hl1; omega
      have hlen := h3.2.1 hlv
      obtain ⟨q1, q3, ⟨c0, hc0, q4⟩, q5, _, _, q8⟩ := PTree.All.root hg.wf
      have hsl : ∀ c ∈ cs, c.index.level + 1 = i.level := PTree.All.root h3.1
      have hsealed : i.isSealed = true → ∀ c ∈ cs, c.index.isSealed = true := by
        intro hs c hc
        exact ((q8 hs).1 c hc).1
      obtain ⟨init, last, rfl, hi, hpl⟩ := h2.parts q1 hsealed
      cases init with
      | nil => simp at hlen
      | cons a init =>
        have ha : a ∈ a :: init ++ [last] := by simp
        have hla : last ∈ a :: init ++ [last] := by simp
        have p1 := (shape_spec (PTree.All.child hg.wf ha) (PTree.All.child hwi ha) (PTree.All.child hnp ha) (PTree.All.child hcl ha) (PTree.All.child h3.1 ha)
          (closed_packed (hi a (by simp)))).2.2.1.mp (hi a (by simp))
        have p2 := (shape_spec (PTree.All.child hg.wf hla) (PTree.All.child hwi hla) (PTree.All.child hnp hla) (PTree.All.child hcl hla) (PTree.All.child h3.1 hla) hpl).1
        have p3 := hsl a ha
        show cx.cfg.capacity (i.level - 1) < n
        have p4 : i.count = n := hn
        rw [← p3, Nat.add_sub_cancel, ← p1, ← p4, q5]
        simp only [List.cons_append, List.map_cons, List.map_append, List.map_nil, List.sum_cons, List.sum_append, List.sum_nil]
        omega
    | leaf i vs => have := h3.2.2; simp only [index, Index.level] at this; omega
    | purgedLeaf i => have := h3.2.2; simp only [index, Index.level] at this; omega
    | purgedBranch i => exact absurd (PTree.All.root hnp) (by simp)

/-- C51: two trees built by `extend` with the same configuration and the same number of elements have the same shape, no matter how
the elements were split over the calls, which calls failed, and what the elements, the stores and the caches are. -/
theorem C51_same_shape {V' : Type} {E' : Env T V'} {cx' : Ctx E'} {u : St E'} {t' : PTree T V'} (ok : cx.Ok) (ok' : cx'.Ok)
    (hcfg : cx'.cfg = cx.cfg) {n : Nat} (hb : Extended cx s n) (hb' : Extended cx' u n) (hs : Small E s) (hs' : Small E' u) (ht : Shows cx s t)
    (ht' : Shows cx' u t') (hl : LimitedByCount cx.cfg t) (hl' : LimitedByCount cx.cfg t') : t'.shape = t.shape := by
  obtain ⟨l, h1, h2, h3, h4⟩ := C51_shape ok hb hs ht hl
  obtain ⟨l', g1, g2, g3, g4⟩ := C51_shape ok' hb' hs' ht' (by rw [hcfg]; exact hl')
  rw [hcfg] at g2 g3 g4
  have key : ∀ a b : Nat, a < b → 1 ≤ a → n ≤ cx.cfg.capacity a → (b = 1 ∨ cx.cfg.capacity (b - 1) < n) → False := by
    intro a b hab ha h1 h2
    have := capacity_mono ok.cfg (show a ≤ b - 1 by omega)
    omega
  have : l' = l := by
    rcases Nat.lt_trichotomy l l' with h | h | h
    · exact (key l l' h h1 h2 g3).elim
    · exact h.symm
    · exact (key l' l h g1 g2 h3).elim
  rw [g4, h4, this]

theorem Extended.regular (ok : cx.Ok) {n : Nat} (hb : Extended cx s n) (hs : Small E s) (ht : Shows cx s t) :
    Regular E cx.cfg t ∧ 1 ≤ t.index.level ∧ (2 ≤ t.index.level → ∃ i a b cs, t = .branch i (a :: b :: cs)) := by
  obtain ⟨t0, xs, h1, h2, h3, h4, h5⟩ := hb.spec ok hs
  obtain ⟨u, rfl⟩ : ∃ u, t0 = some u := by
    cases t0 with
    | none => have := ht.root; rw [h1.root] at this; cases this
    | some u => exact ⟨u, rfl⟩
  obtain rfl := ht.unique ok.env h1.shows
  have hg := h1.good t rfl
  refine ⟨⟨hg.wf, hb.steady.within ok hs ht, noPurge_of_content hg.wf h4, h3.1, h2⟩, h3.2.2, fun hl => ?_⟩
  cases t with
  | branch i cs =>
    have hlen := h3.2.1 hl
    match cs, hlen with
    | a :: b :: cs, _ => exact ⟨i, a, b, cs, rfl⟩
    | [_], hlen => simp at hlen
    | [], hlen => simp at hlen
  | leaf i vs => simp [index, Index.level] at hl
  | purgedLeaf i => simp [index, Index.level] at hl
  | purgedBranch i => exact absurd (PTree.All.root (noPurge_of_content hg.wf h4)) (by simp)

theorem fullLeaves_mono {cfg : Config} (hv : cfg.Valid) {a b : Nat} (h : a ≤ b) : cfg.fullLeaves a ≤ cfg.fullLeaves b := by
  induction h with
  | refl => exact Nat.le_refl _
  | @step m _ ih =>
    refine Nat.le_trans ih ?_
    rw [fullLeaves_succ]
    refine Nat.le_mul_of_pos_left _ ?_
    have h1 := hv.key
    have h2 := hv.summary
    unfold Config.maxBranches
    split <;> omega

/-- C51: whatever the reasons for which leaves were sealed, the level of a tree built by `extend` is the smallest one (from 1) that has room
for the leaves. -/
theorem C51_level (ok : cx.Ok) {n : Nat} (hb : Extended cx s n) (hs : Small E s) (ht : Shows cx s t) :
    1 ≤ t.index.level ∧ t.leafSizes.length ≤ cx.cfg.fullLeaves t.index.level ∧
      (t.index.level = 1 ∨ cx.cfg.fullLeaves (t.index.level - 1) < t.leafSizes.length) := by
  obtain ⟨hg, h1, h2⟩ := hb.regular ok hs ht
  refine ⟨h1, hg.leaves.2.1, ?_⟩
  by_cases hl : t.index.level = 1
  · exact .inl hl
  · right
    obtain ⟨i, a, b, cs, rfl⟩ := h2 (by omega)
    obtain ⟨l, init, last, g1, g2, g3, g4, _⟩ := hg.parts
    show cx.cfg.fullLeaves (i.level - 1) < (leafSizesL (a :: b :: cs)).length
    have ga := (g4 a (by simp)).1.leaves.2.2 (g3 a (by
      cases init with
      | nil => simp at g2
      | cons x init => simp at g2; simp [g2.1]))
    rw [(g4 a (by simp)).2] at ga
    have gb := (g4 b (by simp)).1.leaves.1
    rw [g1, Nat.add_sub_cancel, ← ga]
    simp only [leafSizesL, List.length_append]
    omega

/-- C51: trees built by `extend` that have the same leaves (i.e. as many elements in each of them) have the same shape. -/
theorem C51_same_leaves {V' : Type} {E' : Env T V'} {cx' : Ctx E'} {u : St E'} {t' : PTree T V'} (ok : cx.Ok) (ok' : cx'.Ok)
    (hcfg : cx'.cfg = cx.cfg) {n n' : Nat} (hb : Extended cx s n) (hb' : Extended cx' u n') (hs : Small E s) (hs' : Small E' u) (ht : Shows cx s t)
    (ht' : Shows cx' u t') (hl : t'.leafSizes = t.leafSizes) : t'.shape = t.shape := by
  obtain ⟨h1, h2, h3⟩ := C51_level ok hb hs ht
  obtain ⟨g1, g2, g3⟩ := C51_level ok' hb' hs' ht'
  rw [hcfg, hl] at g2 g3
  have key : ∀ a b m : Nat, a < b → 1 ≤ a → m ≤ cx.cfg.fullLeaves a → (b = 1 ∨ cx.cfg.fullLeaves (b - 1) < m) → False := by
    intro a b m hab ha h1 h2
    have := fullLeaves_mono ok.cfg (show a ≤ b - 1 by omega)
    omega
  have hlv : t'.index.level = t.index.level := by
    rcases Nat.lt_trichotomy t.index.level t'.index.level with h | h | h
    · exact (key _ _ _ h h1 h2 g3).elim
    · exact h.symm
    · exact (key _ _ _ h g1 g2 h3).elim
  exact (hb.regular ok hs ht).1.same (hcfg ▸ (hb'.regular ok' hs' ht').1) hlv hl

/-! ### C53 -/

mutual
theorem cut_nodes {t : PTree T V} {rs : List (PTree T V)} (h : t.Cut rs) : ∀ r ∈ rs, r ∈ t.nodes := by
  cases h with
  | whole =>
    intro r hr
    rw [List.mem_singleton] at hr
    exact hr ▸ self_mem_nodes t
  | split i cs rs h =>
    intro r hr
    obtain ⟨c, hc, hr⟩ := cutL_nodes h r hr
    exact mem_nodes_branch.mpr (.inr ⟨c, hc, hr⟩)
theorem cutL_nodes {cs : List (PTree T V)} {rs : List (PTree T V)} (h : CutL cs rs) : ∀ r ∈ rs, ∃ c ∈ cs, r ∈ c.nodes := by
  cases h with
  | nil => intro r hr; cases hr
  | cons c cs rs rs' h1 h2 =>
    intro r hr
    rcases List.mem_append.mp hr with hr | hr
    · exact ⟨c, by simp, cut_nodes h1 r hr⟩
    · obtain ⟨c', hc', hr⟩ := cutL_nodes h2 r hr
      exact ⟨c', by simp [hc'], hr⟩
end

theorem PackedPart.nodes {rs : List (PTree T V)} (h : PackedPart t rs) : ∀ r ∈ rs, r ∈ t.nodes := by
  obtain ⟨more, h⟩ := h.start
  exact fun r hr => cut_nodes h r (List.mem_append_left _ hr)

/-- C53 for `extend`: all sealed nodes of the tree, with their links and all that is below them, are still part of the tree. -/
theorem C53_extend (ok : cx.Ok) (hr : Reach cx s) (fuel : Nat) (xs : List (T.Key × V)) (hf : rootLevel s.root < fuel)
    (hn : rootCount s.root + xs.length ≤ maxElements) (he : extend cx fuel xs s = .ok () s') (hs : Small E s') (ht : Shows cx s t) :
    ∃ t', Shows cx s' t' ∧ ∀ n ∈ t.nodes, n.index.isSealed = true → n ∈ t'.nodes := by
  obtain ⟨t0, hi⟩ := ok.inv hr (((frame0_extend ok.env fuel xs).ok he).small hs)
  obtain rfl := hi.shows ok.env ht
  have h1 := hi.level
  have h2 := hi.count
  have h3 := rootCount_eq ok.types hi.holds
  have hm : maxElements = 2147483645 := rfl
  have hu : u32max = 4294967295 := rfl
  obtain ⟨t', k1, _, _, _, k5, _⟩ := (extend_spec (I := NodeInv.trivial cx) (vals := fun _ => True) (R := fun _ => True)
    ok.env ok.types ok.cfg (fun _ _ => trivial) fuel xs (some t) s hi.holds (fun _ _ => trivial) hf (by omega) (Or.inr fun _ => trivial)).ok he hs
  cases t' with
  | none => exact absurd k5 (by simp [OptKeeps])
  | some t' => exact ⟨t', k1.shows, k5⟩

/-- C53 for `extend_unpacked`: the same. -/
theorem C53_extendUnpacked (ok : cx.Ok) (hr : Reach cx s) (fuel : Nat) (xs : List (T.Key × V))
    (hn : rootCount s.root + xs.length ≤ maxElements) (he : extendUnpacked cx fuel xs s = .ok () s') (hs : Small E s') (ht : Shows cx s t) :
    ∃ t', Shows cx s' t' ∧ ∀ n ∈ t.nodes, n.index.isSealed = true → n ∈ t'.nodes := by
  obtain ⟨t0, hi⟩ := ok.inv hr (((frame0_extendUnpacked ok.env fuel xs).ok he).small hs)
  obtain rfl := hi.shows ok.env ht
  have h2 := hi.count
  have h3 := rootCount_eq ok.types hi.holds
  have hm : maxElements = 2147483645 := rfl
  have hu : u32max = 4294967295 := rfl
  obtain ⟨t', k1, _, k5, _⟩ := (extendUnpacked_spec (I := NodeInv.trivial cx) (vals := fun _ => True) (R := fun _ => True)
    ok.env ok.types ok.cfg (fun _ _ => trivial) fuel xs (some t) s hi.holds (fun _ _ => trivial) (by omega)).ok he hs
  cases t' with
  | none => exact absurd k5 (by simp [OptKeeps])
  | some t' => exact ⟨t', k1.shows, k5⟩

/-- C53 for `pack`: the packed part at the start of the tree (sealed subtrees next to each other which get smaller to the right), with
all links and all that is below, is still part of the tree. -/
theorem C53_pack (ok : cx.Ok) (hr : Reach cx s) (fuel : Nat) (hf : rootLevel s.root < fuel) (he : pack cx fuel s = .ok () s') (hs : Small E s')
    (ht : Shows cx s t) {rs : List (PTree T V)} (hp : PackedPart t rs) :
    ∃ t', Shows cx s' t' ∧ ∀ r ∈ rs, ∀ n ∈ r.nodes, n ∈ t'.nodes := by
  obtain ⟨t0, hi⟩ := ok.inv hr (((frame0_pack ok.env fuel).ok he).small hs)
  obtain rfl := hi.shows ok.env ht
  have h1 := hi.level
  have h2 := hi.count
  have h3 := hi.holds.level
  have hm : maxElements = 2147483645 := rfl
  have hu : u32max = 4294967295 := rfl
  have hi32 : i32max = 2147483647 := rfl
  obtain ⟨t', k1, k2, _, _, k5, _⟩ := (pack_spec (I := NodeInv.trivial cx) (R := fun _ => True) ok.env ok.types ok.cfg
    fuel (some t) (fun _ _ => trivial) s hi.holds hi.purge hf (by omega) (by omega)).ok he hs
  have hin := hp.inside (hi.holds.good t rfl).wf.descends i32max (by omega)
  have hne : 0 < t.content.length := by
    rw [content_length ok.types (hi.holds.good t rfl).counts]
    exact WF.count_pos (hi.holds.good t rfl).wf
  cases t' with
  | none =>
    have : t.content = [] := k2.symm
    rw [this] at hne
    exact absurd hne (by simp)
  | some t' =>
    refine ⟨t', k1.shows, fun r hr n hn => ?_⟩
    obtain ⟨g, hg, hm⟩ := hin r hr
    have hgs : g.index.isSealed = true := (optRoots_info t).sealed g hg
    exact nodes_trans (nodes_trans (k5 g hg g (self_mem_nodes g) hgs) hm) hn

/-! ### examples -/

theorem start_extended (room : Nat) : Extended (ctx tiny) (start room) 0 := .fresh _ rfl (by intro l b h; cases h)

theorem packed7_extended : Extended (ctx tiny) packed7 7 :=
  Extended.extend (cx := ctx tiny) 10 (seq 0 7) (start_extended 100) (by decide +kernel) (by decide +kernel) packed7_ok

/-- Seven other elements, in three steps. -/
def steps1 : St env := endState (extend (ctx tiny) 10 (seq 20 3)) (start 50)
def steps2 : St env := endState (extend (ctx tiny) 10 (seq 30 1)) steps1
def steps7 : St env := endState (extend (ctx tiny) 10 (seq 40 3)) steps2

theorem steps1_ok : extend (ctx tiny) 10 (seq 20 3) (start 50) = .ok () steps1 := ok_of_succeeds (by decide +kernel)
theorem steps2_ok : extend (ctx tiny) 10 (seq 30 1) steps1 = .ok () steps2 := ok_of_succeeds (by decide +kernel)
theorem steps7_ok : extend (ctx tiny) 10 (seq 40 3) steps2 = .ok () steps7 := ok_of_succeeds (by decide +kernel)

theorem steps7_extended : Extended (ctx tiny) steps7 7 :=
  Extended.extend (cx := ctx tiny) 10 (seq 40 3)
    (Extended.extend (cx := ctx tiny) 10 (seq 30 1)
      (Extended.extend (cx := ctx tiny) 10 (seq 20 3) (start_extended 50) (by decide +kernel) (by decide +kernel) steps1_ok)
      (by decide +kernel) (by decide +kernel) steps2_ok)
    (by decide +kernel) (by decide +kernel) steps7_ok

theorem shows_of_loaded {cfg : Config} (ok : (ctx cfg).Ok) {s : St env} (hr : Reach (ctx cfg) s) (hs : Small env s)
    {u : PTree types Nat} (h : loaded cfg s = some u) : Shows (ctx cfg) s u := by
  have hl := loaded_spec ok hr hs (by rw [h]; rfl)
  rw [h] at hl
  exact ⟨hl.root, hl.stored u rfl⟩

/-- Only full leaves are sealed. -/
def limitedB (t : PTree types Nat) : Bool :=
  t.nodes.all fun
    | .leaf i _ => !i.isSealed || decide (types.keys.len i.keys = 2)
    | _ => true

theorem limited_of {t : PTree types Nat} (h : limitedB t = true) : LimitedByCount tiny t := by
  intro i vs hm hs
  have := List.all_eq_true.mp h _ hm
  simp only [hs, Bool.not_true, Bool.false_or, decide_eq_true_eq] at this
  exact this

/-- C51: the hypotheses hold for seven elements in one and in three steps, and the trees have the same shape. -/
example : ∃ t u : PTree types Nat, Shows (ctx tiny) packed7 t ∧ Shows (ctx tiny) steps7 u ∧ u.shape = t.shape ∧
    ∃ l, 1 ≤ l ∧ 7 ≤ tiny.capacity l ∧ (l = 1 ∨ tiny.capacity (l - 1) < 7) ∧ t.shape = tiny.fullShape l 7 := by
  have h1 : (match loaded tiny packed7 with | some t => limitedB t | none => false) = true := by decide +kernel
  have h2 : (match loaded tiny steps7 with | some t => limitedB t | none => false) = true := by decide +kernel
  have hs2 : Small env steps7 := small_of (by decide +kernel)
  cases ht : loaded tiny packed7 with
  | none => rw [ht] at h1; cases h1
  | some t =>
    cases hu : loaded tiny steps7 with
    | none => rw [hu] at h2; cases h2
    | some u =>
      rw [ht] at h1
      rw [hu] at h2
      have st := shows_of_loaded tiny_ok packed7_reach packed7_small ht
      have su := shows_of_loaded tiny_ok (steps7_extended.reach tiny_valid) hs2 hu
      exact ⟨t, u, st, su,
        C51_same_shape (cx := ctx tiny) (cx' := ctx tiny) (s := packed7) (u := steps7) tiny_ok tiny_ok rfl packed7_extended steps7_extended packed7_small hs2 st su (limited_of h1)
          (limited_of h2),
        C51_shape tiny_ok packed7_extended packed7_small st (limited_of h1)⟩

/-- C51: seven elements in leaves of two elements and branches of two children need level 2 at least, and get it. -/
example : tiny.capacity 1 = 4 ∧ tiny.capacity 2 = 8 := by decide

/-- A configuration in which leaves are sealed because of their compressed size. -/
def sizeLimited : Config := { tiny with maxLeafCount := 10, targetLeafSize := 2 * (encV 0).length + 1 }

theorem sizeLimited_ok : (ctx sizeLimited).Ok := ⟨env_lawful, types_lawful, by refine ⟨?_, ?_, ?_, ?_⟩ <;> decide⟩

theorem extended_step {cfg : Config} {s : St env} {n : Nat} (h : Extended (ctx cfg) s n) (xs : List (Nat × Nat))
    (h1 : rootLevel s.root < 10) (h2 : rootCount s.root + xs.length ≤ maxElements) (h3 : succeeds (extend (ctx cfg) 10 xs) s = true) :
    Extended (ctx cfg) (endState (extend (ctx cfg) 10 xs) s) (n + xs.length) :=
  Extended.extend (cx := ctx cfg) 10 xs h h1 h2 (ok_of_succeeds h3)

theorem fresh_extended (cfg : Config) (room : Nat) : Extended (ctx cfg) (start room) 0 := .fresh _ rfl (by intro l b h; cases h)

/-- Nine elements in one step, and in three steps. -/
def sized9 : St env := endState (extend (ctx sizeLimited) 10 (seq 0 9)) (start 50)
def sized3 : St env := endState (extend (ctx sizeLimited) 10 (seq 0 3)) (start 50)
def sized33 : St env := endState (extend (ctx sizeLimited) 10 (seq 3 3)) sized3
def sized333 : St env := endState (extend (ctx sizeLimited) 10 (seq 6 3)) sized33

theorem sized9_extended : Extended (ctx sizeLimited) sized9 9 :=
  extended_step (fresh_extended _ 50) (seq 0 9) (by decide +kernel) (by decide +kernel) (by decide +kernel)

theorem sized333_extended : Extended (ctx sizeLimited) sized333 9 :=
  extended_step (extended_step (extended_step (fresh_extended _ 50) (seq 0 3) (by decide +kernel) (by decide +kernel) (by decide +kernel))
    (seq 3 3) (by decide +kernel) (by decide +kernel) (by decide +kernel)) (seq 6 3) (by decide +kernel) (by decide +kernel) (by decide +kernel)

/-- C51: trees with leaves that were sealed because of their size (not of three elements, but of seven bytes or more), of the same shape. -/
example : ∃ t u : PTree types Nat, Shows (ctx sizeLimited) sized9 t ∧ Shows (ctx sizeLimited) sized333 u ∧
    t.leafSizes = [(3, true), (3, true), (3, true)] ∧ t.index.level = 2 ∧ u.shape = t.shape := by
  have h1 : (loaded sizeLimited sized9).map PTree.leafSizes = some [(3, true), (3, true), (3, true)] := by decide +kernel
  have h2 : (loaded sizeLimited sized333).map PTree.leafSizes = some [(3, true), (3, true), (3, true)] := by decide +kernel
  have h3 : (loaded sizeLimited sized9).map (fun t => t.index.level) = some 2 := by decide +kernel
  have hs1 : Small env sized9 := small_of (by decide +kernel)
  have hs2 : Small env sized333 := small_of (by decide +kernel)
  cases ht : loaded sizeLimited sized9 with
  | none => rw [ht] at h1; cases h1
  | some t =>
    cases hu : loaded sizeLimited sized333 with
    | none => rw [hu] at h2; cases h2
    | some u =>
      rw [ht, Option.map_some, Option.some.injEq] at h1 h3
      rw [hu, Option.map_some, Option.some.injEq] at h2
      have st := shows_of_loaded sizeLimited_ok (sized9_extended.reach sizeLimited_ok.cfg) hs1 ht
      have su := shows_of_loaded sizeLimited_ok (sized333_extended.reach sizeLimited_ok.cfg) hs2 hu
      exact ⟨t, u, st, su, h1, h3, C51_same_leaves (cx := ctx sizeLimited) (cx' := ctx sizeLimited) sizeLimited_ok sizeLimited_ok rfl sized9_extended sized333_extended
        hs1 hs2 st su (h2.trans h1.symm)⟩

/-- The content, with the types spelled out. -/
def pairsOf (t : PTree types Nat) : List (Option (Nat × Nat)) := t.content

/-- Three elements in two steps. -/
def sized2 : St env := endState (extend (ctx sizeLimited) 10 (seq 0 2)) (start 50)
def sized21 : St env := endState (extend (ctx sizeLimited) 10 (seq 2 1)) sized2
/-- The same elements in one step. -/
def sizedThree : St env := endState (extend (ctx sizeLimited) 10 (seq 0 3)) (start 50)

/-- C51: `LimitedByCount` is needed for `C51_same_shape`. With leaves that are sealed because of their size, the leaves depend on how the
elements were split over the calls, since the size is compared before the compressor has finished, except at the end of a call. -/
theorem C51_calls_matter : ∃ (s u : St env) (t t' : PTree types Nat), Extended (ctx sizeLimited) s 3 ∧ Extended (ctx sizeLimited) u 3 ∧
    Shows (ctx sizeLimited) s t ∧ Shows (ctx sizeLimited) u t' ∧ t'.content = t.content ∧ t'.leafSizes ≠ t.leafSizes := by
  have h1 : (loaded sizeLimited sizedThree).map (fun t => (t.leafSizes, pairsOf t)) = some ([(3, true)], (seq 0 3).map some) := by decide +kernel
  have h2 : (loaded sizeLimited sized21).map (fun t => (t.leafSizes, pairsOf t)) = some ([(2, true), (1, false)], (seq 0 3).map some) := by decide +kernel
  have e1 : Extended (ctx sizeLimited) sizedThree 3 :=
    extended_step (fresh_extended _ 50) (seq 0 3) (by decide +kernel) (by decide +kernel) (by decide +kernel)
  have e2 : Extended (ctx sizeLimited) sized21 3 :=
    extended_step (extended_step (fresh_extended _ 50) (seq 0 2) (by decide +kernel) (by decide +kernel) (by decide +kernel))
      (seq 2 1) (by decide +kernel) (by decide +kernel) (by decide +kernel)
  have hs1 : Small env sizedThree := small_of (by decide +kernel)
  have hs2 : Small env sized21 := small_of (by decide +kernel)
  cases ht : loaded sizeLimited sizedThree with
  | none => rw [ht] at h1; cases h1
  | some t =>
    cases hu : loaded sizeLimited sized21 with
    | none => rw [hu] at h2; cases h2
    | some u =>
      rw [ht, Option.map_some, Option.some.injEq, Prod.mk.injEq] at h1
      rw [hu, Option.map_some, Option.some.injEq, Prod.mk.injEq] at h2
      refine ⟨sizedThree, sized21, t, u, e1, e2, shows_of_loaded sizeLimited_ok (e1.reach sizeLimited_ok.cfg) hs1 ht,
        shows_of_loaded sizeLimited_ok (e2.reach sizeLimited_ok.cfg) hs2 hu, h2.2.trans h1.2.symm, ?_⟩
      rw [h1.1, h2.1]
      decide

/-- The two sealed subtrees at the start of the tree of ten elements: a branch with four elements and a leaf with two. -/
def part10 : Option (PTree types Nat) → Option (PTree types Nat × PTree types Nat)
  | some (.branch _ [.branch _ [b, .branch _ [l, _]], _]) =>
    if b.index.isSealed = true ∧ l.index.isSealed = true ∧ l.index.level ≤ b.index.level then some (b, l) else none
  | _ => none

theorem part10_spec {t b l : PTree types Nat} (h : part10 (some t) = some (b, l)) : PackedPart t [b, l] := by
  unfold part10 at h
  split at h
  · rename_i heq
    cases heq
    split at h
    · rename_i hc
      cases h
      refine ⟨⟨_, .split _ _ _ (.cons _ _ [b, l, _] [_] (.split _ _ _ (.cons _ _ [b] [l, _] (.whole _)
        (.cons _ _ [l, _] [] (.split _ _ _ (.cons _ _ [l] [_] (.whole _) (.cons _ _ [_] [] (.whole _) .nil))) .nil)))
        (.cons _ _ [_] [] (.whole _) .nil))⟩, ?_, ?_⟩
      · intro r hr
        simp only [List.mem_cons, List.not_mem_nil, or_false] at hr
        rcases hr with rfl | rfl
        · exact hc.1
        · exact hc.2.1
      · simpa using hc.2.2
    · cases h
  · cases h

/-- C53: three elements appended to the tree of ten elements, with and without packing, and packing the result. -/
example : ∃ t b l t' t'' : PTree types Nat, Shows (ctx tiny) unpacked10 t ∧ PackedPart t [b, l] ∧ b.index.count = 4 ∧ l.index.count = 2 ∧
    Shows (ctx tiny) (endState (pack (ctx tiny) 10) unpacked10) t' ∧ b ∈ t'.nodes ∧ l ∈ t'.nodes ∧
    Shows (ctx tiny) (endState (extendUnpacked (ctx tiny) 10 (seq 0 3)) unpacked10) t'' ∧ b ∈ t''.nodes ∧ l ∈ t''.nodes := by
  have h1 : (match part10 (loaded tiny unpacked10) with | some (b, l) => decide (b.index.count = 4 ∧ l.index.count = 2) | none => false) = true := by
    decide +kernel
  cases ht : loaded tiny unpacked10 with
  | none => rw [ht] at h1; cases h1
  | some t =>
    rw [ht] at h1
    cases hbl : part10 (some t) with
    | none => rw [hbl] at h1; cases h1
    | some bl =>
      obtain ⟨b, l⟩ := bl
      rw [hbl] at h1
      have h1 := of_decide_eq_true h1
      have hp := part10_spec hbl
      have st := shows_of_loaded tiny_ok unpacked10_reach unpacked10_small ht
      have hin : ∀ r ∈ [b, l], r ∈ t.nodes := by
        obtain ⟨t0, hi⟩ := tiny_ok.inv unpacked10_reach unpacked10_small
        obtain rfl := hi.shows tiny_ok.env st
        exact hp.nodes
      obtain ⟨t', k1, k2⟩ := C53_pack (cx := ctx tiny) (s := unpacked10) (s' := endState (pack (ctx tiny) 10) unpacked10) tiny_ok
        unpacked10_reach 10 (by decide +kernel) (ok_of_succeeds (by decide +kernel)) (small_of (by decide +kernel)) st hp
      obtain ⟨t'', g1, g2⟩ := C53_extendUnpacked (cx := ctx tiny) (s := unpacked10)
        (s' := endState (extendUnpacked (ctx tiny) 10 (seq 0 3)) unpacked10) tiny_ok unpacked10_reach 10 (seq 0 3) (by decide +kernel)
        (ok_of_succeeds (by decide +kernel)) (small_of (by decide +kernel)) st
      exact ⟨t, b, l, t', t'', st, hp, h1.1, h1.2, k1, k2 b (by simp) b (self_mem_nodes b), k2 l (by simp) l (self_mem_nodes l),
        g1, g2 b (hin b (by simp)) (hp.sealed b (by simp)), g2 l (hin l (by simp)) (hp.sealed l (by simp))⟩

/-- C53: three elements appended to the packed tree of seven elements. -/
example : ∃ t t' : PTree types Nat, Shows (ctx tiny) packed7 t ∧ (t.nodes.filter fun n => n.index.isSealed).length = 4 ∧
    Shows (ctx tiny) (endState (extend (ctx tiny) 10 (seq 7 3)) packed7) t' ∧ ∀ n ∈ t.nodes, n.index.isSealed = true → n ∈ t'.nodes := by
  have h1 : (match loaded tiny packed7 with | some t => decide ((t.nodes.filter fun n => n.index.isSealed).length = 4) | none => false) = true := by
    decide +kernel
  cases ht : loaded tiny packed7 with
  | none => rw [ht] at h1; cases h1
  | some t =>
    rw [ht] at h1
    have st := shows_of_loaded tiny_ok packed7_reach packed7_small ht
    obtain ⟨t', k1, k2⟩ := C53_extend (cx := ctx tiny) (s := packed7) (s' := endState (extend (ctx tiny) 10 (seq 7 3)) packed7) tiny_ok
      packed7_reach 10 (seq 7 3) (by decide +kernel) (by decide +kernel) (ok_of_succeeds (by decide +kernel)) (small_of (by decide +kernel)) st
    exact ⟨t, t', st, of_decide_eq_true h1, k1, k2⟩

end Banyan
