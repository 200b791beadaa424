import Verif.Proofs.Graph
import Verif.Props.Index
import Verif.Props.Stream
/-
Snapshots, left roots, the dump of a tree: C15, C41, C42.
-/
set_option autoImplicit false
namespace Banyan

open PTree Concrete

variable {T : TreeTypes} {V : Type} {E : Env T V} {cx : Ctx E} {s s' : St E} {t : PTree T V} {c : List (Option (T.Key × V))} {X : Type}

theorem HoldsI.later {I : NodeInv cx} (h : E.Lawful) {t : Option (PTree T V)} (hh : HoldsI I s t) (hl : Later cx.sec s s') : Snap cx s t s' := by
  obtain ⟨h1, h2⟩ := hl.ext h
  exact ⟨hh.root, h2 hh.coherent, fun t' ht => ((hh.good t' ht).mono h1).stored, fun t' ht => (hh.good t' ht).wf⟩

/-- The left roots of an optional tree, as trees. -/
def leftTrees (sec : Secrets E) : Option (PTree T V) → List (Tree E)
  | some t => (lefts t).map fun x => some (x.index, sec, 2 ^ 64 - 1)
  | none => []

theorem Snap.leftRoots (h : E.Lawful) {t : Option (PTree T V)} (hs : Snap cx s t s') : Yields Tree.leftRoots (snapshot cx s) s'
    (leftTrees cx.sec t) := by
  intro fuel hf
  rw [snapshot_level] at hf
  unfold Tree.leftRoots snapshot
  have hr := hs.root
  cases t with
  | none => rw [hr]; exact ⟨s', rfl⟩
  | some t =>
    rw [hs.level] at hf
    rw [hr]
    obtain ⟨γ, _, h2⟩ := leftRoots0_reads h fuel t s' (hs.stored t rfl).outlined (hs.wf t rfl).counts (hs.wf t rfl).nonempty hs.coherent hf
    refine ⟨{ s' with cache := γ }, ?_⟩
    simp only [Option.map_some]
    rw [bind_apply, h2]
    show EStateM.Result.ok _ _ = _
    rw [List.map_map]
    rfl

theorem Snap.dumpGraph (h : E.Lawful) {t : PTree T V} (hs : Snap cx s (some t) s') :
    Yields Tree.dumpGraph (snapshot cx s) s' (edgesOf t 0, numbered 0 t.nodes) := by
  intro fuel hf
  rw [snapshot_level] at hf
  unfold Tree.dumpGraph snapshot
  have hr := hs.root
  rw [hs.level] at hf
  rw [hr]
  obtain ⟨γ, _, h2⟩ := dumpGraph0_reads h fuel t none 0 s' (hs.stored t rfl).outlined (hs.wf t rfl).counts hs.coherent hf
  exact ⟨_, h2⟩

/-! ### C15 -/

/-- C15: whatever happens after a snapshot of a reachable state has been taken, the read operations on it succeed with the same results
as before. -/
theorem C15_reads (ok : cx.Ok) (hr : Reach cx s) (hs : Small E s) (hl : Later cx.sec s s') :
    SameResult Tree.collect (snapshot cx s) s s' ∧
    (∀ o, SameResult (fun fuel t => Tree.collectFrom fuel t o) (snapshot cx s) s s') ∧
    (∀ o, SameResult (fun fuel t => Tree.get fuel t o) (snapshot cx s) s s') ∧
    SameResult Tree.isPacked (snapshot cx s) s s' ∧
    SameResult Tree.leftRoots (snapshot cx s) s s' ∧
    (s.root ≠ none → SameResult Tree.dumpGraph (snapshot cx s) s s') := by
  obtain ⟨t, hi⟩ := ok.inv hr hs
  have h1 := hi.holds.snap
  have h2 := hi.holds.later ok.env hl
  refine ⟨⟨_, h1.collect ok.env ok.types, h2.collect ok.env ok.types⟩, fun o => ⟨_, h1.collectFrom ok.env ok.types o, h2.collectFrom ok.env ok.types o⟩,
    fun o => ⟨_, h1.get ok.env ok.types o, h2.get ok.env ok.types o⟩, ⟨_, h1.isPacked ok.env, h2.isPacked ok.env⟩,
    ⟨_, h1.leftRoots ok.env, h2.leftRoots ok.env⟩, fun hn => ?_⟩
  cases t with
  | none => exact absurd hi.holds.root hn
  | some t => exact ⟨_, h1.dumpGraph ok.env, h2.dumpGraph ok.env⟩

/-- C15: the iterators over the chunks and over the indexes deliver the same as before. -/
theorem C15_iterators (ok : cx.Ok) (hr : Reach cx s) (hs : Small E s) (hl : Later cx.sec s s') (q : Query T) (mode : Mode) (mkExtra : Index T → X) :
    (∃ chunks, Delivers (fun between n fuel t => Tree.chunks q mode mkExtra between n fuel t) cx.sec (snapshot cx s) s chunks ∧
      Delivers (fun between n fuel t => Tree.chunks q mode mkExtra between n fuel t) cx.sec (snapshot cx s) s' chunks) ∧
    (∃ indexes, Enumerates (fun between n fuel t => Tree.indexes q mode between n fuel t) cx.sec (snapshot cx s) s indexes ∧
      Enumerates (fun between n fuel t => Tree.indexes q mode between n fuel t) cx.sec (snapshot cx s) s' indexes) := by
  obtain ⟨t, hi⟩ := ok.inv hr hs
  have h1 := hi.holds.snap
  have h2 := hi.holds.later ok.env hl
  refine ⟨⟨_, h1.chunks ok.env ok.types mode, h2.chunks ok.env ok.types mode⟩, ?_⟩
  cases t with
  | some t => exact ⟨_, h1.indexes ok.env ok.types mode, h2.indexes ok.env ok.types mode⟩
  | none =>
    have hn : s.root = none := hi.holds.root
    have key : ∀ x : St E, Enumerates (fun between n fuel t => Tree.indexes q mode between n fuel t) cx.sec (snapshot cx s) x [] := by
      refine fun x => ⟨0, fun between n fuel _ _ => ⟨x, ?_⟩⟩
      unfold Tree.indexes snapshot
      rw [hn, List.take_nil]
      rfl
    exact ⟨[], key s, key s'⟩

/-- C15: the iterators over the elements deliver the same as before. -/
theorem C15_elements (ok : cx.Ok) (hr : Reach cx s) (hs : Small E s) (hl : Later cx.sec s s') (q : Query T) (mode : Mode)
    (between between' : Nat → St E → St E) (hb : Harmless cx.sec between) (hb' : Harmless cx.sec between') (n fuel fuel' : Nat)
    (hf : 2 * rootLevel s.root + 4 ≤ fuel) (hf' : 2 * rootLevel s.root + 4 ≤ fuel') :
    ∃ (r : List (Nat × T.Key × V)) (s1 s2 : St E), Tree.elements q mode between n fuel (snapshot cx s) s = .ok (r.map .ok) s1 ∧
      Tree.elements q mode between' n fuel' (snapshot cx s) s' = .ok (r.map .ok) s2 := by
  obtain ⟨⟨chunks, h1, h2⟩, _⟩ := C15_iterators ok hr hs hl q mode fun _ => ()
  rw [← snapshot_level (cx := cx)] at hf hf'
  obtain ⟨s1, h1⟩ := h1 between n fuel hb hf
  obtain ⟨s2, h2⟩ := h2 between' n fuel' hb' hf'
  refine ⟨(chunks.take n).flatMap Chunk.data, s1, s2, ?_, ?_⟩
  · unfold Tree.elements
    rw [bind_apply]
    simp only at h1
    rw [h1]
    exact congrArg (fun x => EStateM.Result.ok x s1) (flattenChunks_ok _)
  · unfold Tree.elements
    rw [bind_apply]
    simp only at h2
    rw [h2]
    exact congrArg (fun x => EStateM.Result.ok x s2) (flattenChunks_ok _)

/-! ### C41 -/

/-- C41: the left roots of a tree can be read; their contents are growing prefixes of the content of the tree, the last of them is the
whole tree, and their levels are strictly increasing. -/
theorem C41_left_roots (ok : cx.Ok) (hr : Reach cx s) (hs : Small E s) (hn : s.root ≠ none) (hc : Contains cx s c) :
    ∃ trees cs, Yields Tree.leftRoots (snapshot cx s) s (trees ++ [snapshot cx { s with offset := 2 ^ 64 - 1 }]) ∧
      Each (fun (tr : Tree E) d => Yields Tree.collect tr s d) (trees ++ [snapshot cx { s with offset := 2 ^ 64 - 1 }]) (cs ++ [c]) ∧
      (cs ++ [c]).Pairwise (· <+: ·) ∧
      (trees ++ [snapshot cx { s with offset := 2 ^ 64 - 1 }]).Pairwise fun a b => a.level < b.level := by
  obtain ⟨t, hi⟩ := ok.inv hr hs
  rw [hi.holds.contains ok.env ok.types] at hc
  subst hc
  cases t with
  | none => exact absurd hi.holds.root hn
  | some t =>
    have hsn := hi.holds.snap
    have hcnt := (hsn.wf t rfl).counts
    have h1 := hsn.leftRoots ok.env
    have h2 := lefts_sorted t hcnt
    obtain ⟨l, hl⟩ := List.getLast?_eq_some_iff.mp (lefts_last t)
    have hroot : s.root = some t.index := hi.holds.root
    have hlast : snapshot cx { s with offset := 2 ^ 64 - 1 } = some (t.index, cx.sec, 2 ^ 64 - 1) := by
      unfold snapshot
      simp only [hroot, Option.map_some]
    simp only [leftTrees, hl, List.map_append, List.map_cons, List.map_nil] at h1
    refine ⟨l.map fun x => some (x.index, cx.sec, 2 ^ 64 - 1), l.map content, by rw [hlast]; exact h1, ?_, ?_, ?_⟩
    · rw [hlast]
      have : ∀ l' : List (PTree T V), (∀ x ∈ l', x ∈ t.nodes) → Each (fun (tr : Tree E) d => Yields Tree.collect tr s d)
          (l'.map fun x => some (x.index, cx.sec, 2 ^ 64 - 1)) (l'.map content) := by
        intro l' hl'
        induction l' with
        | nil => trivial
        | cons x l' ih =>
          have hx := hl' x (by simp)
          have hsees : Sees cx.sec (some (x.index, cx.sec, 2 ^ 64 - 1)) x s :=
            ⟨⟨_, rfl⟩, hsn.coherent, fun n hn => hsn.stored t rfl n (nodes_trans hx hn), fun n hn => hcnt n (nodes_trans hx hn),
              fun n hn => (hsn.wf t rfl).nonempty n (nodes_trans hx hn)⟩
          exact ⟨hsees.collect ok.env ok.types, ih fun y hy => hl' y (List.mem_cons_of_mem _ hy)⟩
      have := this (lefts t) fun x hx => (lefts_mem t hcnt x hx).1
      rw [hl] at this
      simpa [optContent] using this
    · have : ((lefts t).map content).Pairwise (· <+: ·) := List.pairwise_map.mpr (h2.imp fun h => h.1)
      rw [hl] at this
      simpa [optContent] using this
    · have : ((lefts t).map fun x => (some (x.index, cx.sec, 2 ^ 64 - 1) : Tree E)).Pairwise fun (a b : Tree E) => a.level < b.level :=
        List.pairwise_map.mpr (h2.imp fun h => h.2)
      rw [hl, List.map_append] at this
      rw [hlast]
      exact this

/-- C41: the empty tree has no left roots. -/
theorem C41_empty (hn : s.root = none) : Yields Tree.leftRoots (snapshot cx s) s [] := by
  intro fuel _
  unfold Tree.leftRoots snapshot
  rw [hn]
  exact ⟨s, rfl⟩

/-! ### C42 -/

/-- C42: the dump of a tree has one entry for each node, in the order of the nodes, numbered consecutively from 0; there is an edge for
each child of a node and for nothing else; each number except that of the root is the target of exactly one edge, which comes
from a smaller number. -/
theorem C42_dump (ok : cx.Ok) (hr : Reach cx s) (hs : Small E s) (ht : Shows cx s t) :
    ∃ edges nodes, Yields Tree.dumpGraph (snapshot cx s) s (edges, nodes) ∧
      nodes.map Prod.fst = List.range t.nodes.length ∧ nodes.map Prod.snd = t.nodes.map index ∧
      (∀ a b, (a, b) ∈ edges ↔ Edge t a b) ∧
      edges.map Prod.snd = List.range' 1 (t.nodes.length - 1) ∧ ∀ a b, (a, b) ∈ edges → a < b := by
  have h1 := (ht.inv ok hr hs).holds.snap.dumpGraph ok.env
  have hm : ∀ a b, (a, b) ∈ edgesOf t 0 ↔ Edge t a b := by
    intro a b
    rw [edgesOf_mem]
    constructor
    · rintro ⟨a', b', he, rfl, rfl⟩
      simpa using he
    · exact fun he => ⟨a, b, he, by simp, by simp⟩
  refine ⟨_, _, h1, ?_, ?_, hm, ?_, fun a b h => ((hm a b).mp h).lt⟩
  · unfold numbered
    rw [List.map_fst_zip (by simp), List.range_eq_range']
  · unfold numbered
    rw [List.map_snd_zip (by simp)]
  · have := edgesOf_targets t 0
    cases hn : t.nodes.length with
    | zero => rw [hn] at this; cases this
    | succ k =>
      rw [hn, List.range'_succ] at this
      exact (List.cons.inj this).2

/-- C42: on the empty tree there is an error. -/
theorem C42_empty (hn : s.root = none) (fuel : Nat) : Tree.dumpGraph fuel (snapshot cx s) s = .error (.fail "Tree must not be empty") s := by
  unfold Tree.dumpGraph snapshot
  rw [hn]
  rfl

/-! ### examples -/

/-- What happens after a snapshot has been taken: three elements are appended, some elements are retained, the tree is packed and
repaired. -/
def later7 (s : St env) : St env :=
  endState (repair (ctx tiny) 20) (endState (pack (ctx tiny) 20) (endState (retain (ctx tiny) 20 (keyRange 4 9))
    (endState (extendUnpacked (ctx tiny) 20 (seq 7 3)) s)))

theorem later7_later (s : St env) : Later (ctx tiny).sec s (later7 s) := by
  unfold later7
  have h1 : Later (ctx tiny).sec s (endState (extendUnpacked (ctx tiny) 20 (seq 7 3)) s) :=
    Later.extendUnpacked (E := env) (sec := (ctx tiny).sec) tiny 20 (seq 7 3) .refl
  have h2 := h1.retain tiny 20 (keyRange 4 9)
  have h3 := h2.pack tiny 20
  exact h3.repair tiny 20

/-- Then there is no room for more blocks, so that another operation with another configuration fails, and then the first block of the
store is opened as a builder. -/
def muchLater (s : St env) : St env :=
  endState (loadStreamBuilder (ctx Config.debug) (0 : Nat)) (endState (extend (ctx Config.debug) 20 (seq 20 5)) (withRoom 0 (later7 s)))

theorem later_withRoom {s s' : St env} (hc : Coherent env (ctx tiny).sec s) (h : Later (ctx tiny).sec s s') (n : Nat) :
    Later (ctx tiny).sec s (withRoom n s') :=
  h.world (setRoom n s'.store) s'.cache (fun _ _ h => h) (fun l b hb => (h.ext env_lawful).2 hc l b hb)

theorem muchLater_later {s : St env} (hr : Reach (ctx tiny) s) (hs : Small env s) : Later (ctx tiny).sec s (muchLater s) := by
  obtain ⟨t, hi⟩ := tiny_ok.inv hr hs
  exact ((later_withRoom hi.holds.coherent (later7_later s) 0).extend Config.debug 20 (seq 20 5)).load Config.debug (0 : Nat)

/-- The content of the builder has changed. -/
example : elements tiny (later7 packed7) =
    some ([none, none, none, none] ++ (seq 4 6).map some) := by decide +kernel

/-- The operation fails. -/
example : (errorOf (extend (ctx Config.debug) 20 (seq 20 5)) (withRoom 0 (later7 packed7))).isSome = true := by decide +kernel

/-- C15: the snapshot still has the seven elements. -/
example : Yields Tree.collect (snapshot (ctx tiny) packed7) (muchLater packed7) ((seq 0 7).map some) := by
  obtain ⟨a, h1, h2⟩ := (C15_reads tiny_ok packed7_reach packed7_small (muchLater_later packed7_reach packed7_small)).1
  cases Yields.unique h1 packed7_contains
  exact h2

/-- C41 -/
example : ((valueOf (Tree.leftRoots 20 (snapshot (ctx tiny) unpacked10)) unpacked10).map fun l => l.map fun t =>
    (valueOf (Tree.collect 20 t) unpacked10 : Option (List (Option (Nat × Nat))))) = some [some ((seq 0 2).map some), some ((seq 0 4).map some), some ((seq 0 7).map some), some ((seq 0 10).map some)] := by
  decide +kernel

/-- C42 -/
example : ((valueOf (Tree.dumpGraph 20 (snapshot (ctx tiny) unpacked10)) unpacked10).map fun x => (x.1, x.2.map fun y => (y.1, y.2.count))) =
    some ([(0, 1), (1, 2), (2, 3), (2, 4), (1, 5), (5, 6), (5, 7), (0, 8), (8, 9), (8, 10)],
      [(0, 10), (1, 7), (2, 4), (3, 2), (4, 2), (5, 3), (6, 2), (7, 1), (8, 3), (9, 2), (10, 1)]) := by
  decide +kernel

end Banyan
