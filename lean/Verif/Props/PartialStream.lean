import Verif.Props.Partial
import Verif.Props.Stream
/-
Streams over partial replicas: C66.
-/
set_option autoImplicit false
namespace Banyan

open PTree Concrete

variable {T : TreeTypes} {V : Type} {E : Env T V} {X : Type} {cx : Ctx E} {q : Query T} {mkExtra : Index T → X}
  {covers : T.Summary → T.Key → Prop} {m : Nat → T.Key → Bool} {fuel n : Nat} {lo hi σ : E.σ}

/-- The tree of a builder arrives, and whenever the stream reads from it, the blocks are there that the query and the range of offsets select. -/
def FedFor (cx : Ctx E) (q : Query T) (fuel n : Nat) (lo hi : E.σ) (start stop : Nat) (a : Arrival E) (c : List (Option (T.Key × V))) : Prop :=
  ∃ s σ, Feed cx fuel n a c s ∧ Provides cx.sec lo hi σ a.1 ∧ ∀ t o, a.2 = some (t.index, cx.sec, o) → Stored E cx.sec s.store t →
    SameBlocks E s.store σ (t.needs (andQuery (offsetRangeQuery (RangeB.closed start stop)) q) 0)

/-- From each tree only the elements behind those of the trees before are needed. -/
def EachFor (cx : Ctx E) (q : Query T) (fuel n : Nat) (lo hi : E.σ) (stop : Nat) : List (Arrival E) → List (List (Option (T.Key × V))) → Nat → Prop
  | [], [], _ => True
  | a :: as, c :: cs, start => FedFor cx q fuel n lo hi start stop a c ∧
      (c.length ≤ stop → EachFor cx q fuel n lo hi stop as cs (max start c.length))
  | _, _, _ => False

/-- The blocks for a query can be read from a store that has the same. -/
theorem SameBlocks.seenFor (ht : T.Lawful) {s : St E} {t : PTree T V} (h : SameBlocks E s.store σ (t.needs q 0)) (hst : Stored E cx.sec s.store t)
    (hw : Formed t) : SeenFor cx.sec σ q t 0 :=
  ⟨fun n hn => (hst n hn).linked, hw.iterOk ht, fun n hn => (hst n (needs_nodes q t 0 n hn)).congr (h n hn)⟩

/-- C66 for streams: streaming trees delivers everything if from each tree only the blocks of the nodes are available that the query and the rest of
the range of offsets select. So who follows a growing tree needs only the blocks with new elements. -/
theorem C66_stream (ok : cx.Ok) (hcov : Covering T covers) (hq : QueryFor q covers m) (mkExtra : Index T → X)
    {arrivals : List (Arrival E)} {contents : List (List (Option (T.Key × V)))} (start stop : Nat)
    (hf : EachFor cx q fuel n lo hi stop arrivals contents start) {s : St E} (hs : Between cx.sec lo hi s) :
    ∃ (chunks : List (Chunk T V X)) (s' : St E),
      streamTreesChunked q mkExtra fuel n stop arrivals start s = .ok (chunks.map .ok) s' ∧ chunks.flatMap Chunk.data = news m stop contents start := by
  induction arrivals generalizing contents start s with
  | nil =>
    cases contents with
    | nil => exact ⟨[], s, rfl, rfl⟩
    | cons c cs => exact False.elim hf
  | cons a arrivals ih =>
    cases contents with
    | nil => exact False.elim hf
    | cons c cs =>
      obtain ⟨⟨s0, σ, hfeed, hp, hn⟩, hrest⟩ := hf
      obtain ⟨chunks, s', h1, h2, h3⟩ := stream_cons_for (mkExtra := mkExtra) ok hcov hq start stop hfeed hp
        (fun t o hto hst hw => (hn t o hto hst).seenFor ok.types hst hw) hs
      rw [h3]
      unfold news
      split
      · exact ⟨chunks, s', rfl, by rw [h2, List.append_nil]⟩
      · rename_i hlt
        obtain ⟨rest, s'', g1, g3⟩ := ih (max start c.length) (hrest (Nat.le_of_not_lt hlt)) h1
        refine ⟨chunks ++ rest, s'', ?_, ?_⟩
        · rw [bind_apply, g1, List.map_append]
          rfl
        · rw [List.flatMap_append, h2, g3]

/-- C66: following a growing tree in this way delivers the elements of the last tree that match and are in the range, each once. -/
theorem C66_stream_growing (ok : cx.Ok) (hcov : Covering T covers) (hq : QueryFor q covers m) (mkExtra : Index T → X)
    {arrivals : List (Arrival E)} {contents : List (List (Option (T.Key × V)))} {c : List (Option (T.Key × V))} (start stop : Nat)
    (hf : EachFor cx q fuel n lo hi stop arrivals (contents ++ [c]) start) (hg : Growing (contents ++ [c])) {s : St E} (hs : Between cx.sec lo hi s) :
    ∃ (chunks : List (Chunk T V X)) (s' : St E),
      streamTreesChunked q mkExtra fuel n stop arrivals start s = .ok (chunks.map .ok) s' ∧
      chunks.flatMap Chunk.data = matching (fun o k => decide (start ≤ o ∧ o ≤ stop) && m o k) 0 c := by
  obtain ⟨chunks, s', h1, h2⟩ := C66_stream ok hcov hq mkExtra start stop hf hs
  rw [news_growing m stop contents c hg] at h2
  exact ⟨chunks, s', h1, h2⟩

/-- C66 for reverse streams: the first tree that is not empty is delivered backward if the blocks of the selected nodes are available. -/
theorem C66_stream_reverse (ok : cx.Ok) (hcov : Covering T covers) (hq : QueryFor q covers m) (mkExtra : Index T → X)
    {a : Arrival E} {c : List (Option (T.Key × V))} (start stop : Nat) (ha : FedFor cx q fuel n lo hi start stop a c) (hc : c ≠ [])
    (post : List (Arrival E)) {s : St E} (hs : Between cx.sec lo hi s) :
    ∃ (chunks : List (Chunk T V X)) (s' : St E),
      streamTreesChunkedReverse q mkExtra fuel n start (a :: post) stop s = .ok (chunks.map .ok) s' ∧
      chunks.reverse.flatMap Chunk.data = matching (fun o k => decide (start ≤ o ∧ o ≤ stop) && m o k) 0 c := by
  obtain ⟨s0, σ, hfeed, hp, hn⟩ := ha
  rcases stream_reverse_cons_for (mkExtra := mkExtra) ok hcov hq start stop hfeed hp
    (fun t o hto hst hw => (hn t o hto hst).seenFor ok.types hst hw) hs with ⟨h, _⟩ | ⟨_, chunks, s', h1, _, h3⟩
  · exact absurd h hc
  · exact ⟨chunks, s', h3 post, h1⟩

/-- C66: what is selected. Each needed leaf contains an element that is delivered, so one that matches, is in the range, and is new. -/
theorem C66_stream_needed_leaf (ok : cx.Ok) {s : St E} {t : PTree T V} {c : List (Option (T.Key × V))} (hr : Reach cx s) (hs : Small E s)
    (sh : Shows cx s t) (hc : Contains cx s c) (hq : QueryFor q covers m) (start stop : Nat) (i : LeafIndex T) (vs : List V)
    (hn : .leaf i vs ∈ t.needs (andQuery (offsetRangeQuery (RangeB.closed start stop)) q) 0) :
    ∃ o j k v, At c o (.leaf i vs) ∧ (PTree.leaf i vs).content[j]? = some (some (k, v)) ∧
      start ≤ o + j ∧ o + j ≤ stop ∧ (o + j, k, v) ∈ matching m 0 c := by
  obtain ⟨o, j, k, v, h1, h2, h3⟩ := C66_needed_leaf ok hr hs sh hc _ covers _ (inRange_queryFor hq start stop) i vs hn
  rw [C09_matching_mem] at h3
  obtain ⟨h3, h4⟩ := h3
  unfold inRange at h4
  rw [Bool.and_eq_true, decide_eq_true_eq] at h4
  exact ⟨o, j, k, v, h1, h2, h4.1.1, h4.1.2, (C09_matching_mem _ _ _ _).mpr ⟨h3, h4.2⟩⟩

/-! ### an example -/

/-- No blocks at all. -/
def noBlocks : Store := { unpacked10.store with blocks := [] }

theorem noBlocks_le (σ : Store) : StoreLe env noBlocks σ := storeLe_of_prefix List.nil_prefix

theorem lose_provides {hi : Store} (ns : List Nat) (σ : Store) (h : StoreLe env σ hi) :
    Provides (ctx tiny).sec noBlocks hi (punch ns σ) (lose ns σ) :=
  fun _ s _ => ⟨⟨noBlocks_le _, fun l b hb => h l b (punch_get ns σ l b hb), hole_coherent tiny ns { s with store := σ }⟩, fun _ _ h => h⟩

theorem hole_between {hi : Store} (ns : List Nat) {s : St env} (h : StoreLe env s.store hi) : Between (ctx tiny).sec noBlocks hi (hole ns s) :=
  ⟨noBlocks_le _, fun l b hb => h l b (punch_get ns s.store l b hb), hole_coherent tiny ns s⟩

/-- From a store that has lost some blocks, but not those selected. -/
theorem fedFor_of {s : St env} {c : List (Option (types.Key × Nat))} {ns : List Nat} {q : Query types} {start stop : Nat} {hi : Store}
    (hf : Feed (ctx tiny) 20 20 (lose ns s.store, snapshot (ctx tiny) s) c s) (hle : StoreLe env s.store hi)
    (h : ((loaded tiny s).map fun t => avoids ns (t.needs (andQuery (offsetRangeQuery (RangeB.closed start stop)) q) 0)) = some true) :
    FedFor (ctx tiny) q 20 20 noBlocks hi start stop (lose ns s.store, snapshot (ctx tiny) s) c := by
  refine ⟨s, punch ns s.store, hf, lose_provides ns _ hle, fun t o ht hst => ?_⟩
  cases hl : loaded tiny s with
  | none => rw [hl] at h; cases h
  | some t' =>
    rw [hl] at h
    simp only [Option.map_some, Option.some.injEq] at h
    obtain ⟨t0, hi⟩ := tiny_ok.inv hf.reach hf.small
    have e' := hi.shows tiny_ok.env (shows_of_loaded tiny_ok hf.reach hf.small hl)
    have hroot : s.root = some t.index := by
      unfold snapshot at ht
      cases hr : s.root with
      | none => rw [hr] at ht; cases ht
      | some i =>
        rw [hr] at ht
        simp only [Option.map_some, Option.some.injEq, Prod.mk.injEq] at ht
        rw [ht.1]
    have e := hi.shows tiny_ok.env ⟨hroot, hst⟩
    rw [e] at e'
    cases e'
    exact sameBlocks_of ns s _ h

/-- First the tree of seven elements comes without the block of the first leaf. Then it has grown to ten elements, and of all its blocks only three are
there. -/
def sparse : List (Arrival env) :=
  [(lose [0] packed7.store, snapshot (ctx tiny) packed7), (lose [0, 1, 2, 3, 4, 5, 6, 8] unpacked10.store, snapshot (ctx tiny) unpacked10)]

theorem eachFor_two {cx : Ctx E} {a b : Arrival E} {c d : List (Option (T.Key × V))} {start stop start' : Nat} (h1 : FedFor cx q fuel n lo hi start stop a c)
    (hm : max start c.length = start') (h2 : FedFor cx q fuel n lo hi start' stop b d) (h3 : ¬ d.length ≤ stop) :
    EachFor cx q fuel n lo hi stop [a, b] ([c] ++ [d]) start := ⟨h1, fun _ => by rw [hm]; exact ⟨h2, fun h => absurd h h3⟩⟩

theorem sparse_fed : EachFor (ctx tiny) (keyRange 3 8) 20 20 noBlocks unpacked10.store 8 sparse ([(seq 0 7).map some] ++ [(seq 0 10).map some]) 2 :=
  eachFor_two (start' := 7) (fedFor_of (packed7_feed _) packed7_le (by decide +kernel)) (by decide +kernel)
    (fedFor_of (unpacked10_feed _) (fun _ _ h => h) (by decide +kernel)) (by decide +kernel)

/-- The elements with keys from 3 to 8 and offsets from 2 to 8 are delivered. -/
example : ∃ (chunks : List (Chunk types Nat Nat)) (s' : St env),
    streamTreesChunked (keyRange 3 8) (fun i => i.count) 20 20 8 sparse 2 (hole [0] packed7) = .ok (chunks.map .ok) s' ∧
    chunks.flatMap Chunk.data = [((3 : Nat), (3 : Nat), (30 : Nat)), (4, 4, 40), (5, 5, 50), (6, 6, 60), (7, 7, 70), (8, 8, 80)] := by
  obtain ⟨chunks, s', h1, h2⟩ := C66_stream_growing tiny_ok covering (keyRange_queryFor 3 8) (fun i => i.count) 2 8 sparse_fed
    (List.pairwise_cons.mpr ⟨fun c hc => by
      cases List.mem_singleton.mp hc
      exact ⟨(seq 7 3).map some, rfl⟩, List.pairwise_singleton _ _⟩) (hole_between [0] packed7_le)
  exact ⟨chunks, s', h1, h2⟩

end Banyan
