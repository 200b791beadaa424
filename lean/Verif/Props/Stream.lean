import Verif.Proofs.Stream
import Verif.Props.Damage
/-
Streams: C29, C30, C31.
-/
set_option autoImplicit false
namespace Banyan

open PTree Concrete

variable {T : TreeTypes} {V : Type} {E : Env T V} {X : Type} {cx : Ctx E} {q : Query T} {mkExtra : Index T → X}
  {covers : T.Summary → T.Key → Prop} {m : Nat → T.Key → Bool} {fuel n : Nat} {lo hi σ : E.σ}

/-! ### C29 -/

/-- C29: streaming trees delivers, without an error, exactly: from each tree the elements that match, that are in the range, and
that are behind all the trees before, in ascending order. Streaming ends when a tree covers the range. -/
theorem C29_stream (ok : cx.Ok) (hcov : Covering T covers) (hq : QueryFor q covers m) (mkExtra : Index T → X)
    {arrivals : List (Arrival E)} {contents : List (List (Option (T.Key × V)))} (hf : Each (Fed cx fuel n lo hi) arrivals contents)
    (start stop : Nat) {s : St E} (hs : Between cx.sec lo hi s) :
    ∃ (chunks : List (Chunk T V X)) (s' : St E),
      streamTreesChunked q mkExtra fuel n stop arrivals start s = .ok (chunks.map .ok) s' ∧ Between cx.sec lo hi s' ∧
      chunks.flatMap Chunk.data = news m stop contents start := by
  induction arrivals generalizing contents start s with
  | nil =>
    cases contents with
    | nil => exact ⟨[], s, rfl, hs, rfl⟩
    | cons c cs => exact False.elim hf
  | cons a arrivals ih =>
    cases contents with
    | nil => exact False.elim hf
    | cons c cs =>
      obtain ⟨chunks, s', h1, h2, h3⟩ := stream_cons (mkExtra := mkExtra) ok hcov hq hf.1 start stop hs
      rw [h3]
      unfold news
      split
      · exact ⟨chunks, s', rfl, h1, by rw [h2, List.append_nil]⟩
      · obtain ⟨rest, s'', g1, g2, g3⟩ := ih hf.2 (max start c.length) h1
        refine ⟨chunks ++ rest, s'', ?_, g2, ?_⟩
        · rw [bind_apply, g1, List.map_append]
          rfl
        · rw [List.flatMap_append, h2, g3]

/-- A prefix contains the elements at the beginning. -/
theorem matching_prefix (m : Nat → T.Key → Bool) {c d : List (Option (T.Key × V))} (h : c <+: d) :
    matching m 0 c = matching (fun o k => decide (o < c.length) && m o k) 0 d := by
  obtain ⟨e, rfl⟩ := h
  rw [matching_append, matching_none _ _ e, List.append_nil]
  · exact matching_congr fun o k _ h => by simp only [Nat.zero_add] at h; simp [h]
  · intro j k v _
    rw [Bool.and_eq_false_iff]
    left
    apply decide_eq_false
    omega

theorem matching_false {m : Nat → T.Key → Bool} (h : ∀ o k, m o k = false) (o : Nat) (c : List (Option (T.Key × V))) : matching m o c = [] :=
  matching_none _ _ _ fun _ _ _ _ => h _ _

theorem matching_ext {m m' : Nat → T.Key → Bool} (h : ∀ o k, m o k = m' o k) (o : Nat) (c : List (Option (T.Key × V))) :
    matching m o c = matching m' o c := matching_congr fun n k _ _ => h n k

/-- Two parts of a range. -/
theorem matching_parts (m : Nat → T.Key → Bool) (start stop x fin : Nat) (hx : x ≤ start ∨ x ≤ fin) (c : List (Option (T.Key × V))) :
    matching (fun o k => decide (o < x) && inRange m start stop o k) 0 c ++
      matching (fun o k => decide (o < fin) && inRange m (max start x) stop o k) 0 c =
    matching (fun o k => decide (o < fin) && inRange m start stop o k) 0 c := by
  by_cases h1 : start ≤ x
  · have := matching_join (fun o k => decide (o ≤ stop) && m o k) h1 (Nat.le_max_left x fin) 0 c
    refine Eq.trans (congr (congrArg _ (matching_ext (fun o k => ?_) 0 c)) (matching_ext (fun o k => ?_) 0 c))
      (this.trans (matching_ext (fun o k => ?_) 0 c))
    · unfold inRange
      rw [← Bool.and_assoc, ← Bool.and_assoc, ← Bool.decide_and, ← Bool.decide_and]
      congr 1
      apply decide_eq_decide.mpr
      omega
    · unfold inRange
      rw [← Bool.and_assoc, ← Bool.and_assoc, ← Bool.decide_and, ← Bool.decide_and]
      congr 1
      apply decide_eq_decide.mpr
      omega
    · unfold inRange
      rw [← Bool.and_assoc, ← Bool.and_assoc, ← Bool.decide_and, ← Bool.decide_and]
      congr 1
      apply decide_eq_decide.mpr
      omega
  · rw [matching_false, List.nil_append]
    · rw [Nat.max_eq_left (by omega)]
    · intro o k
      unfold inRange
      rw [← Bool.and_assoc, ← Bool.decide_and, Bool.and_eq_false_iff]
      left
      apply decide_eq_false
      omega

/-- Each tree extends the trees before. -/
def Growing (cs : List (List (Option (T.Key × V)))) : Prop := cs.Pairwise (· <+: ·)

theorem news_growing (m : Nat → T.Key → Bool) (stop : Nat) (cs : List (List (Option (T.Key × V)))) (c : List (Option (T.Key × V)))
    (hg : Growing (cs ++ [c])) (start : Nat) : news m stop (cs ++ [c]) start = matching (inRange m start stop) 0 c := by
  induction cs generalizing start with
  | nil =>
    simp only [List.nil_append, news]
    split <;> simp
  | cons d cs ih =>
    have hdc : d <+: c := (List.pairwise_cons.mp hg).1 c (by simp)
    simp only [List.cons_append, news]
    rw [matching_prefix _ hdc]
    split
    · rename_i hlt
      rw [List.append_nil]
      refine matching_ext (fun o k => ?_) 0 c
      unfold inRange
      rw [← Bool.and_assoc, ← Bool.decide_and]
      congr 1
      apply decide_eq_decide.mpr
      omega
    · rw [ih (List.pairwise_cons.mp hg).2]
      have hlen := hdc.length_le
      refine Eq.trans (congrArg _ ?_) ((matching_parts m start stop d.length c.length (.inr hlen) c).trans ?_)
      · exact matching_congr fun o k _ ho => by simp only [Nat.zero_add] at ho; simp [ho]
      · exact matching_congr fun o k _ ho => by simp only [Nat.zero_add] at ho; simp [ho]

/-- C29: streaming growing trees delivers the elements of the last tree that match and are in the range, each once, in ascending
order. -/
theorem C29_growing (ok : cx.Ok) (hcov : Covering T covers) (hq : QueryFor q covers m) (mkExtra : Index T → X)
    {arrivals : List (Arrival E)} {contents : List (List (Option (T.Key × V)))} {c : List (Option (T.Key × V))}
    (hf : Each (Fed cx fuel n lo hi) arrivals (contents ++ [c])) (hg : Growing (contents ++ [c]))
    (start stop : Nat) {s : St E} (hs : Between cx.sec lo hi s) :
    ∃ (chunks : List (Chunk T V X)) (s' : St E),
      streamTreesChunked q mkExtra fuel n stop arrivals start s = .ok (chunks.map .ok) s' ∧
      chunks.flatMap Chunk.data = matching (fun o k => decide (start ≤ o ∧ o ≤ stop) && m o k) 0 c := by
  obtain ⟨chunks, s', h1, _, h2⟩ := C29_stream ok hcov hq mkExtra hf start stop hs
  rw [news_growing m stop contents c hg] at h2
  exact ⟨chunks, s', h1, h2⟩

/-- C29: once a tree covers the range, nothing more is read from the stream of trees. -/
theorem C29_ends (ok : cx.Ok) (hcov : Covering T covers) (hq : QueryFor q covers m) (mkExtra : Index T → X)
    {arrivals : List (Arrival E)} {contents : List (List (Option (T.Key × V)))} (hf : Each (Fed cx fuel n lo hi) arrivals contents)
    (start stop : Nat) (hc : ∃ c ∈ contents, stop < c.length) {s : St E} (hs : Between cx.sec lo hi s) (more : List (Arrival E)) :
    streamTreesChunked q mkExtra fuel n stop (arrivals ++ more) start s = streamTreesChunked q mkExtra fuel n stop arrivals start s := by
  induction arrivals generalizing contents start s with
  | nil =>
    cases contents with
    | nil => obtain ⟨c, hc, _⟩ := hc; cases hc
    | cons c cs => exact False.elim hf
  | cons a arrivals ih =>
    cases contents with
    | nil => exact False.elim hf
    | cons c cs =>
      obtain ⟨chunks, s', h1, h2, h3⟩ := stream_cons (mkExtra := mkExtra) ok hcov hq hf.1 start stop hs
      rw [List.cons_append, h3, h3]
      split
      · rfl
      · rename_i hlt
        obtain ⟨d, hd, hd2⟩ := hc
        have hd : d ∈ cs := by
          rcases List.mem_cons.mp hd with rfl | hd
          · exact absurd hd2 hlt
          · exact hd
        rw [bind_apply, bind_apply, ih hf.2 (max start c.length) ⟨d, hd, hd2⟩ h1]

/-- C29 for the stream of elements. -/
theorem C29_elements (ok : cx.Ok) (hcov : Covering T covers) (hq : QueryFor q covers m)
    {arrivals : List (Arrival E)} {contents : List (List (Option (T.Key × V)))} {c : List (Option (T.Key × V))}
    (hf : Each (Fed cx fuel n lo hi) arrivals (contents ++ [c])) (hg : Growing (contents ++ [c])) (hlen : c.length < 2 ^ 64)
    {s : St E} (hs : Between cx.sec lo hi s) :
    ∃ s', streamTrees q fuel n arrivals s = .ok ((matching m 0 c).map .ok) s' := by
  obtain ⟨chunks, s', h1, h2⟩ := C29_growing ok hcov hq (fun _ => ()) hf hg 0 (2 ^ 64 - 1) hs
  refine ⟨s', ?_⟩
  unfold streamTrees
  rw [bind_apply, h1]
  have h3 : matching (fun o k => decide (0 ≤ o ∧ o ≤ 2 ^ 64 - 1) && m o k) 0 c = matching m 0 c :=
    matching_congr fun o k _ ho => by
      have : 0 ≤ o ∧ o ≤ 2 ^ 64 - 1 := by omega
      simp [this]
  rw [← h3, ← h2, ← flattenChunks_ok]
  rfl

/-! ### C31 -/

/-- C29, C31: if blocks cannot be read, streaming growing trees delivers a gapless beginning of the elements, each once and in
ascending order. A consumer can notice that something is missing: if a chunk is delivered that goes beyond the end of the range,
everything has been delivered. -/
theorem C31_noticed_partial (ok : cx.Ok) (hcov : Covering T covers) (hq : QueryFor q covers m) (mkExtra : Index T → X)
    {arrivals : List (Arrival E)} {contents : List (List (Option (T.Key × V)))} (hf : Each (FedFaulty cx fuel n σ) arrivals contents)
    (c : List (Option (T.Key × V))) (hg : ∀ d ∈ contents, d <+: c) (start stop : Nat) {s : St E} (hs : Faulty cx.sec σ s) :
    ∃ (chunks : List (Chunk T V X)) (s' : St E) (fin : Nat),
      streamTreesChunked q mkExtra fuel n stop arrivals start s = .ok (chunks.map .ok) s' ∧
      chunks.flatMap Chunk.data = matching (fun o k => decide (o < fin) && inRange m start stop o k) 0 c ∧
      ((∃ ch ∈ chunks, stop < ch.range.2) → stop < fin) := by
  suffices h : ∃ (chunks : List (Chunk T V X)) (s' : St E) (fin : Nat),
      streamTreesChunked q mkExtra fuel n stop arrivals start s = .ok (chunks.map .ok) s' ∧
      chunks.flatMap Chunk.data = matching (fun o k => decide (o < fin) && inRange m start stop o k) 0 c ∧
      ((∃ ch ∈ chunks, stop < ch.range.2) → stop < fin) ∧ start ≤ fin by
    obtain ⟨chunks, s', fin, h1, h2, h3, _⟩ := h
    exact ⟨chunks, s', fin, h1, h2, h3⟩
  induction arrivals generalizing contents start s with
  | nil =>
    cases contents with
    | nil =>
      refine ⟨[], s, start, rfl, ?_, ?_, Nat.le_refl _⟩
      · rw [matching_false]
        · rfl
        · intro o k
          unfold inRange
          rw [← Bool.and_assoc, ← Bool.decide_and, Bool.and_eq_false_iff]
          left
          apply decide_eq_false
          omega
      · rintro ⟨ch, hch, _⟩
        cases hch
    | cons c cs => exact False.elim hf
  | cons a arrivals ih =>
    cases contents with
    | nil => exact False.elim hf
    | cons d cs =>
      obtain ⟨chunks, x, s', h1, h2, h3, h4, h5⟩ := stream_cons_faulty (mkExtra := mkExtra) ok hcov hq hf.1 start stop hs
      have hd := hg d (by simp)
      have hlen := hd.length_le
      have h3' : chunks.flatMap Chunk.data = matching (fun o k => decide (o < x) && inRange m start stop o k) 0 c := by
        rw [h3, matching_prefix _ hd]
        refine matching_ext (fun o k => ?_) 0 c
        rw [← Bool.and_assoc, ← Bool.decide_and]
        congr 1
        apply decide_eq_decide.mpr
        omega
      rw [h5]
      split
      · refine ⟨chunks, s', max start x, rfl, ?_, fun _ => by omega, Nat.le_max_left _ _⟩
        rw [h3']
        refine matching_ext (fun o k => ?_) 0 c
        unfold inRange
        rw [← Bool.and_assoc, ← Bool.and_assoc, ← Bool.decide_and, ← Bool.decide_and]
        congr 1
        apply decide_eq_decide.mpr
        omega
      · rename_i hx
        obtain ⟨rest, s'', fin, g1, g2, g3, g4⟩ := ih hf.2 (fun e he => hg e (List.mem_cons_of_mem _ he)) (max start x) h1
        refine ⟨chunks ++ rest, s'', fin, ?_, ?_, ?_, by omega⟩
        · rw [bind_apply, g1, List.map_append]
          rfl
        · rw [List.flatMap_append, h3', g2]
          exact matching_parts m start stop x fin (by omega) c
        · rintro ⟨ch, hch, hlt⟩
          rcases List.mem_append.mp hch with hch | hch
          · have := h4 ch hch
            omega
          · exact g3 ⟨ch, hch, hlt⟩

/-! ### C30 -/

/-- C30: streaming backward delivers from the first tree that is not empty the chunks from the last one down to the one containing
the start of the range; they follow each other without holes. Together they contain the elements that match and are in the range,
each once. -/
theorem C30_reverse_partial (ok : cx.Ok) (hcov : Covering T covers) (hq : QueryFor q covers m) (mkExtra : Index T → X)
    {pre : List (Arrival E)} (hpre : Each (Fed cx fuel n lo hi) pre (pre.map fun _ => [])) {a : Arrival E} {c : List (Option (T.Key × V))}
    (hc : c ≠ []) (ha : Fed cx fuel n lo hi a c) (post : List (Arrival E)) (start stop : Nat) {s : St E} (hs : Between cx.sec lo hi s) :
    ∃ (chunks : List (Chunk T V X)) (s' : St E) (x : Nat),
      streamTreesChunkedReverse q mkExtra fuel n start (pre ++ a :: post) stop s = .ok (chunks.map .ok) s' ∧
      Consecutive x chunks.reverse c.length ∧
      chunks.reverse.flatMap Chunk.data = matching (fun o k => decide (start ≤ o ∧ o ≤ stop) && m o k) 0 c := by
  induction pre with
  | nil =>
    rcases stream_reverse_cons (mkExtra := mkExtra) ok hcov hq ha start stop hs with ⟨h, _⟩ | ⟨_, chunks, s', h1, ⟨x, h2⟩, h3⟩
    · exact absurd h hc
    · exact ⟨chunks, s', x, h3 post, h2, h1⟩
  | cons p pre ih =>
    rcases stream_reverse_cons (mkExtra := mkExtra) ok hcov hq hpre.1 start stop hs with ⟨_, h⟩ | ⟨h, _⟩
    · rw [List.cons_append, h]
      exact ih hpre.2
    · exact absurd rfl h

/-- C30 if blocks cannot be read: from each tree a run of the elements, from some offset up to the current end, is delivered; the next
tree goes on with the first offset of the run (which is delivered again if it matches, see `C30_refuted`). Nothing is left out
between the runs. -/
theorem C30_damaged_partial (ok : cx.Ok) (hcov : Covering T covers) (hq : QueryFor q covers m) (mkExtra : Index T → X)
    {arrivals : List (Arrival E)} {contents : List (List (Option (T.Key × V)))} (hf : Each (FedFaulty cx fuel n σ) arrivals contents)
    (start stop : Nat) {s : St E} (hs : Faulty cx.sec σ s) :
    ∃ (chunks : List (Chunk T V X)) (s' : St E),
      streamTreesChunkedReverse q mkExtra fuel n start arrivals stop s = .ok (chunks.map .ok) s' ∧ Runs m start contents stop chunks := by
  induction arrivals generalizing contents stop s with
  | nil =>
    cases contents with
    | nil => exact ⟨[], s, rfl, rfl⟩
    | cons c cs => exact False.elim hf
  | cons a arrivals ih =>
    cases contents with
    | nil => exact False.elim hf
    | cons c cs =>
      obtain ⟨run, x, stop', s', h1, h2, h3⟩ := stream_reverse_cons_faulty (mkExtra := mkExtra) ok hcov hq hf.1 start stop hs
      rcases h3 with ⟨e1, e2, h3⟩ | ⟨h3, h4⟩
      · rw [h3]
        exact ⟨run, s', rfl, run, [], x, by simp, h2, .inl ⟨e1, e2, rfl⟩⟩
      · obtain ⟨rest, s'', g1, g2⟩ := ih hf.2 stop' h1
        rw [h4, bind_apply, g1]
        refine ⟨run ++ rest, s'', by rw [List.map_append]; rfl, run, rest, x, rfl, h2, ?_⟩
        rcases h3 with ⟨e1, e2, e3⟩ | ⟨e1, e2⟩
        · subst e3; exact .inr (.inl ⟨e1, e2, g2⟩)
        · subst e2; exact .inr (.inr ⟨e1, g2⟩)

/-! ### concrete streams -/

/-- A store with more blocks. -/
theorem storeLe_of_prefix {a b : Store} (h : a.blocks <+: b.blocks) : StoreLe env a b := by
  intro (l : Nat) x hx
  obtain ⟨r, hr⟩ := h
  have hx : Store.get a l = .ok x := hx
  show Store.get b l = .ok x
  unfold Store.get at hx ⊢
  rw [← hr]
  cases hl : a.blocks[l]? with
  | none => rw [hl] at hx; cases hx
  | some y =>
    rw [List.getElem?_append_left (List.getElem?_eq_some_iff.mp hl).1, hl]
    rw [hl] at hx
    exact hx

theorem packed7_le : StoreLe env packed7.store unpacked10.store := storeLe_of_prefix (by decide +kernel)

/-- Before each call of `next` the store is replaced. -/
def replaced {E : Env T V} (σ : E.σ) : Nat → St E → St E := fun _ s => { s with store := σ }

theorem replaced_provides (sec : Secrets E) (h : StoreLe E lo hi) : Provides sec lo hi hi (replaced hi) :=
  fun _ _ hs => ⟨⟨h, fun _ _ h => h, Coherent.mono hs.hi rfl hs.coherent⟩, fun _ _ h => h⟩

theorem replaced_tolerable (sec : Secrets E) : Tolerable sec σ (replaced σ) := fun _ _ hs => ⟨fun _ _ h => h, hs.cache⟩

/-- Before each call of `next`, some blocks get lost. -/
def lose (ns : List Nat) (σ : Store) : Nat → St env → St env := fun _ s => hole ns { s with store := σ }

theorem lose_tolerable (cfg : Config) (ns : List Nat) (σ : Store) : Tolerable (ctx cfg).sec σ (lose ns σ) :=
  fun _ s _ => hole_faulty cfg ns { s with store := σ }

/-- The tree grows from 7 to 10 elements while it is streamed. -/
def growing : List (Arrival env) := [(idle, snapshot (ctx tiny) packed7), (replaced unpacked10.store, snapshot (ctx tiny) unpacked10)]

theorem feed_of {E : Env T V} {cx : Ctx E} {s : St E} {c : List (Option (T.Key × V))} (h1 : Reach cx s) (h2 : Small E s) (h3 : Contains cx s c)
    {fuel n : Nat} (h4 : 2 * rootLevel s.root + 4 ≤ fuel) (h5 : c.length < n) (w : Nat → St E → St E) : Feed cx fuel n (w, snapshot cx s) c s :=
  ⟨h1, h2, h3, .inl rfl, h4, h5⟩

theorem packed7_feed (w : Nat → St env → St env) : Feed (ctx tiny) 20 20 (w, snapshot (ctx tiny) packed7) ((seq 0 7).map some) packed7 :=
  feed_of packed7_reach packed7_small packed7_contains (by decide +kernel) (by decide +kernel) w

theorem unpacked10_feed (w : Nat → St env → St env) : Feed (ctx tiny) 20 20 (w, snapshot (ctx tiny) unpacked10) ((seq 0 10).map some) unpacked10 :=
  feed_of unpacked10_reach unpacked10_small unpacked10_contains (by decide +kernel) (by decide +kernel) w

theorem growing_fed : Each (Fed (ctx tiny) 20 20 packed7.store unpacked10.store) growing ([(seq 0 7).map some] ++ [(seq 0 10).map some]) :=
  ⟨⟨packed7, packed7_feed idle, fun _ _ h => ⟨h, h.lo⟩⟩, ⟨unpacked10, unpacked10_feed _, replaced_provides _ packed7_le⟩, trivial⟩

theorem packed7_between : Between (ctx tiny).sec packed7.store unpacked10.store packed7 := by
  obtain ⟨t, hi⟩ := tiny_ok.inv packed7_reach packed7_small
  exact ⟨fun _ _ h => h, packed7_le, hi.holds.coherent⟩

/-- The elements with keys from 3 to 8 and offsets from 2 to 7. -/
example : ∃ (chunks : List (Chunk types Nat Nat)) (s' : St env),
    streamTreesChunked (keyRange 3 8) (fun i => i.count) 20 20 7 growing 2 packed7 = .ok (chunks.map .ok) s' ∧
    chunks.flatMap Chunk.data = [((3 : Nat), (3 : Nat), (30 : Nat)), (4, 4, 40), (5, 5, 50), (6, 6, 60), (7, 7, 70)] := by
  obtain ⟨chunks, s', h1, h2⟩ := C29_growing tiny_ok covering (keyRange_queryFor 3 8) (fun i => i.count) growing_fed
    (List.pairwise_cons.mpr ⟨fun c hc => by
      cases List.mem_singleton.mp hc
      exact ⟨(seq 7 3).map some, rfl⟩, List.pairwise_singleton _ _⟩) 2 7 packed7_between
  exact ⟨chunks, s', h1, h2⟩

/-- Streaming ends with the second tree. -/
example (more : List (Arrival env)) :
    streamTreesChunked (keyRange 3 8) (fun i => i.count) 20 20 7 (growing ++ more) 2 packed7 =
    streamTreesChunked (keyRange 3 8) (fun i => i.count) 20 20 7 growing 2 packed7 :=
  C29_ends tiny_ok covering (keyRange_queryFor 3 8) (fun i => i.count) growing_fed 2 7 ⟨(seq 0 10).map some, List.mem_append_right _ (List.mem_singleton.mpr rfl), by decide +kernel⟩ packed7_between more

/-- What comes out of a stream: the offsets (`none` stands for an error). -/
def offsets (l : List (Except String (Chunk types Nat Nat))) : List (List (Option Nat)) :=
  l.map fun x => match x with | .ok ch => ch.data.map fun y => some y.1 | .error _ => [none]

/-- The first time block 5 is lost, then it is there again. -/
def failing : List (Arrival env) :=
  [(lose [5] unpacked10.store, snapshot (ctx tiny) unpacked10), (replaced unpacked10.store, snapshot (ctx tiny) unpacked10)]

theorem failing_fed : Each (FedFaulty (ctx tiny) 20 20 unpacked10.store) failing [(seq 0 10).map some, (seq 0 10).map some] :=
  ⟨⟨unpacked10, unpacked10_feed _, fun _ _ h => h, lose_tolerable tiny _ _⟩,
    ⟨unpacked10, unpacked10_feed _, fun _ _ h => h, replaced_tolerable _⟩, trivial⟩

/-- Forward: nothing is delivered twice. -/
example : (valueOf (streamTreesChunked allQuery (fun i => i.count) 20 20 100 failing 0) unpacked10).map offsets =
    some [[some 0, some 1], [some 2, some 3], [], [some 4, some 5], [some 6], [some 7, some 8], [some 9]] := by decide +kernel

/-- Backward: what comes out. -/
def failingReverse : Option (List (List (Option Nat))) :=
  (valueOf (streamTreesChunkedReverse allQuery (fun i => i.count) 20 20 0 failing 100) unpacked10).map offsets

/-- C30 is false if reading fails part way: the element at offset 7 is delivered twice. -/
theorem C30_refuted : Each (FedFaulty (ctx tiny) 20 20 unpacked10.store) failing [(seq 0 10).map some, (seq 0 10).map some] ∧
    failingReverse = some [[some 9], [some 7, some 8], [], [some 7], [some 6], [some 4, some 5], [some 2, some 3], [some 0, some 1]] := by
  refine ⟨failing_fed, ?_⟩
  decide +kernel

/-- C31 is false: block 5 cannot be read, no error is delivered, and half of the elements are missing. -/
theorem C31_refuted : Each (FedFaulty (ctx tiny) 20 20 unpacked10.store) (failing.take 1) [(seq 0 10).map some] ∧
    (valueOf (streamTreesChunked allQuery (fun i => i.count) 20 20 9 (failing.take 1) 0) unpacked10).map offsets =
    some [[some 0, some 1], [some 2, some 3]] ∧
    (valueOf (streamTreesChunkedReverse allQuery (fun i => i.count) 20 20 0 (failing.take 1) 9) unpacked10).map offsets =
    some [[some 9], [some 7, some 8]] := by
  refine ⟨⟨failing_fed.1, trivial⟩, ?_, ?_⟩ <;> decide +kernel

end Banyan
