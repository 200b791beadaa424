import Verif.Proofs.Channel
import Verif.Props.Stream
/-
Streaming with background threads: C54.
-/
set_option autoImplicit false
namespace Banyan

open PTree Concrete

variable {T : TreeTypes} {V : Type} {E : Env T V} {X : Type} {cx : Ctx E} {P : ThreadedParams T X}
  {W : Index T × Secrets E × Nat → St E → Prop} {covers : T.Summary → T.Key → Prop} {m : Nat → T.Key → Bool} {n : Nat} {lo hi σ : E.σ}

/-- C54: whatever the schedule, the capacity of the channel, and the changes of the world (store and caches) are: if the consumer
gets to the end of the stream then it has got what the stream without threads delivers when its calls of `next` find the world in states in
which the background tasks were active. If a chunk goes beyond the end of the range then the stream without threads stops with this chunk. -/
theorem C54_schedules {trees : List (Tree E)} {start : Nat} {w : St E} {as : List (Actor E)} {S : Threaded E X}
    (he : Exec P W (Threaded.new trees start w) as S) (hend : S.ended = true) (n : Nat) (hn : S.out.length < n) :
    ∃ arrivals : List (Arrival E), arrivals.map Prod.snd = trees ∧ (∀ a ∈ arrivals, ∀ tree, a.2 = some tree → ∀ n s, W tree (a.1 n s)) ∧
      ∀ s, ∃ l s', streamTreesChunked P.query P.mkExtra P.fuel n P.stop arrivals start s = .ok l s' ∧ l <+: S.out.map .ok ∧
        (l = S.out.map .ok ∨ ∃ ch, .ok ch ∈ l ∧ P.stop < ch.range.2) := by
  obtain ⟨o, hc⟩ := he.complete hend
  obtain ⟨arrivals, k1, k2, k3⟩ := hc.sequential n hn
  refine ⟨arrivals, k1, k2, fun s => ?_⟩
  obtain ⟨s', k4⟩ := k3 s
  exact streamTreesChunked_threaded k4

/-- All trees are snapshots whose blocks are in the store `σ`, though the blocks may be unavailable when they are needed. -/
def Snapshots (cx : Ctx E) (fuel : Nat) (σ : E.σ) (trees : List (Tree E)) (snaps : List (St E)) : Prop :=
  Each (fun tree s => Reach cx s ∧ Small E s ∧ tree = snapshot cx s ∧ 2 * rootLevel s.root + 4 ≤ fuel ∧ StoreLe E s.store σ) trees snaps

theorem Snapshots.behind (ok : cx.Ok) {fuel : Nat} {trees : List (Tree E)} {snaps : List (St E)} (h : Snapshots cx fuel σ trees snaps) :
    ∃ ts : List (Option (PTree T V)), Each (Behind cx fuel) snaps ts ∧ Each (fun s t => Contains cx s (optContent t)) snaps ts := by
  unfold Snapshots at h
  induction trees generalizing snaps with
  | nil =>
    cases snaps with
    | nil => exact ⟨[], trivial, trivial⟩
    | cons x xs => exact False.elim h
  | cons tree trees ih =>
    cases snaps with
    | nil => exact False.elim h
    | cons x xs =>
      obtain ⟨⟨h1, h2, h3, h4, h5⟩, h⟩ := h
      obtain ⟨ts, ih, ih'⟩ := ih h
      obtain ⟨t, hi⟩ := ok.inv h1 h2
      have hsn := hi.holds.snap
      have hroot := hsn.root
      have hcon := (hi.holds.contains ok.env ok.types (c := optContent t)).mpr rfl
      cases t with
      | none => exact ⟨none :: ts, ⟨⟨by unfold snapshot; rw [hroot]; rfl, by rw [hroot]; rfl⟩, ih⟩, hcon, ih'⟩
      | some t =>
        refine ⟨some t :: ts, ⟨⟨by unfold snapshot; rw [hroot]; rfl, by rw [hroot]; rfl, hsn.stored t rfl, hsn.wf t rfl, ?_⟩, ih⟩, hcon, ih'⟩
        rw [hsn.level] at h4
        exact h4

theorem Snapshots.iterable {fuel : Nat} {trees : List (Tree E)} {snaps : List (St E)} (h : Snapshots cx fuel σ trees snaps) (hfu : fuel = P.fuel)
    {ts : List (Option (PTree T V))} (hb : Each (Behind cx fuel) snaps ts) :
    (∀ tree ∈ trees, Iterable P σ (fun x => x.2.1 = cx.sec) tree) ∧
      (trees.map treeTurns).sum ≤ (snaps.map fun s => 6 * rootCount s.root + 4).sum := by
  subst hfu
  unfold Snapshots at h
  induction trees generalizing snaps ts with
  | nil =>
    refine ⟨fun tree h => absurd h List.not_mem_nil, ?_⟩
    exact Nat.zero_le _
  | cons tree trees ih =>
    cases snaps with
    | nil => exact False.elim h
    | cons x xs =>
      cases ts with
      | nil => exact False.elim hb
      | cons t ts =>
        obtain ⟨⟨h1, h2, h3, h4, h5⟩, h⟩ := h
        obtain ⟨i1, i2⟩ := ih h hb.2
        have hb := hb.1
        cases t with
        | none =>
          rw [hb.1] at h3
          subst h3
          refine ⟨fun tree hm => ?_, ?_⟩
          · rcases List.mem_cons.mp hm with rfl | hm
            · trivial
            · exact i1 tree hm
          · simp only [List.map_cons, List.sum_cons, treeTurns]
            omega
        | some t =>
          obtain ⟨b1, b2, b3, b4, b5⟩ := hb
          rw [b1] at h3
          subst h3
          refine ⟨fun tree hm => ?_, ?_⟩
          · rcases List.mem_cons.mp hm with rfl | hm
            · exact ⟨rfl, cx.cfg, t, rfl, b3.mono h5, b4, b5⟩
            · exact i1 tree hm
          · simp only [List.map_cons, List.sum_cons, treeTurns]
            omega

theorem Snapshots.left (ok : cx.Ok) {trees : List (Tree E)} {snaps : List (St E)} (h : Snapshots cx P.fuel σ trees snaps) (start : Nat) (w : St E) :
    ∃ k, k ≤ (snaps.map fun s => 6 * rootCount s.root + 4).sum + 2 ∧ Left P σ (fun x => x.2.1 = cx.sec) (Threaded.new (X := X) trees start w) k := by
  obtain ⟨ts, hb, _⟩ := h.behind ok
  obtain ⟨h1, h2⟩ := h.iterable (P := P) rfl hb
  refine ⟨(trees.map treeTurns).sum + 2, by omega, h1, 0, rfl, ?_⟩
  simp [Threaded.new, flag]

/-- C54: also if blocks are lost, there is no deadlock and no endless execution. The number of turns of consumer and background tasks is
limited; unless the consumer has got the end of the stream or has dropped it, one of the two can take a turn; a background task
whose consumer has gone can go on until it is done. -/
theorem C54_progress (ok : cx.Ok) (hw : ∀ tree w, W tree w → Faulty cx.sec σ w) {trees : List (Tree E)} {snaps : List (St E)}
    (ht : Snapshots cx P.fuel σ trees snaps) {start : Nat} {w : St E} {as : List (Actor E)} {S : Threaded E X}
    (he : Exec P W (Threaded.new trees start w) as S) :
    (as.filter Actor.isTurn).length ≤ (snaps.map fun s => 6 * rootCount s.root + 4).sum + 2 ∧
    ((∀ p, S.pipe = some p → W p.tree S.world) →
      (S.dropped = false → S.ended = false → (∃ S', S.step P .worker = some S') ∨ ∃ S', S.step P .consumer = some S') ∧
      (S.dropped = true → ∀ p, S.pipe = some p → p.worker = .done ∨ ∃ S', S.step P .worker = some S')) := by
  obtain ⟨k, h1, h2⟩ := ht.left ok start w
  have hw' : ∀ tree w, tree.2.1 = cx.sec → W tree w → Faulty tree.2.1 σ w := fun tree w h hW => h ▸ hw tree w hW
  obtain ⟨k', h3, h4⟩ := he.left ok.env ok.types hw' h2
  refine ⟨by omega, fun hcur => ?_⟩
  have hf : ∀ p, S.pipe = some p → Faulty p.tree.2.1 σ S.world := fun p hp => hw' _ _ (h3.known hp) (hcur p hp)
  refine ⟨fun hd hend => ?_, fun hd p hp => ?_⟩
  · rcases h3.no_deadlock ok.env ok.types hf hd hend with h | h
    · exact .inl (Option.isSome_iff_exists.mp h)
    · exact .inr (Option.isSome_iff_exists.mp h)
  · rcases worker_waits ok.env ok.types h3 hp (hf p hp) with h | h | ⟨h, _⟩
    · exact .inr (Option.isSome_iff_exists.mp h)
    · exact .inl h
    · rw [hd] at h; cases h

/-- C54: as long as the blocks of a tree are available when it is iterated, whatever the schedule and the capacity of the channel: the consumer
gets the chunks of the stream without threads in the same order; at the end of the stream all of them. Only if the end of the range is
reached, this is followed by chunks without elements. -/
theorem C54_same_chunks (ok : cx.Ok) (hcov : Covering T covers) (hq : QueryFor P.query covers m) {arrivals : List (Arrival E)} {snaps : List (St E)}
    (ht : Snapshots cx P.fuel hi (arrivals.map Prod.snd) snaps)
    (hp : Each (fun (a : Arrival E) s => Provides cx.sec lo hi s.store a.1 ∧ rootCount s.root < n) arrivals snaps)
    (start : Nat) {s : St E} (hs : Between cx.sec lo hi s) :
    ∃ (direct : List (Chunk T V X)) (s' : St E) (rest : List (Chunk T V X)),
      streamTreesChunked P.query P.mkExtra P.fuel n P.stop arrivals start s = .ok (direct.map .ok) s' ∧
      rest.flatMap Chunk.data = [] ∧ ((∀ x ∈ snaps, rootCount x.root ≤ P.stop) → rest = []) ∧
      ∀ (w : St E) (as : List (Actor E)) (S : Threaded E X),
        Exec P (Undisturbed cx lo hi snaps) (Threaded.new (arrivals.map Prod.snd) start w) as S →
        S.out <+: direct ++ rest ∧ (S.ended = true → S.out = direct ++ rest) := by
  obtain ⟨ts, hb, hcont⟩ := ht.behind ok
  have hn : ∀ x ∈ snaps, rootCount x.root < n := (hp.imp fun _ _ _ _ h => h.2).right
  have hfeed := ht.of_map (Q := fun (a : Arrival E) s => Reach cx s ∧ Small E s ∧ a.2 = snapshot cx s ∧ 2 * rootLevel s.root + 4 ≤ P.fuel ∧ StoreLe E s.store hi)
    fun _ _ _ _ h => h
  obtain ⟨s1, h1⟩ := streamTreesThreaded_spec (q := P.query) (mkExtra := P.mkExtra) (stop := P.stop) ok.env ok.types hb
    ((hfeed.and hp).imp fun _ _ _ _ h => ⟨h.1.2.2.1, fun _ => h.2.1⟩) hn start hs
  obtain ⟨l, s2, h2, h3, h4⟩ := streamTreesChunked_threaded h1
  have hfed : Each (Fed cx P.fuel n lo hi) arrivals (ts.map optContent) := by
    refine Each.map_right (((hfeed.and hp).trans hcont).imp fun a _ t _ h => ?_)
    obtain ⟨x, ⟨⟨g1, g2, g3, g4, g5⟩, g6, g7⟩, g8⟩ := h
    refine ⟨x, ⟨g1, g2, g8, .inl g3, g4, ?_⟩, g6⟩
    obtain ⟨t', hi'⟩ := ok.inv g1 g2
    rw [(hi'.holds.contains ok.env ok.types).mp g8, ← rootCount_eq ok.types hi'.holds]
    exact g7
  obtain ⟨direct, s3, k1, _, k2⟩ := C29_stream ok hcov hq P.mkExtra hfed start P.stop hs
  rw [k1] at h2
  cases h2
  obtain ⟨rest', h3⟩ := h3
  obtain ⟨rest, hrest⟩ : ∃ rest, threadedChunks P.query P.mkExtra P.stop ts start = direct ++ rest := by
    have hlen := congrArg List.length h3
    rw [List.length_append, List.length_map, List.length_map] at hlen
    have htk := congrArg (List.take direct.length) h3
    rw [List.take_left' (by simp), ← List.map_take] at htk
    refine ⟨(threadedChunks P.query P.mkExtra P.stop ts start).drop direct.length, ?_⟩
    have : direct = (threadedChunks P.query P.mkExtra P.stop ts start).take direct.length :=
      (List.map_inj_right (f := (Except.ok : Chunk T V X → Except String (Chunk T V X))) (fun _ _ h => by cases h; rfl)).mp htk
    conv => rhs; arg 1; rw [this]
    rw [List.take_append_drop]
  have hdata := (threadedChunks_data ok.types hcov hq (mkExtra := P.mkExtra) (stop := P.stop) hb start).1
  have hall : ∀ (w : St E) (as : List (Actor E)) (S : Threaded E X),
      Exec P (Undisturbed cx lo hi snaps) (Threaded.new (arrivals.map Prod.snd) start w) as S → S.ended = true → S.out = direct ++ rest := by
    intro w as S he hend
    obtain ⟨o, hc⟩ := he.complete hend
    obtain ⟨N, hN1, hN2⟩ : ∃ N, S.out.length < N ∧ n ≤ N := ⟨S.out.length + 1 + n, by omega, by omega⟩
    obtain ⟨arrivals', q1, q2, q3⟩ := hc.sequential N hN1
    have ht' := ht
    rw [← q1] at ht'
    have hfeed' := ht'.of_map (Q := fun (a : Arrival E) s => a.2 = snapshot cx s ∧ (a.2 ≠ none → Provides cx.sec lo hi s.store a.1)) fun a ha x hx h => by
      obtain ⟨_, _, g3, _, _⟩ := h
      refine ⟨g3, fun hne n s _ => ?_⟩
      cases htree : a.2 with
      | none => exact absurd htree hne
      | some tree =>
        obtain ⟨w1, w2⟩ := q2 a ha tree htree n s
        exact ⟨w1, w2 x hx (g3.symm.trans htree)⟩
    obtain ⟨s5, q4⟩ := streamTreesThreaded_spec (q := P.query) (mkExtra := P.mkExtra) (stop := P.stop) (n := N) ok.env ok.types hb hfeed'
      (fun x hx => Nat.lt_of_lt_of_le (hn x hx) hN2) start hs
    obtain ⟨s6, q5⟩ := q3 s
    rw [q4] at q5
    injection q5 with q5 _
    rw [← hrest]
    exact ((List.map_inj_right (fun _ _ h => by cases h; rfl)).mp q5).symm
  refine ⟨direct, _, rest, k1, ?_, ?_, ?_⟩
  · rw [hrest, List.flatMap_append, k2] at hdata
    exact List.append_cancel_left (hdata.trans (List.append_nil _).symm)
  · intro hsmall
    rcases h4 with h4 | ⟨ch, h4, h5⟩
    · have := congrArg List.length h4
      rw [hrest, List.length_map, List.length_map, List.length_append] at this
      exact List.eq_nil_of_length_eq_zero (by omega)
    · exfalso
      simp only [List.mem_map, Except.ok.injEq, exists_eq_right] at h4
      obtain ⟨x, g1, g2⟩ := threadedChunks_range ok.types hb start ch (by rw [hrest]; exact List.mem_append_left _ h4)
      have := hsmall x g1
      omega
  · intro w as S he
    refine ⟨?_, hall w as S he⟩
    obtain ⟨as', S', e1, e2, e3, e4⟩ := he.undropped rfl
    obtain ⟨k, g1, g2⟩ := ht.left ok (P := P) start w
    have hw' : ∀ (tree : Index T × Secrets E × Nat) w, tree.2.1 = cx.sec → Undisturbed cx lo hi snaps tree w → Faulty tree.2.1 hi w :=
      fun tree w h hW => h ▸ hW.1.faulty
    obtain ⟨k', g3, _⟩ := e1.left ok.env ok.types hw' g2
    have hstores : ∀ x ∈ snaps, StoreLe E x.store hi := (hfeed.imp fun _ _ _ _ h => h.2.2.2.2).right
    obtain ⟨bs, S'', f1, f2, f3, f4⟩ := g3.completes ok.env ok.types hw' (fun tree _ => ⟨{ s with store := hi },
      ⟨hs.lo.trans hs.hi, StoreLe.refl _, Coherent.mono (s := s) hs.hi rfl hs.coherent⟩, fun x hx _ => hstores x hx⟩) e2
    rw [← e3, ← hall w _ S'' (e1.trans f1) f2]
    exact f4

/-! ### examples

The tree grows from 7 to 10 elements while it is streamed. -/

/-- The elements with keys from 3 to 8 and offsets up to 7; capacity 1 as in the code. -/
def params : ThreadedParams types Nat := ⟨keyRange 3 8, fun i => i.count, 7, 1, 20⟩

def takeTurns {E : Env T V} (P : ThreadedParams T X) (S : Threaded E X) : List (Actor E) → Option (Threaded E X)
  | [] => some S
  | a :: as => (S.step P a).bind fun S => takeTurns P S as

theorem exec_of_turns {E : Env T V} {P : ThreadedParams T X} {S0 S S' : Threaded E X} {as bs : List (Actor E)} (h0 : Exec P (fun _ _ => True) S0 as S)
    (h : takeTurns P S bs = some S') : Exec P (fun _ _ => True) S0 (as ++ bs) S' := by
  induction bs generalizing S as with
  | nil => cases h; simpa using h0
  | cons b bs ih =>
    simp only [takeTurns] at h
    cases hs : S.step P b with
    | none => rw [hs] at h; cases h
    | some S1 =>
      rw [hs] at h
      rw [List.append_cons]
      exact ih (.snoc b h0 (fun _ _ _ => trivial) hs) h

def threaded0 : Threaded env Nat := Threaded.new [snapshot (ctx tiny) packed7, snapshot (ctx tiny) unpacked10] 2 packed7

/-- A schedule in which the background task runs ahead until the channel is full, and the second tree becomes available in the middle. -/
def schedule : List (Actor env) :=
  [.consumer] ++ List.replicate 7 .worker ++ [.consumer] ++ List.replicate 4 .worker ++ [.consumer] ++ List.replicate 4 .worker ++
  [.consumer, .world unpacked10] ++ List.replicate 2 .worker ++ [.consumer, .consumer, .consumer] ++ List.replicate 7 .worker ++ [.consumer] ++
  List.replicate 4 .worker ++ [.consumer] ++ List.replicate 2 .worker ++ [.consumer, .consumer, .consumer]

/-- The offsets in the chunks the consumer has got. -/
def shown (S : Threaded env Nat) : List (List Nat) := S.out.map fun ch => ch.data.map fun y => y.1

theorem schedule_runs : ((takeTurns params threaded0 schedule).map fun S => (shown S, S.ended)) = some ([[], [3], [4, 5], [6], [], [7], []], true) := by
  decide +kernel

theorem shown_length (S : Threaded env Nat) : (shown S).length = S.out.length := List.length_map _

theorem schedule_exec : ∃ S, Exec params (fun _ _ => True) threaded0 schedule S ∧ S.ended = true ∧ shown S = [[], [3], [4, 5], [6], [], [7], []] := by
  have h1 := schedule_runs
  generalize schedule = as at h1 ⊢
  cases h : takeTurns params threaded0 as with
  | none => rw [h] at h1; cases h1
  | some S =>
    rw [h, Option.map_some] at h1
    have h1 := Option.some.inj h1
    exact ⟨S, exec_of_turns (as := []) (.nil _) h, congrArg Prod.snd h1, congrArg Prod.fst h1⟩

/-- C54: the hypotheses of `C54_schedules` hold for this schedule. -/
example : ∃ S, Exec params (fun _ _ => True) threaded0 schedule S ∧ shown S = [[], [3], [4, 5], [6], [], [7], []] ∧
    ∃ arrivals : List (Arrival env), arrivals.map Prod.snd = [snapshot (ctx tiny) packed7, snapshot (ctx tiny) unpacked10] ∧
      ∃ l s', streamTreesChunked params.query params.mkExtra params.fuel 20 params.stop arrivals 2 packed7 = .ok l s' ∧ l <+: S.out.map .ok := by
  obtain ⟨S, he, hend, hs⟩ := schedule_exec
  have hlen := shown_length S
  rw [hs] at hlen
  have hlen : 7 = S.out.length := hlen
  obtain ⟨arrivals, k1, _, k3⟩ := C54_schedules he hend 20 (by omega)
  obtain ⟨l, s', k4, k5, _⟩ := k3 packed7
  exact ⟨S, he, hs, arrivals, k1, l, s', k4, k5⟩

theorem Snapshots.nil : Snapshots cx n σ [] [] := trivial

theorem Snapshots.cons {s : St E} {trees : List (Tree E)} {snaps : List (St E)} (h1 : Reach cx s) (h2 : Small E s) (h3 : 2 * rootLevel s.root + 4 ≤ n)
    (h4 : StoreLe E s.store σ) (h : Snapshots cx n σ trees snaps) : Snapshots cx n σ (snapshot cx s :: trees) (s :: snaps) :=
  ⟨⟨h1, h2, rfl, h3, h4⟩, h⟩

theorem growing_snapshots : Snapshots (ctx tiny) 20 unpacked10.store [snapshot (ctx tiny) packed7, snapshot (ctx tiny) unpacked10] [packed7, unpacked10] :=
  .cons packed7_reach packed7_small (by decide +kernel) packed7_le
    (.cons unpacked10_reach unpacked10_small (by decide +kernel) (StoreLe.refl _) .nil)

theorem growing_turns : ([packed7, unpacked10].map fun s => 6 * rootCount s.root + 4).sum + 2 = 112 := by decide +kernel

/-- C54: no schedule has more than 112 turns for these two trees, not even if blocks get lost. -/
example {as : List (Actor env)} {S : Threaded env Nat} (he : Exec params (fun _ w => Faulty (ctx tiny).sec unpacked10.store w) threaded0 as S) :
    (as.filter Actor.isTurn).length ≤ 112 := by
  have h := (C54_progress (cx := ctx tiny) (σ := unpacked10.store) tiny_ok (fun _ _ h => h) growing_snapshots he).1
  rw [growing_turns] at h
  exact h

theorem provides_nil : Each (fun (a : Arrival E) (s : St E) => Provides cx.sec lo hi s.store a.1 ∧ rootCount s.root < n) [] [] := trivial

theorem provides_cons {w : Nat → St E → St E} {tree : Tree E} {s : St E} {arrivals : List (Arrival E)} {snaps : List (St E)}
    (h1 : Provides cx.sec lo hi s.store w) (h2 : rootCount s.root < n)
    (h : Each (fun (a : Arrival E) s => Provides cx.sec lo hi s.store a.1 ∧ rootCount s.root < n) arrivals snaps) :
    Each (fun (a : Arrival E) s => Provides cx.sec lo hi s.store a.1 ∧ rootCount s.root < n) ((w, tree) :: arrivals) (s :: snaps) := ⟨⟨h1, h2⟩, h⟩

theorem idle_provides (sec : Secrets E) : Provides sec lo hi lo idle := fun _ _ h => ⟨h, h.lo⟩

theorem growing_provides : Each (fun (a : Arrival env) s => Provides (ctx tiny).sec packed7.store unpacked10.store s.store a.1 ∧ rootCount s.root < 20)
    growing [packed7, unpacked10] :=
  provides_cons (idle_provides _) (by decide +kernel) (provides_cons (replaced_provides _ packed7_le) (by decide +kernel) provides_nil)

theorem map_snd_two {α β : Type} (a b : α) (x y : β) : [(a, x), (b, y)].map Prod.snd = [x, y] := rfl

theorem growing_trees : growing.map Prod.snd = [snapshot (ctx tiny) packed7, snapshot (ctx tiny) unpacked10] := by
  rw [growing]
  exact map_snd_two _ _ _ _

/-- C54: the hypotheses of `C54_same_chunks` hold for the two trees. -/
example : ∃ (direct : List (Chunk types Nat Nat)) (s' : St env) (rest : List (Chunk types Nat Nat)),
    streamTreesChunked params.query params.mkExtra params.fuel 20 params.stop growing 2 packed7 = .ok (direct.map .ok) s' ∧
    rest.flatMap Chunk.data = [] ∧
    ∀ (as : List (Actor env)) (S : Threaded env Nat),
      Exec params (Undisturbed (ctx tiny) packed7.store unpacked10.store [packed7, unpacked10]) threaded0 as S →
      S.out <+: direct ++ rest ∧ (S.ended = true → S.out = direct ++ rest) := by
  obtain ⟨direct, s', rest, h1, h2, _, h4⟩ := C54_same_chunks (P := params) (n := 20) (lo := packed7.store) tiny_ok covering (keyRange_queryFor 3 8)
    (by rw [growing_trees]; exact growing_snapshots) growing_provides 2 packed7_between
  rw [growing_trees] at h4
  exact ⟨direct, s', rest, h1, h2, fun as S he => h4 packed7 as S he⟩

end Banyan
