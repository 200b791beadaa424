import Verif.Spec.Channel
import Verif.Proofs.Stream
/-
Threaded streams.
-/
set_option autoImplicit false
namespace Banyan

open PTree

variable {T : TreeTypes} {V : Type} {E : Env T V} {X : Type} {cx : Ctx E} {P : ThreadedParams T X}
  {W : Index T × Secrets E × Nat → St E → Prop}

/-! ### one tree -/

/-- Calls of `next` which delivered the chunks, each in some state of the world that is as in `W`. -/
inductive Calls (P : ThreadedParams T X) (W : Index T × Secrets E × Nat → St E → Prop) (tree : Index T × Secrets E × Nat) (q : Query T) :
    IterState T → Nat → List (Chunk T V X) → IterState T → Nat → Prop
  | nil (it o) : Calls P W tree q it o [] it o
  | cons {it it' it'' o o' l} (ch : Chunk T V X) (w w' : St E) : W tree w →
      iterNext tree.2.1 q .forward P.mkExtra P.fuel it w = .ok (some (.ok ch), it') w' → Calls P W tree q it' (max o ch.range.2) l it'' o' →
      Calls P W tree q it o (ch :: l) it'' o'

theorem Calls.snoc {tree : Index T × Secrets E × Nat} {q : Query T} {it it' it'' : IterState T} {o o' : Nat} {l : List (Chunk T V X)}
    (h : Calls P W tree q it o l it' o') (ch : Chunk T V X) (w w' : St E) (hw : W tree w)
    (hn : iterNext tree.2.1 q .forward P.mkExtra P.fuel it' w = .ok (some (.ok ch), it'') w') :
    Calls P W tree q it o (l ++ [ch]) it'' (max o' ch.range.2) := by
  induction h with
  | nil => exact .cons ch w w' hw hn (.nil _ _)
  | cons ch' v v' hv hn' _ ih => exact .cons ch' v v' hv hn' (ih hn)

/-- The last call of `next` for a tree. -/
def LastCall (P : ThreadedParams T X) (W : Index T × Secrets E × Nat → St E → Prop) (tree : Index T × Secrets E × Nat) (q : Query T) (it : IterState T) : Prop :=
  ∃ w w' it' r, W tree w ∧ iterNext (V := V) (X := X) tree.2.1 q .forward P.mkExtra P.fuel it w = .ok (r, it') w' ∧ (r = none ∨ ∃ msg, r = some (.error msg))

theorem Calls.sequential {tree : Index T × Secrets E × Nat} {q : Query T} {it it' : IterState T} {o o' : Nat} {l : List (Chunk T V X)}
    (h : Calls P W tree q it o l it' o') (he : LastCall P W tree q it') (n : Nat) (hn : l.length < n) :
    ∃ world : Nat → St E → St E, (∀ n s, W tree (world n s)) ∧
      ∀ s, ∃ s', streamTreeThreaded world tree.2.1 q P.mkExtra P.fuel n it o s = .ok (l.map .ok, o') s' := by
  induction h generalizing n with
  | nil it o =>
    obtain ⟨w, w', it', r, hw, hr, hrr⟩ := he
    refine ⟨fun _ _ => w, fun _ _ => hw, fun s => ⟨w', ?_⟩⟩
    obtain ⟨n, rfl⟩ : ∃ k, n = k + 1 := ⟨n - 1, by simp only [List.length_nil] at hn; omega⟩
    unfold streamTreeThreaded
    have hmod : (modify (fun _ => w) : M E Unit) s = .ok () w := rfl
    rw [bind_apply, hmod]
    simp only
    rw [bind_apply, hr]
    rcases hrr with rfl | ⟨msg, rfl⟩ <;> rfl
  | cons ch w w' hw hr _ ih =>
    obtain ⟨n, rfl⟩ : ∃ k, n = k + 1 := ⟨n - 1, by simp only [List.length_cons] at hn; omega⟩
    obtain ⟨world, h1, h2⟩ := ih he n (by simpa using hn)
    have hind : ∀ (world' : Nat → St E → St E), (∀ k < n, world' k = world k) → ∀ (m : Nat), m ≤ n → ∀ it o s,
        streamTreeThreaded (V := V) world' tree.2.1 q P.mkExtra P.fuel m it o s = streamTreeThreaded world tree.2.1 q P.mkExtra P.fuel m it o s := by
      intro world' hww m
      induction m with
      | zero => intros; rfl
      | succ m ihm =>
        intro hm it o s
        unfold streamTreeThreaded
        rw [hww m (by omega)]
        rw [bind_apply, bind_apply]
        cases (modify (world m) : M E Unit) s with
        | error e s => rfl
        | ok a s =>
          simp only
          rw [bind_apply, bind_apply]
          cases iterNext tree.2.1 q .forward P.mkExtra P.fuel it s with
          | error e s => rfl
          | ok a s =>
            obtain ⟨r, it⟩ := a
            cases r with
            | none => rfl
            | some r =>
              cases r with
              | error e => rfl
              | ok ch =>
                simp only
                rw [bind_apply, bind_apply, ihm (by omega)]
    refine ⟨fun k s => if k = n then w else world k s, ?_, fun s => ?_⟩
    · intro k s
      simp only
      split
      · exact hw
      · exact h1 k s
    · obtain ⟨s', h3⟩ := h2 w'
      refine ⟨s', ?_⟩
      unfold streamTreeThreaded
      have hmod : (modify (fun s => if n = n then w else world n s) : M E Unit) s = .ok () w := by
        simp only [if_true]; rfl
      rw [bind_apply, hmod]
      simp only
      rw [bind_apply, hr]
      simp only
      rw [bind_apply, hind _ _ n (Nat.le_refl n), h3]
      · rfl
      · intro k hk
        funext s
        simp [Nat.ne_of_lt hk]

/-! ### all trees -/

/-- The trees have been read completely. -/
inductive Complete (P : ThreadedParams T X) (W : Index T × Secrets E × Nat → St E → Prop) : List (Tree E) → Nat → List (Chunk T V X) → Nat → Prop
  | nil (o) : Complete P W [] o [] o
  | skip {ts o l o'} : Complete P W ts o l o' → Complete P W (none :: ts) o l o'
  | tree {tree ts o l o' it l' o''} : Calls P W tree (andQuery (offsetRangeQuery (RangeB.closed o P.stop)) P.query) (IterState.new .forward tree.1) o l it o' →
      LastCall (V := V) P W tree (andQuery (offsetRangeQuery (RangeB.closed o P.stop)) P.query) it → Complete P W ts o' l' o'' →
      Complete P W (some tree :: ts) o (l ++ l') o''

theorem Complete.trans {ts ts' : List (Tree E)} {o o' o'' : Nat} {l l' : List (Chunk T V X)} (h : Complete P W ts o l o') (h' : Complete P W ts' o' l' o'') :
    Complete P W (ts ++ ts') o (l ++ l') o'' := by
  induction h with
  | nil => exact h'
  | skip _ ih => exact .skip (ih h')
  | tree h1 h2 _ ih =>
    rw [List.append_assoc]
    exact .tree h1 h2 (ih h')

theorem Complete.sequential {ts : List (Tree E)} {o o' : Nat} {l : List (Chunk T V X)} (h : Complete P W ts o l o') (n : Nat) (hn : l.length < n) :
    ∃ arrivals : List (Arrival E), arrivals.map Prod.snd = ts ∧ (∀ a ∈ arrivals, ∀ tree, a.2 = some tree → ∀ n s, W tree (a.1 n s)) ∧
      ∀ s, ∃ s', streamTreesThreaded P.query P.mkExtra P.fuel n P.stop arrivals o s = .ok (l.map .ok) s' := by
  induction h with
  | nil => exact ⟨[], rfl, by simp, fun s => ⟨s, rfl⟩⟩
  | skip _ ih =>
    obtain ⟨as, h1, h2, h3⟩ := ih hn
    refine ⟨(fun _ s => s, none) :: as, by simp [h1], ?_, fun s => ?_⟩
    · intro a ha tree ht
      rcases List.mem_cons.mp ha with rfl | ha
      · cases ht
      · exact h2 a ha tree ht
    · obtain ⟨s', h4⟩ := h3 s
      exact ⟨s', h4⟩
  | @tree tree ts o l o' it l' o'' hc he _ ih =>
    rw [List.length_append] at hn
    obtain ⟨as, h1, h2, h3⟩ := ih (by omega)
    obtain ⟨world, g1, g2⟩ := hc.sequential he n (by omega)
    refine ⟨(world, some tree) :: as, by simp [h1], ?_, fun s => ?_⟩
    · intro a ha tree ht
      rcases List.mem_cons.mp ha with rfl | ha
      · cases ht; exact g1
      · exact h2 a ha tree ht
    · obtain ⟨s1, h4⟩ := g2 s
      obtain ⟨s2, h5⟩ := h3 s1
      refine ⟨s2, ?_⟩
      unfold streamTreesThreaded
      obtain ⟨i, sec, z⟩ := tree
      simp only
      rw [bind_apply, h4]
      simp only
      rw [bind_apply, h5]
      simp only [List.map_append]
      rfl

/-! ### the invariant -/

/-- The state of the background task after the given calls of `next`, with the chunks that have been put into the channel. -/
def WorkerInv (P : ThreadedParams T X) (W : Index T × Secrets E × Nat → St E → Prop) (tree : Index T × Secrets E × Nat) (q : Query T) (o offset : Nat)
    (sent : List (Chunk T V X)) : Worker T V X → Prop
  | .running it => Calls P W tree q (IterState.new .forward tree.1) o sent it offset
  | .flushing it => Calls P W tree q (IterState.new .forward tree.1) o sent it offset
  | .counting it ch => ∃ it', Calls P W tree q (IterState.new .forward tree.1) o sent it' offset ∧ ∃ w w', W tree w ∧
      iterNext tree.2.1 q .forward P.mkExtra P.fuel it' w = .ok (some (.ok ch), it) w'
  | .sending it ch => Calls P W tree q (IterState.new .forward tree.1) o (sent ++ [ch]) it offset
  | .done => ∃ it, Calls P W tree q (IterState.new .forward tree.1) o sent it offset ∧ LastCall (V := V) P W tree q it

/-- All that the consumer has got, and what is in the channel, are the chunks of the trees so far. -/
def Faithful (P : ThreadedParams T X) (W : Index T × Secrets E × Nat → St E → Prop) (trees : List (Tree E)) (start : Nat) (S : Threaded E X) : Prop :=
  ∃ past l o, Complete P W past start l o ∧
    match S.pipe with
    | none => trees = past ++ S.trees ∧ S.out = l ∧ S.offset = o ∧ (S.ended = true → S.trees = [])
    | some p => trees = past ++ some p.tree :: S.trees ∧ p.query = andQuery (offsetRangeQuery (RangeB.closed o P.stop)) P.query ∧ S.ended = false ∧
        ∃ sent, S.out ++ p.buffer = l ++ sent ∧ WorkerInv P W p.tree p.query o S.offset sent p.worker

theorem Faithful.worker {trees : List (Tree E)} {start : Nat} {S S' : Threaded E X} (h : Faithful P W trees start S) (hd : S.dropped = false)
    (hw : ∀ p, S.pipe = some p → W p.tree S.world) (hs : S.workerStep P = some S') : Faithful P W trees start S' := by
  obtain ⟨past, l, o, h1, h2⟩ := h
  unfold Threaded.workerStep at hs
  cases hp : S.pipe with
  | none => rw [hp] at hs; cases hs
  | some p =>
    rw [hp] at hs h2
    have hw := hw p hp
    obtain ⟨h2, h3, h3', sent, h4, h5⟩ := h2
    obtain ⟨tree, query, worker, buffer⟩ := p
    cases worker with
    | running it =>
      simp only at hs
      split at hs
      · rename_i chunk it' w hn
        cases hs
        exact ⟨past, l, o, h1, h2, h3, h3', sent, h4, it, h5, S.world, w, hw, hn⟩
      · rename_i r w hne hn
        cases hs
        refine ⟨past, l, o, h1, h2, h3, h3', sent, h4, it, h5, S.world, w, r.2, r.1, hw, hn, ?_⟩
        obtain ⟨r1, r2⟩ := r
        cases r1 with
        | none => exact .inl rfl
        | some r1 =>
          cases r1 with
          | error m => exact .inr ⟨m, rfl⟩
          | ok ch => exact absurd rfl (hne ch r2)
      · cases hs
    | counting it ch =>
      cases hs
      obtain ⟨it', h5, w, w', hw, hn⟩ := h5
      exact ⟨past, l, o, h1, h2, h3, h3', sent, h4, h5.snoc ch w w' hw hn⟩
    | sending it ch =>
      simp only at hs
      rw [if_neg (by simp [hd])] at hs
      split at hs
      · cases hs
        refine ⟨past, l, o, h1, h2, h3, h3', sent ++ [ch], ?_, h5⟩
        simp only at h4 ⊢
        rw [← List.append_assoc, h4, List.append_assoc]
      · cases hs
    | flushing it =>
      simp only at hs
      split at hs
      · cases hs
        exact ⟨past, l, o, h1, h2, h3, h3', sent, h4, h5⟩
      · cases hs
    | done => cases hs

theorem Faithful.consumer {trees : List (Tree E)} {start : Nat} {S S' : Threaded E X} (h : Faithful P W trees start S)
    (hs : S.consumerStep P = some S') : Faithful P W trees start S' := by
  obtain ⟨past, l, o, h1, h2⟩ := h
  unfold Threaded.consumerStep at hs
  split at hs
  · cases hs
  · rename_i hend
    have hne : S.ended = false := by cases he : S.ended <;> simp [he] at hend ⊢
    cases hp : S.pipe with
    | none =>
      rw [hp] at hs h2
      obtain ⟨h2, h3, h4, h5⟩ := h2
      cases ht : S.trees with
      | nil =>
        rw [ht] at hs
        cases hs
        rw [ht] at h2
        exact ⟨past, l, o, h1, h2, h3, h4, fun _ => rfl⟩
      | cons t ts =>
        rw [ht] at hs h2
        cases t with
        | none =>
          cases hs
          refine ⟨past ++ [none], l, o, ?_, by simp [h2], h3, h4, fun he => by simp only at he; rw [hne] at he; cases he⟩
          simpa using h1.trans (.skip (.nil o))
        | some tree =>
          cases hs
          refine ⟨past, l, o, h1, h2, ?_, hne, [], ?_, ?_⟩
          · rw [h4]
          · simp [h3]
          · rw [← h4]; exact .nil _ _
    | some p =>
      rw [hp] at hs h2
      obtain ⟨h2, h3, h3', sent, h4, h5⟩ := h2
      obtain ⟨tree, query, worker, buffer⟩ := p
      simp only at hs h4
      cases buffer with
      | cons ch rest =>
        cases hs
        exact ⟨past, l, o, h1, h2, h3, h3', sent, by simp [← h4], h5⟩
      | nil =>
        cases worker with
        | done =>
          cases hs
          obtain ⟨it, h5, h6⟩ := h5
          simp only at h3
          subst h3
          refine ⟨past ++ [some tree], l ++ sent, S.offset, ?_, by simp [h2], by simpa using h4, rfl, fun he => by simp only at he; rw [hne] at he; cases he⟩
          have := h1.trans (Complete.tree h5 h6 (.nil _))
          simpa using this
        | _ => cases hs

theorem Faithful.new (trees : List (Tree E)) (start : Nat) (w : St E) : Faithful P W trees start (Threaded.new (X := X) trees start w) :=
  ⟨[], [], start, .nil _, rfl, rfl, rfl, fun h => by cases h⟩

theorem workerStep_frame {S S' : Threaded E X} (hs : S.workerStep P = some S') :
    S'.dropped = S.dropped ∧ S'.out = S.out ∧ S'.ended = S.ended ∧ S'.trees = S.trees := by
  unfold Threaded.workerStep at hs
  split at hs
  · cases hs
  · split at hs
    · split at hs
      · cases hs; exact ⟨rfl, rfl, rfl, rfl⟩
      · cases hs; exact ⟨rfl, rfl, rfl, rfl⟩
      · cases hs
    · cases hs; exact ⟨rfl, rfl, rfl, rfl⟩
    · split at hs
      · cases hs; exact ⟨rfl, rfl, rfl, rfl⟩
      · split at hs
        · cases hs; exact ⟨rfl, rfl, rfl, rfl⟩
        · cases hs
    · split at hs
      · cases hs; exact ⟨rfl, rfl, rfl, rfl⟩
      · cases hs
    · cases hs

theorem consumerStep_alive {S S' : Threaded E X} (hs : S.consumerStep P = some S') : S.dropped = false ∧ S.ended = false := by
  unfold Threaded.consumerStep at hs
  split at hs
  · cases hs
  · rename_i h
    cases h1 : S.dropped <;> cases h2 : S.ended <;> simp_all

theorem Exec.faithful {S0 S : Threaded E X} {as : List (Actor E)} {trees : List (Tree E)} {start : Nat} (h : Exec P W S0 as S)
    (h0 : Faithful P W trees start S0) : S.dropped = false → Faithful P W trees start S := by
  induction h with
  | nil => exact fun _ => h0
  | @snoc S' S'' as a _ hw hs ih =>
    intro hd
    cases a with
    | worker =>
      have hs : S'.workerStep P = some S'' := hs
      rw [(workerStep_frame hs).1] at hd
      exact (ih hd).worker hd (hw rfl) hs
    | consumer =>
      have hs : S'.consumerStep P = some S'' := hs
      exact (ih (consumerStep_alive hs).1).consumer hs
    | drop =>
      have hs : S'.dropStep = some S'' := hs
      unfold Threaded.dropStep at hs
      split at hs
      · cases hs
      · cases hs; cases hd
    | world w =>
      cases hs
      exact ih hd

/-! ### progress -/

/-- A tree of the input stream whose blocks are in the store `σ`. -/
def Iterable (P : ThreadedParams T X) (σ : E.σ) (K : Index T × Secrets E × Nat → Prop) : Tree E → Prop
  | none => True
  | some tree => K tree ∧ ∃ (cfg : Config) (t : PTree T V), t.index = tree.1 ∧ Stored E tree.2.1 σ t ∧ WF E t ∧ 2 * t.index.level + 4 ≤ P.fuel

/-- The number of turns that are left for the background task. -/
def WorkerLeft (P : ThreadedParams T X) (σ : E.σ) (sec : Secrets E) (q : Query T) (k : Nat) : Worker T V X → Prop
  | .running it => ∃ L rem, 2 * L + 4 ≤ P.fuel ∧ Live (V := V) sec σ q P.mkExtra L .forward it rem ∧ k = 6 * rem.length + 1
  | .counting it _ => ∃ L rem, 2 * L + 4 ≤ P.fuel ∧ Live (V := V) sec σ q P.mkExtra L .forward it rem ∧ k = 6 * rem.length + 5
  | .sending it _ => ∃ L rem, 2 * L + 4 ≤ P.fuel ∧ Live (V := V) sec σ q P.mkExtra L .forward it rem ∧ k = 6 * rem.length + 4
  | .flushing it => ∃ L rem, 2 * L + 4 ≤ P.fuel ∧ Live (V := V) sec σ q P.mkExtra L .forward it rem ∧ k = 6 * rem.length + 2
  | .done => k = 0

def treeTurns : Tree E → Nat
  | none => 1
  | some tree => 6 * tree.1.count + 4

def PipeLeft (P : ThreadedParams T X) (σ : E.σ) (K : Index T × Secrets E × Nat → Prop) (k : Nat) : Option (Pipe E X) → Prop
  | none => k = 0
  | some p => K p.tree ∧ ∃ k', WorkerLeft P σ p.tree.2.1 p.query k' p.worker ∧ k = k' + p.buffer.length + 1

def flag (b : Bool) : Nat := if b then 0 else 1

/-- At most `k` turns are left; the trees are as in `K`. -/
def Left (P : ThreadedParams T X) (σ : E.σ) (K : Index T × Secrets E × Nat → Prop) (S : Threaded E X) (k : Nat) : Prop :=
  (∀ tree ∈ S.trees, Iterable P σ K tree) ∧ ∃ k', PipeLeft P σ K k' S.pipe ∧ k = k' + (S.trees.map treeTurns).sum + flag S.ended + flag S.dropped

theorem Left.known {σ : E.σ} {K : Index T × Secrets E × Nat → Prop} {S : Threaded E X} {k : Nat} (hl : Left P σ K S k) {p : Pipe E X} (hp : S.pipe = some p) : K p.tree := by
  obtain ⟨_, k1, h2, _⟩ := hl
  rw [hp] at h2
  exact h2.1

theorem Left.worker (h : E.Lawful) (ht : T.Lawful) {σ : E.σ} {K : Index T × Secrets E × Nat → Prop} {S S' : Threaded E X} {k : Nat} (hl : Left P σ K S k)
    (hw : ∀ p, S.pipe = some p → Faulty p.tree.2.1 σ S.world) (hs : S.workerStep P = some S') : ∃ k', k' < k ∧ Left P σ K S' k' := by
  obtain ⟨h1, k1, h2, rfl⟩ := hl
  unfold Threaded.workerStep at hs
  cases hp : S.pipe with
  | none => rw [hp] at hs; cases hs
  | some p =>
    rw [hp] at hs h2
    have hw := hw p hp
    obtain ⟨hK, k2, h2, rfl⟩ := h2
    obtain ⟨tree, query, worker, buffer⟩ := p
    have done : ∀ k3 (S' : Threaded E X), k3 < k2 + buffer.length + 1 → PipeLeft P σ K k3 S'.pipe → S'.trees = S.trees → S'.ended = S.ended → S'.dropped = S.dropped →
        ∃ k', k' < k2 + buffer.length + 1 + (S.trees.map treeTurns).sum + flag S.ended + flag S.dropped ∧ Left P σ K S' k' := by
      intro k3 S' hk hp' e1 e2 e3
      refine ⟨k3 + (S.trees.map treeTurns).sum + flag S.ended + flag S.dropped, by omega, by rw [e1]; exact h1, k3, hp', by rw [e1, e2, e3]⟩
    cases worker with
    | running it =>
      simp only at hs hw
      obtain ⟨L, rem, hL, hlive, rfl⟩ := h2
      have hf := iterNext_faulty h ht hw hlive hL
      rcases hf with ⟨msg, s', g1, _, _⟩ | ⟨_, it', s', g1, _⟩ | ⟨ch, rem', it', s', g1, _, rfl, g3⟩
      · rw [g1] at hs
        cases hs
        exact done (buffer.length + 1) _ (by omega) ⟨hK, 0, rfl, by simp⟩ rfl rfl rfl
      · rw [g1] at hs
        cases hs
        exact done (buffer.length + 1) _ (by omega) ⟨hK, 0, rfl, by simp⟩ rfl rfl rfl
      · rw [g1] at hs
        cases hs
        exact done (6 * rem'.length + 5 + buffer.length + 1) _ (by simp only [List.length_cons]; omega) ⟨hK, _, ⟨L, rem', hL, g3, rfl⟩, rfl⟩ rfl rfl rfl
    | counting it ch =>
      cases hs
      obtain ⟨L, rem, hL, hlive, rfl⟩ := h2
      exact done (6 * rem.length + 4 + buffer.length + 1) _ (by omega) ⟨hK, _, ⟨L, rem, hL, hlive, rfl⟩, rfl⟩ rfl rfl rfl
    | sending it ch =>
      simp only at hs
      obtain ⟨L, rem, hL, hlive, rfl⟩ := h2
      split at hs
      · cases hs
        exact done (buffer.length + 1) _ (by omega) ⟨hK, 0, rfl, by simp⟩ rfl rfl rfl
      · split at hs
        · cases hs
          exact done (6 * rem.length + 2 + (buffer.length + 1) + 1) _ (by omega) ⟨hK, _, ⟨L, rem, hL, hlive, rfl⟩, by simp⟩ rfl rfl rfl
        · cases hs
    | flushing it =>
      simp only at hs
      obtain ⟨L, rem, hL, hlive, rfl⟩ := h2
      split at hs
      · cases hs
        exact done (6 * rem.length + 1 + buffer.length + 1) _ (by omega) ⟨hK, _, ⟨L, rem, hL, hlive, rfl⟩, rfl⟩ rfl rfl rfl
      · cases hs
    | done => cases hs

theorem Left.consumer (ht : T.Lawful) {σ : E.σ} {K : Index T × Secrets E × Nat → Prop} {S S' : Threaded E X} {k : Nat} (hl : Left P σ K S k)
    (hs : S.consumerStep P = some S') : ∃ k', k' < k ∧ Left P σ K S' k' := by
  obtain ⟨a1, a2⟩ := consumerStep_alive hs
  obtain ⟨h1, k1, h2, rfl⟩ := hl
  unfold Threaded.consumerStep at hs
  rw [if_neg (by simp [a1, a2])] at hs
  cases hp : S.pipe with
  | none =>
    rw [hp] at hs h2
    cases h2
    cases htr : S.trees with
    | nil =>
      rw [htr] at hs
      cases hs
      exact ⟨flag S.dropped, by simp [a2, flag], by simp, 0, rfl, by simp [flag]⟩
    | cons t ts =>
      rw [htr] at hs h1
      have hrest : ∀ tree ∈ ts, Iterable P σ K tree := fun tree hm => h1 tree (List.mem_cons_of_mem _ hm)
      cases t with
      | none =>
        cases hs
        exact ⟨(ts.map treeTurns).sum + flag S.ended + flag S.dropped, by simp [treeTurns], hrest, 0, rfl, by simp⟩
      | some tree =>
        cases hs
        obtain ⟨hK, cfg, t, g1, g2, g3, g4⟩ := h1 (some tree) (by simp)
        obtain ⟨i, sec, z⟩ := tree
        simp only at g1 g2
        subst g1
        have hcons := chunksOf_consecutive (q := andQuery (offsetRangeQuery (RangeB.closed S.offset P.stop)) P.query) (mkExtra := P.mkExtra) t (g3.iterOk ht)
          (fun n hn => WF.count_pos (fun m hm => g3 m (PTree.nodes_trans hn hm))) 0
        have hlen := consecutive_length hcons
        have hlive := live_new (q := andQuery (offsetRangeQuery (RangeB.closed S.offset P.stop)) P.query) (mkExtra := P.mkExtra) (m := .forward) ⟨g2, g3.iterOk ht⟩
        simp only [ordered] at hlive
        refine ⟨_, ?_, hrest, _, ⟨hK, _, ⟨t.index.level, _, g4, hlive, rfl⟩, rfl⟩, rfl⟩
        simp only [List.length_nil, List.map_cons, List.sum_cons, treeTurns]
        omega
  | some p =>
    rw [hp] at hs h2
    obtain ⟨hK, k2, h2, rfl⟩ := h2
    obtain ⟨tree, query, worker, buffer⟩ := p
    simp only at hs
    cases buffer with
    | cons ch rest =>
      cases hs
      refine ⟨_, ?_, h1, _, ⟨hK, k2, h2, rfl⟩, rfl⟩
      simp only [List.length_cons]
      omega
    | nil =>
      cases worker with
      | done =>
        cases hs
        refine ⟨_, ?_, h1, 0, rfl, rfl⟩
        simp only
        omega
      | _ => cases hs

theorem Left.drop {σ : E.σ} {K : Index T × Secrets E × Nat → Prop} {S S' : Threaded E X} {k : Nat} (hl : Left P σ K S k)
    (hs : S.dropStep = some S') : ∃ k', k' < k ∧ Left P σ K S' k' := by
  obtain ⟨h1, k1, h2, rfl⟩ := hl
  unfold Threaded.dropStep at hs
  split at hs
  · cases hs
  · rename_i hd
    cases hs
    cases hp : S.pipe with
    | none =>
      rw [hp] at h2
      cases h2
      refine ⟨_, ?_, h1, 0, rfl, rfl⟩
      simp [flag, hd]
    | some p =>
      rw [hp] at h2
      obtain ⟨hK, k2, h2, rfl⟩ := h2
      refine ⟨_, ?_, h1, _, ⟨hK, k2, h2, rfl⟩, rfl⟩
      simp [flag, hd]
      omega

/-- The turns taken and the turns left. -/
theorem Exec.left (h : E.Lawful) (ht : T.Lawful) {σ : E.σ} {K : Index T × Secrets E × Nat → Prop} (hw : ∀ tree w, K tree → W tree w → Faulty tree.2.1 σ w) {S0 S : Threaded E X} {as : List (Actor E)} {k : Nat}
    (he : Exec P W S0 as S) (h0 : Left P σ K S0 k) : ∃ k', Left P σ K S k' ∧ (as.filter Actor.isTurn).length + k' ≤ k := by
  induction he with
  | nil => exact ⟨k, h0, by simp⟩
  | @snoc S' S'' as a _ hw' hs ih =>
    obtain ⟨k1, h1, h2⟩ := ih
    rw [List.filter_append, List.length_append]
    cases a with
    | worker =>
      obtain ⟨k2, g1, g2⟩ := h1.worker h ht (fun p hp => hw _ _ (h1.known hp) (hw' rfl p hp)) hs
      exact ⟨k2, g2, by show _ + 1 + _ ≤ _; omega⟩
    | consumer =>
      obtain ⟨k2, g1, g2⟩ := h1.consumer ht hs
      exact ⟨k2, g2, by show _ + 1 + _ ≤ _; omega⟩
    | drop =>
      obtain ⟨k2, g1, g2⟩ := h1.drop hs
      exact ⟨k2, g2, by show _ + 1 + _ ≤ _; omega⟩
    | world w =>
      cases hs
      exact ⟨k1, h1, by simpa [Actor.isTurn] using h2⟩

/-- The background task waits only for the consumer. -/
theorem worker_waits (h : E.Lawful) (ht : T.Lawful) {σ : E.σ} {K : Index T × Secrets E × Nat → Prop} {S : Threaded E X} {k : Nat} (hl : Left P σ K S k) {p : Pipe E X} (hp : S.pipe = some p)
    (hw : Faulty p.tree.2.1 σ S.world) :
    (S.workerStep P).isSome = true ∨ p.worker = .done ∨ (S.dropped = false ∧ p.buffer ≠ []) := by
  obtain ⟨_, k1, h2, _⟩ := hl
  rw [hp] at h2
  obtain ⟨_, k2, h2, _⟩ := h2
  unfold Threaded.workerStep
  rw [hp]
  obtain ⟨tree, query, worker, buffer⟩ := p
  cases worker with
  | running it =>
    simp only at hw
    obtain ⟨L, rem, hL, hlive, rfl⟩ := h2
    simp only
    rcases iterNext_faulty h ht hw hlive hL with ⟨msg, s', g1, _, _⟩ | ⟨_, it', s', g1, _⟩ | ⟨ch, rem', it', s', g1, _, rfl, g3⟩
    · rw [g1]; exact .inl rfl
    · rw [g1]; exact .inl rfl
    · rw [g1]; exact .inl rfl
  | counting it ch => exact .inl rfl
  | sending it ch =>
    simp only
    split
    · exact .inl rfl
    · rename_i hd
      split
      · exact .inl rfl
      · right; right
        refine ⟨by simpa using hd, fun hb => ?_⟩
        subst hb
        rename_i hlen
        exact hlen (by simp)
  | flushing it =>
    simp only
    split
    · exact .inl rfl
    · rename_i hd
      right; right
      refine ⟨by cases hx : S.dropped <;> simp_all, fun hb => ?_⟩
      subst hb
      exact hd (.inr (by simp))
  | done => exact .inr (.inl rfl)

/-- Somebody can take a turn, unless everything is over. -/
theorem Left.no_deadlock (h : E.Lawful) (ht : T.Lawful) {σ : E.σ} {K : Index T × Secrets E × Nat → Prop} {S : Threaded E X} {k : Nat} (hl : Left P σ K S k)
    (hw : ∀ p, S.pipe = some p → Faulty p.tree.2.1 σ S.world) (hd : S.dropped = false) (he : S.ended = false) :
    (S.workerStep P).isSome = true ∨ (S.consumerStep P).isSome = true := by
  unfold Threaded.consumerStep
  rw [if_neg (by simp [hd, he])]
  cases hp : S.pipe with
  | none =>
    right
    cases htr : S.trees with
    | nil => rfl
    | cons t ts => cases t <;> rfl
  | some p =>
    rcases worker_waits h ht hl hp (hw p hp) with h1 | h1 | ⟨_, h1⟩
    · exact .inl h1
    · right
      obtain ⟨tree, query, worker, buffer⟩ := p
      cases h1
      cases buffer <;> rfl
    · right
      obtain ⟨tree, query, worker, buffer⟩ := p
      cases buffer with
      | nil => exact absurd rfl h1
      | cons ch rest => rfl

theorem Exec.trans {S0 S S' : Threaded E X} {as bs : List (Actor E)} (h1 : Exec P W S0 as S) (h2 : Exec P W S bs S') : Exec P W S0 (as ++ bs) S' := by
  induction h2 with
  | nil => simpa using h1
  | snoc a _ hw hs ih => rw [← List.append_assoc]; exact .snoc a ih hw hs

theorem consumerStep_out {S S' : Threaded E X} (hs : S.consumerStep P = some S') : S.out <+: S'.out ∧ S'.dropped = S.dropped := by
  unfold Threaded.consumerStep at hs
  split at hs
  · cases hs
  · split at hs
    · split at hs
      · cases hs; exact ⟨List.prefix_append _ _, rfl⟩
      · split at hs
        · cases hs; exact ⟨List.prefix_rfl, rfl⟩
        · cases hs
    · split at hs
      · cases hs; exact ⟨List.prefix_rfl, rfl⟩
      · cases hs; exact ⟨List.prefix_rfl, rfl⟩
      · cases hs; exact ⟨List.prefix_rfl, rfl⟩

/-- From every state, the consumer can get everything. -/
theorem Left.completes (h : E.Lawful) (ht : T.Lawful) {σ : E.σ} {K : Index T × Secrets E × Nat → Prop} (hw : ∀ tree w, K tree → W tree w → Faulty tree.2.1 σ w) (hi : ∀ tree, K tree → ∃ w, W tree w)
    {S : Threaded E X} {k : Nat} (hl : Left P σ K S k) (hd : S.dropped = false) :
    ∃ as S', Exec P W S as S' ∧ S'.ended = true ∧ S'.dropped = false ∧ S.out <+: S'.out := by
  induction k using Nat.strongRecOn generalizing S with
  | _ k ih =>
    cases he : S.ended with
    | true => exact ⟨[], S, .nil S, he, hd, List.prefix_rfl⟩
    | false =>
      obtain ⟨w, hW⟩ : ∃ w, ∀ p, S.pipe = some p → W p.tree w := by
        cases hp : S.pipe with
        | none => exact ⟨S.world, fun p h => by cases h⟩
        | some p =>
          obtain ⟨w, hw⟩ := hi p.tree (hl.known hp)
          exact ⟨w, fun p' h => by cases h; exact hw⟩
      have hl' : Left P σ K { S with world := w } k := hl
      have e1 : Exec P W S [.world w] { S with world := w } := Exec.snoc (as := []) _ (.nil S) (fun h => by cases h) rfl
      rcases hl'.no_deadlock h ht (fun p hp => hw _ _ (hl'.known hp) (hW p hp)) hd he with hs | hs
      · obtain ⟨S1, hs⟩ := Option.isSome_iff_exists.mp hs
        obtain ⟨k1, g1, g2⟩ := hl'.worker h ht (fun p hp => hw _ _ (hl'.known hp) (hW p hp)) hs
        obtain ⟨f1, f2, _, _⟩ := workerStep_frame hs
        obtain ⟨as, S', q1, q2, q3, q4⟩ := ih k1 g1 g2 (f1.trans hd)
        refine ⟨_, S', (Exec.snoc .worker e1 (fun _ p hp => hW p hp) hs).trans q1, q2, q3, ?_⟩
        rw [f2] at q4
        exact q4
      · obtain ⟨S1, hs⟩ := Option.isSome_iff_exists.mp hs
        obtain ⟨k1, g1, g2⟩ := hl'.consumer ht hs
        obtain ⟨f1, f2⟩ := consumerStep_out hs
        obtain ⟨as, S', q1, q2, q3, q4⟩ := ih k1 g1 g2 (f2.trans hd)
        exact ⟨_, S', (Exec.snoc .consumer e1 (fun h => by cases h) hs).trans q1, q2, q3, f1.trans q4⟩

/-! ### dropped streams -/

/-- The consumer gets nothing after dropping the stream. -/
theorem Exec.undropped {S0 S : Threaded E X} {as : List (Actor E)} (h : Exec P W S0 as S) (h0 : S0.dropped = false) :
    ∃ as' S', Exec P W S0 as' S' ∧ S'.dropped = false ∧ S'.out = S.out ∧ S'.ended = S.ended := by
  induction h with
  | nil => exact ⟨[], S0, .nil _, h0, rfl, rfl⟩
  | @snoc S1 S2 as a he hw hs ih =>
    cases a with
    | worker =>
      obtain ⟨_, f2, f3, _⟩ := workerStep_frame (P := P) hs
      rw [f2, f3]
      exact ih
    | consumer =>
      obtain ⟨f1, _⟩ := consumerStep_alive (P := P) hs
      obtain ⟨_, f2⟩ := consumerStep_out (P := P) hs
      exact ⟨_, S2, .snoc _ he hw hs, f2.trans f1, rfl, rfl⟩
    | drop =>
      have hs : S1.dropStep = some S2 := hs
      unfold Threaded.dropStep at hs
      split at hs
      · cases hs
      · cases hs; exact ih
    | world w => cases hs; exact ih

theorem Exec.complete {trees : List (Tree E)} {start : Nat} {w : St E} {as : List (Actor E)} {S : Threaded E X}
    (he : Exec P W (Threaded.new trees start w) as S) (hend : S.ended = true) : ∃ o, Complete P W trees start S.out o := by
  obtain ⟨as', S', h1, h2, h3, h4⟩ := he.undropped rfl
  rw [← h4] at hend
  rw [← h3]
  obtain ⟨past, l, o, g1, g2⟩ := h1.faithful (Faithful.new trees start w) h2
  cases hp : S'.pipe with
  | some p =>
    rw [hp] at g2
    rw [g2.2.2.1] at hend
    cases hend
  | none =>
    rw [hp] at g2
    obtain ⟨q1, q2, _, q4⟩ := g2
    rw [q4 hend, List.append_nil] at q1
    subst q1 q2
    exact ⟨o, g1⟩

/-! ### without threads -/

/-- One tree: the stream without threads does the same, but may stop early. -/
theorem streamTree_threaded {sec : Secrets E} {q : Query T} {mkExtra : Index T → X} {world : Nat → St E → St E} {fuel stop : Nat} (n : Nat) {it : IterState T} {o o' : Nat}
    {s s' : St E} {l : List (Except String (Chunk T V X))} (h : streamTreeThreaded world sec q mkExtra fuel n it o s = .ok (l, o') s') :
    streamTree world sec q mkExtra fuel stop n it o s = .ok (l, o', .next) s' ∨
    ∃ l' o'' s'', streamTree world sec q mkExtra fuel stop n it o s = .ok (l', o'', .stop) s'' ∧ l' <+: l ∧ ∃ ch, .ok ch ∈ l' ∧ stop < ch.range.2 := by
  induction n generalizing it o o' s s' l with
  | zero => cases h
  | succ n ih =>
    unfold streamTreeThreaded at h
    unfold streamTree
    have hmod : (modify (world n) : M E Unit) s = .ok () (world n s) := rfl
    rw [bind_apply, hmod] at h ⊢
    simp only at h ⊢
    rw [bind_apply] at h ⊢
    cases hn : iterNext (V := V) sec q .forward mkExtra fuel it (world n s) with
    | error e s1 => rw [hn] at h; cases h
    | ok a s1 =>
      rw [hn] at h
      obtain ⟨r, it'⟩ := a
      cases r with
      | none => cases h; exact .inl rfl
      | some r =>
        cases r with
        | error m => cases h; exact .inl rfl
        | ok ch =>
          simp only at h ⊢
          rw [bind_apply] at h
          cases hr : streamTreeThreaded world sec q mkExtra fuel n it' (max o ch.range.2) s1 with
          | error e s2 => rw [hr] at h; cases h
          | ok b s2 =>
            obtain ⟨rest, o2⟩ := b
            rw [hr] at h
            cases h
            by_cases hstop : ch.range.2 > stop
            · right
              rw [if_pos hstop]
              exact ⟨_, _, _, rfl, ⟨rest, rfl⟩, ch, by simp, hstop⟩
            · rw [if_neg hstop, bind_apply]
              rcases ih hr with g | ⟨l', o'', s'', g1, ⟨z, rfl⟩, c, g3, g4⟩
              · left; rw [g]; rfl
              · right
                rw [g1]
                exact ⟨_, _, _, rfl, ⟨z, rfl⟩, c, by simp [g3], g4⟩

/-- All trees: the stream without threads delivers the same, but ends when the end of the range has been reached. -/
theorem streamTreesChunked_threaded {q : Query T} {mkExtra : Index T → X} {fuel n stop : Nat} {arrivals : List (Arrival E)} {o : Nat}
    {s s' : St E} {l : List (Except String (Chunk T V X))} (h : streamTreesThreaded q mkExtra fuel n stop arrivals o s = .ok l s') :
    ∃ l' s'', streamTreesChunked q mkExtra fuel n stop arrivals o s = .ok l' s'' ∧ l' <+: l ∧ (l' = l ∨ ∃ ch, .ok ch ∈ l' ∧ stop < ch.range.2) := by
  induction arrivals generalizing o s s' l with
  | nil => cases h; exact ⟨[], s, rfl, List.prefix_rfl, .inl rfl⟩
  | cons a arrivals ih =>
    obtain ⟨world, tree⟩ := a
    cases tree with
    | none => exact ih h
    | some tree =>
      obtain ⟨i, sec, z⟩ := tree
      unfold streamTreesThreaded at h
      unfold streamTreesChunked
      simp only at h ⊢
      rw [bind_apply] at h ⊢
      cases ht : streamTreeThreaded (V := V) world sec (andQuery (offsetRangeQuery (RangeB.closed o stop)) q) mkExtra fuel n (IterState.new .forward i) o s with
      | error e s1 => rw [ht] at h; cases h
      | ok b s1 =>
        obtain ⟨chunks, o1⟩ := b
        rw [ht] at h
        simp only at h
        rw [bind_apply] at h
        cases hr : streamTreesThreaded (V := V) q mkExtra fuel n stop arrivals o1 s1 with
        | error e s2 => rw [hr] at h; cases h
        | ok rest s2 =>
          rw [hr] at h
          cases h
          rcases streamTree_threaded (stop := stop) n ht with g | ⟨l', o'', s'', g1, g2, g3⟩
          · rw [g]
            obtain ⟨l', s'', k1, ⟨y, rfl⟩, k3⟩ := ih hr
            simp only
            rw [bind_apply, k1]
            refine ⟨_, _, rfl, ⟨y, by simp⟩, ?_⟩
            rcases k3 with k3 | ⟨ch, k3, k4⟩
            · left; rw [← k3]
            · right; exact ⟨ch, by simp [k3], k4⟩
          · rw [g1]
            exact ⟨l', s'', rfl, g2.trans (List.prefix_append _ _), .inr g3⟩

/-! ### intact stores -/

/-- The loaded tree behind a snapshot. -/
def Behind (cx : Ctx E) (fuel : Nat) (s : St E) : Option (PTree T V) → Prop
  | none => snapshot cx s = none ∧ rootCount s.root = 0
  | some t => snapshot cx s = some (t.index, cx.sec, s.offset) ∧ rootCount s.root = t.index.count ∧ Stored E cx.sec s.store t ∧ WF E t ∧
      2 * t.index.level + 4 ≤ fuel

/-- The chunks of all trees. -/
def threadedChunks (q : Query T) (mkExtra : Index T → X) (stop : Nat) : List (Option (PTree T V)) → Nat → List (Chunk T V X)
  | [], _ => []
  | none :: ts, o => threadedChunks q mkExtra stop ts o
  | some t :: ts, o => chunksOf (andQuery (offsetRangeQuery (RangeB.closed o stop)) q) mkExtra t 0 ++ threadedChunks q mkExtra stop ts (max o t.index.count)

theorem streamTreeThreaded_spec {sec : Secrets E} {σ : E.σ} {q : Query T} {mkExtra : Index T → X} {L : Nat} (h : E.Lawful) (ht : T.Lawful) {world : Nat → St E → St E}
    {lo hi : E.σ} (hw : Provides sec lo hi σ world) {fuel : Nat} (hfu : 2 * L + 4 ≤ fuel) (n : Nat) {it : IterState T} {rem : List (Chunk T V X)} {o e start : Nat} {s : St E}
    (hco : Between sec lo hi s) (hl : Live sec σ q mkExtra L .forward it rem) (hc : Consecutive o rem e) (hos : o ≤ start) (hn : rem.length < n) :
    ∃ s', streamTreeThreaded world sec q mkExtra fuel n it start s = .ok (rem.map .ok, max start e) s' ∧ Between sec lo hi s' := by
  induction n generalizing it rem o start s with
  | zero => omega
  | succ n ih =>
    obtain ⟨w1, w2⟩ := hw n s hco
    have hmod : (modify (world n) : M E Unit) s = .ok () (world n s) := rfl
    rcases iterNext_live h ht w2 w1.coherent hl hfu with ⟨h1, it', ⟨c, hc', hr⟩⟩ | ⟨ch, rem', it', ⟨c, hc', hr⟩, h2, h3⟩
    · subst h1
      cases hc
      refine ⟨{ (world n s) with cache := c }, ?_, w1.cached hc'⟩
      unfold streamTreeThreaded
      rw [bind_apply, hmod]
      simp only
      rw [bind_apply, hr, Nat.max_eq_left hos]
      rfl
    · subst h2
      obtain ⟨s', g1, g2⟩ := ih (start := max start ch.range.2) (w1.cached hc') h3 hc.2.2 (Nat.le_max_right _ _) (by simpa using hn)
      have hx := consecutive_le hc.2.2
      refine ⟨s', ?_, g2⟩
      unfold streamTreeThreaded
      rw [bind_apply, hmod]
      simp only
      rw [bind_apply, hr]
      simp only
      rw [bind_apply, g1]
      simp only
      rw [Nat.max_assoc, Nat.max_eq_right hx]
      rfl

/-- The stream without the channel delivers the chunks of all trees. -/
theorem streamTreesThreaded_spec (h : E.Lawful) (ht : T.Lawful) {q : Query T} {mkExtra : Index T → X} {fuel n stop : Nat} {lo hi : E.σ}
    {arrivals : List (Arrival E)} {snaps : List (St E)} {ts : List (Option (PTree T V))} (h1 : Each (Behind cx fuel) snaps ts)
    (h2 : Each (fun (a : Arrival E) s => a.2 = snapshot cx s ∧ (a.2 ≠ none → Provides cx.sec lo hi s.store a.1)) arrivals snaps) (hn : ∀ s ∈ snaps, rootCount s.root < n)
    (o : Nat) {s : St E} (hs : Between cx.sec lo hi s) :
    ∃ s', streamTreesThreaded q mkExtra fuel n stop arrivals o s = .ok ((threadedChunks q mkExtra stop ts o).map .ok) s' := by
  induction arrivals generalizing snaps ts o s with
  | nil =>
    cases snaps with
    | cons x xs => exact False.elim h2
    | nil =>
      cases ts with
      | cons y ys => exact False.elim h1
      | nil => exact ⟨s, rfl⟩
  | cons a arrivals ih =>
    cases snaps with
    | nil => exact False.elim h2
    | cons x xs =>
      cases ts with
      | nil => exact False.elim h1
      | cons t ts =>
        obtain ⟨hb, h1⟩ := h1
        obtain ⟨⟨ha, hp⟩, h2⟩ := h2
        have hn' : ∀ s ∈ xs, rootCount s.root < n := fun s hs => hn s (List.mem_cons_of_mem _ hs)
        obtain ⟨world, tree⟩ := a
        cases t with
        | none =>
          cases ha.trans hb.1
          exact ih h1 h2 hn' o hs
        | some t =>
          obtain ⟨b1, b2, b3, b4, b5⟩ := hb
          cases ha.trans b1
          have hcons := chunksOf_consecutive (q := andQuery (offsetRangeQuery (RangeB.closed o stop)) q) (mkExtra := mkExtra) t (b4.iterOk ht)
            (fun n hn => WF.count_pos (fun m hm => b4 m (PTree.nodes_trans hn hm))) 0
          have hlen := consecutive_length hcons
          have hcount := hn x (by simp)
          have hlive := live_new (q := andQuery (offsetRangeQuery (RangeB.closed o stop)) q) (mkExtra := mkExtra) (m := .forward) ⟨b3, b4.iterOk ht⟩
          simp only [ordered] at hlive
          obtain ⟨s1, g1, g2⟩ := streamTreeThreaded_spec h ht (hp (fun h => by cases h)) b5 n hs hlive hcons (Nat.zero_le o) (by omega)
          rw [Nat.zero_add] at g1
          obtain ⟨s2, g3⟩ := ih h1 h2 hn' (max o t.index.count) g2
          refine ⟨s2, ?_⟩
          unfold streamTreesThreaded threadedChunks
          simp only
          rw [bind_apply, g1]
          simp only
          rw [bind_apply, g3, List.map_append]
          rfl

/-- The data of the chunks of all trees. -/
theorem threadedChunks_data (ht : T.Lawful) {covers : T.Summary → T.Key → Prop} {m : Nat → T.Key → Bool} (hcov : Covering T covers) {q : Query T}
    (hq : QueryFor q covers m) {mkExtra : Index T → X} {fuel stop : Nat} {snaps : List (St E)} {ts : List (Option (PTree T V))} (h1 : Each (Behind cx fuel) snaps ts) (o : Nat) :
    (threadedChunks q mkExtra stop ts o).flatMap Chunk.data = news m stop (ts.map optContent) o ∧
    (stop < o → news m stop (ts.map optContent) o = []) := by
  induction ts generalizing snaps o with
  | nil => exact ⟨rfl, fun _ => rfl⟩
  | cons t ts ih =>
    cases snaps with
    | nil => exact False.elim h1
    | cons x xs =>
      obtain ⟨hb, h1⟩ := h1
      have hempty : stop < o → ∀ c : List (Option (T.Key × V)), matching (inRange m o stop) 0 c = [] := by
        intro ho c
        apply matching_none
        intro j k v _
        unfold inRange
        rw [Bool.and_eq_false_iff]
        left
        apply decide_eq_false
        omega
      cases t with
      | none =>
        obtain ⟨i1, i2⟩ := ih h1 o
        simp only [threadedChunks, List.map_cons, optContent, news, matching, List.nil_append, List.length_nil, Nat.max_zero]
        exact ⟨i1, i2⟩
      | some t =>
        obtain ⟨b1, b2, b3, b4, b5⟩ := hb
        have hlen : t.content.length = t.index.count := content_length ht b4.counts
        obtain ⟨i1, i2⟩ := ih h1 (max o t.index.count)
        simp only [threadedChunks, List.map_cons, optContent, news, List.flatMap_append]
        rw [chunksOf_matching ht hcov (inRange_queryFor hq o stop) t b4.formed 0, i1, hlen]
        constructor
        · congr 1
          split
          · exact i2 (by omega)
          · rfl
        · intro ho
          rw [hempty ho]
          split
          · rfl
          · exact i2 (by omega)

theorem threadedChunks_range (ht : T.Lawful) {q : Query T} {mkExtra : Index T → X} {fuel stop : Nat} {snaps : List (St E)} {ts : List (Option (PTree T V))}
    (h1 : Each (Behind cx fuel) snaps ts) (o : Nat) : ∀ ch ∈ threadedChunks q mkExtra stop ts o, ∃ s ∈ snaps, ch.range.2 ≤ rootCount s.root := by
  induction ts generalizing snaps o with
  | nil => intro ch h; cases h
  | cons t ts ih =>
    cases snaps with
    | nil => exact False.elim h1
    | cons x xs =>
      obtain ⟨hb, h1⟩ := h1
      intro ch hch
      cases t with
      | none =>
        obtain ⟨s, h2, h3⟩ := ih h1 o ch hch
        exact ⟨s, List.mem_cons_of_mem _ h2, h3⟩
      | some t =>
        obtain ⟨b1, b2, b3, b4, b5⟩ := hb
        simp only [threadedChunks, List.mem_append] at hch
        rcases hch with hch | hch
        · have hcons := chunksOf_consecutive (q := andQuery (offsetRangeQuery (RangeB.closed o stop)) q) (mkExtra := mkExtra) t (b4.iterOk ht)
            (fun n hn => WF.count_pos (fun m hm => b4 m (PTree.nodes_trans hn hm))) 0
          have := consecutive_range hcons ch hch
          exact ⟨x, by simp, by omega⟩
        · obtain ⟨s, h2, h3⟩ := ih h1 _ ch hch
          exact ⟨s, List.mem_cons_of_mem _ h2, h3⟩

theorem Each.of_map {α β γ : Type} {R : β → γ → Prop} {Q : α → γ → Prop} {f : α → β} {as : List α} {cs : List γ} (h : Each R (as.map f) cs)
    (hq : ∀ a ∈ as, ∀ c ∈ cs, R (f a) c → Q a c) : Each Q as cs := by
  induction as generalizing cs with
  | nil =>
    cases cs with
    | nil => trivial
    | cons c cs => exact False.elim h
  | cons a as ih =>
    cases cs with
    | nil => exact False.elim h
    | cons c cs =>
      exact ⟨hq a (by simp) c (by simp) h.1, ih h.2 fun a' ha' c' hc' => hq a' (List.mem_cons_of_mem _ ha') c' (List.mem_cons_of_mem _ hc')⟩

theorem Each.and {α γ : Type} {R Q : α → γ → Prop} {as : List α} {cs : List γ} (h : Each R as cs) (h' : Each Q as cs) : Each (fun a c => R a c ∧ Q a c) as cs := by
  induction as generalizing cs with
  | nil =>
    cases cs with
    | nil => trivial
    | cons c cs => exact False.elim h
  | cons a as ih =>
    cases cs with
    | nil => exact False.elim h
    | cons c cs => exact ⟨⟨h.1, h'.1⟩, ih h.2 h'.2⟩

theorem Each.imp {α γ : Type} {R Q : α → γ → Prop} {as : List α} {cs : List γ} (h : Each R as cs) (hq : ∀ a ∈ as, ∀ c ∈ cs, R a c → Q a c) : Each Q as cs := by
  have h' : Each R (as.map id) cs := by rwa [List.map_id]
  exact h'.of_map hq

theorem Each.right {α γ : Type} {Q : γ → Prop} {as : List α} {cs : List γ} (h : Each (fun _ c => Q c) as cs) : ∀ c ∈ cs, Q c := by
  induction as generalizing cs with
  | nil =>
    cases cs with
    | nil => intro c hc; cases hc
    | cons c cs => exact False.elim h
  | cons a as ih =>
    cases cs with
    | nil => exact False.elim h
    | cons c cs =>
      intro c' hc'
      rcases List.mem_cons.mp hc' with rfl | hc'
      · exact h.1
      · exact ih h.2 c' hc'

theorem Each.trans {α β γ : Type} {R : α → β → Prop} {Q : β → γ → Prop} {as : List α} {bs : List β} {cs : List γ} (h : Each R as bs) (h' : Each Q bs cs) :
    Each (fun a c => ∃ b, R a b ∧ Q b c) as cs := by
  induction as generalizing bs cs with
  | nil =>
    cases bs with
    | nil =>
      cases cs with
      | nil => trivial
      | cons c cs => exact False.elim h'
    | cons b bs => exact False.elim h
  | cons a as ih =>
    cases bs with
    | nil => exact False.elim h
    | cons b bs =>
      cases cs with
      | nil => exact False.elim h'
      | cons c cs => exact ⟨⟨b, h.1, h'.1⟩, ih h.2 h'.2⟩

theorem Each.map_right {α β γ : Type} {R : α → γ → Prop} {f : β → γ} {as : List α} {bs : List β} (h : Each (fun a b => R a (f b)) as bs) :
    Each R as (bs.map f) := by
  induction as generalizing bs with
  | nil =>
    cases bs with
    | nil => trivial
    | cons b bs => exact False.elim h
  | cons a as ih =>
    cases bs with
    | nil => exact False.elim h
    | cons b bs => exact ⟨h.1, ih h.2⟩

theorem Between.faulty {sec : Secrets E} {lo hi : E.σ} {s : St E} (h : Between sec lo hi s) : Faulty sec hi s :=
  ⟨fun l b hg => h.hi l b hg, Coherent.mono (s := s) h.hi rfl h.coherent⟩

end Banyan
