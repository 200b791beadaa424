import Verif.Props.Cli
import Verif.Props.Index
/-
Iterating over trees that were loaded by link: C26.
-/
set_option autoImplicit false
namespace Banyan

open PTree Concrete

variable {T : TreeTypes} {V : Type} {E : Env T V} {X : Type} {cx : Ctx E} {s : St E} {c : List (Option (T.Key × V))}

/-- A query that does not look at those fields of the index of the root that are computed anew when a tree is loaded. -/
def Query.Same (q : Query T) (i : BranchIndex T) : Prop :=
  ∀ kb bits, q.intersecting 0 { i with keyBytes := kb, isSealed := true } bits = q.intersecting 0 i bits

/-- C26: iterating over the indexes of a tree that was loaded by its link, in either direction and with any query that does not look at `key_bytes` or
the sealed flag of the root, delivers the same indexes as before, except for these two fields of the root. -/
theorem C26_loaded_indexes_partial (ok : cx.Ok) (hr : Reach cx s) (hs : Small E s) {i : BranchIndex T} {l : T.Link}
    (hi : s.root = some (.branch i)) (hl : i.link = some l) (q : Query T) (mode : Mode) (hq : q.Same i) :
    ∃ t i' items, loadTree cx.sec l s = .ok t s ∧ i' = { i with keyBytes := i'.keyBytes, isSealed := true } ∧
      Enumerates (fun between n fuel t => Tree.indexes q mode between n fuel t) cx.sec (snapshot cx s) s (.branch i :: items) ∧
      Enumerates (fun between n fuel t => Tree.indexes q mode between n fuel t) cx.sec t s (.branch i' :: items) := by
  obtain ⟨cs, i', o, h1, h2, h3, h4, h5, h6, h7, h8⟩ := loadTree_seen ok hr hs hi hl
  have hseen : Seen cx.sec s.store (.branch i' cs) := ⟨h4, h5.iterOk ok.types⟩
  have e0 : ∀ j, (visits q mode (.branch j cs) 0).map (fun x => x.2.index) =
      .branch j :: (visitsL q mode cs (q.intersecting 0 j (List.replicate (T.sums.len j.summaries) true)) 0).map fun x => x.2.index := by
    intro j
    rw [visits]
    rfl
  refine ⟨_, i', (visitsL q mode cs (q.intersecting 0 i (List.replicate (T.sums.len i.summaries) true)) 0).map fun x => x.2.index, h3, h2,
    by rw [← e0]; exact C33_indexes ok hr hs h1 q mode, turns q (.branch i' cs) 0 + 2, fun between n fuel hb hf => ?_⟩
  obtain ⟨s', h9⟩ := indexTake_spec (q := q) (m := mode) ok.env hb n (σ := s.store) (fun _ _ h => h) h6 (ivis_new (hseen.visible _ _ _)) (fuel := fuel) (by omega)
  refine ⟨s', ?_⟩
  have e : (visits q mode (.branch i' cs) 0).map (fun x => x.2.index) =
      .branch i' :: (visitsL q mode cs (q.intersecting 0 i (List.replicate (T.sums.len i.summaries) true)) 0).map fun x => x.2.index := by
    have hb : q.intersecting 0 i' = q.intersecting 0 i := by rw [h2]; funext bits; exact hq _ _
    have hsum : i'.summaries = i.summaries := by rw [h2]
    rw [e0, hb, hsum]
  rw [← e]
  exact h9

/-- C26: iterating over the chunks of a tree that was loaded by its link, in either direction, delivers the same chunks as before. -/
theorem C26_loaded_chunks_partial (ok : cx.Ok) (hr : Reach cx s) (hs : Small E s) {i : BranchIndex T} {l : T.Link}
    (hi : s.root = some (.branch i)) (hl : i.link = some l) (q : Query T) (mode : Mode) (hq : q.Same i) (mkExtra : Index T → X)
    (he : ∀ kb, mkExtra (.branch { i with keyBytes := kb, isSealed := true }) = mkExtra (.branch i)) :
    ∃ t chunks, loadTree cx.sec l s = .ok t s ∧
      Delivers (fun between n fuel t => Tree.chunks q mode mkExtra between n fuel t) cx.sec (snapshot cx s) s chunks ∧
      Delivers (fun between n fuel t => Tree.chunks q mode mkExtra between n fuel t) cx.sec t s chunks := by
  obtain ⟨cs, i', o, h1, h2, h3, h4, h5, h6, h7, h8⟩ := loadTree_seen ok hr hs hi hl
  have hseen : Seen cx.sec s.store (.branch i' cs) := ⟨h4, h5.iterOk ok.types⟩
  obtain ⟨t0, hinv⟩ := ok.inv hr hs
  obtain rfl := hinv.shows ok.env h1
  have e : chunksOf q mkExtra (.branch i' cs) 0 = chunksOf q mkExtra (.branch i cs) 0 := by
    have hb : q.intersecting 0 i' = q.intersecting 0 i := by rw [h2]; funext bits; exact hq _ _
    have hsum : i'.summaries = i.summaries := by rw [h2]
    have hcnt : i'.count = i.count := by rw [h2]
    have hx : mkExtra (.branch i') = mkExtra (.branch i) := by rw [h2]; exact he _
    rw [chunksOf, chunksOf, hb, hsum]
    unfold skipChunk
    simp only [Index.count, hcnt, hx]
  refine ⟨_, _, h3, hinv.holds.snap.chunks (q := q) (mkExtra := mkExtra) ok.env ok.types mode, fun between n fuel hb hf => ?_⟩
  obtain ⟨s', h9⟩ := chunkedTake_spec (q := q) (m := mode) (mkExtra := mkExtra) ok.env ok.types hb n hseen h6 (fuel := fuel) hf
  refine ⟨s', ?_⟩
  rw [e] at h9
  exact h9

/-- Queries that look only at keys, summaries and offsets, on a tree that is not packed. -/
example : ∃ (l : Nat) (t : Tree env) (i i' : BranchIndex types) (items : List (Index types)) (chunks : List (Chunk types Nat Unit)),
    linkOf unpacked10 = some l ∧ loadTree (ctx tiny).sec l unpacked10 = .ok t unpacked10 ∧ i' = { i with keyBytes := i'.keyBytes, isSealed := true } ∧
    Enumerates (fun between n fuel t => Tree.indexes (keyRange 3 8) .backward between n fuel t) (ctx tiny).sec (snapshot (ctx tiny) unpacked10) unpacked10
      (.branch i :: items) ∧
    Enumerates (fun between n fuel t => Tree.indexes (keyRange 3 8) .backward between n fuel t) (ctx tiny).sec t unpacked10 (.branch i' :: items) ∧
    Delivers (fun between n fuel t => Tree.chunks (keyRange 3 8) .backward (fun _ => ()) between n fuel t) (ctx tiny).sec (snapshot (ctx tiny) unpacked10)
      unpacked10 chunks ∧
    Delivers (fun between n fuel t => Tree.chunks (keyRange 3 8) .backward (fun _ => ()) between n fuel t) (ctx tiny).sec t unpacked10 chunks := by
  have key : ∀ {s : St env} {l : Nat}, Reach (ctx tiny) s → Small env s → linkOf s = some l →
      ∃ (t : Tree env) (i i' : BranchIndex types) (items : List (Index types)) (chunks : List (Chunk types Nat Unit)),
        loadTree (ctx tiny).sec l s = .ok t s ∧ i' = { i with keyBytes := i'.keyBytes, isSealed := true } ∧
        Enumerates (fun between n fuel t => Tree.indexes (keyRange 3 8) .backward between n fuel t) (ctx tiny).sec (snapshot (ctx tiny) s) s (.branch i :: items) ∧
        Enumerates (fun between n fuel t => Tree.indexes (keyRange 3 8) .backward between n fuel t) (ctx tiny).sec t s (.branch i' :: items) ∧
        Delivers (fun between n fuel t => Tree.chunks (keyRange 3 8) .backward (fun _ => ()) between n fuel t) (ctx tiny).sec (snapshot (ctx tiny) s) s chunks ∧
        Delivers (fun between n fuel t => Tree.chunks (keyRange 3 8) .backward (fun _ => ()) between n fuel t) (ctx tiny).sec t s chunks := by
    intro s l hr hs hl
    obtain ⟨i, h1, h2⟩ := linkOf_spec hl
    have hq : (keyRange 3 8).Same i := fun _ _ => rfl
    obtain ⟨t, i', items, g1, g2, g3, g4⟩ := C26_loaded_indexes_partial tiny_ok hr hs h1 h2 (keyRange 3 8) .backward hq
    obtain ⟨t', chunks, k1, k2, k3⟩ := C26_loaded_chunks_partial tiny_ok hr hs h1 h2 (keyRange 3 8) .backward hq (fun _ => ()) fun _ => rfl
    rw [g1] at k1
    simp only [EStateM.Result.ok.injEq, and_true] at k1
    subst k1
    exact ⟨t, i, i', items, chunks, g1, g2, g3, g4, k2, k3⟩
  have h0 : (linkOf unpacked10).isSome = true := by decide +kernel
  obtain ⟨l, hl⟩ := Option.isSome_iff_exists.mp h0
  obtain ⟨t, i, i', items, chunks, h⟩ := key unpacked10_reach unpacked10_small hl
  exact ⟨l, t, i, i', items, chunks, hl, h⟩

end Banyan
