import Verif.Proofs.ChunkSpec
import Verif.Proofs.Sees
/-
Iterating over a snapshot.
-/
set_option autoImplicit false
namespace Banyan

open PTree

variable {T : TreeTypes} {V : Type} {E : Env T V} {X : Type} {cx : Ctx E} {q : Query T} {mkExtra : Index T → X}

/-- The chunks of an optional tree. -/
def optChunks (q : Query T) (mkExtra : Index T → X) : Option (PTree T V) → List (Chunk T V X)
  | none => []
  | some t => chunksOf q mkExtra t 0

theorem Snap.seen (ht : T.Lawful) {s s' : St E} {t : PTree T V} (h : Snap cx s (some t) s') : Seen cx.sec s'.store t :=
  ⟨h.stored t rfl, (h.wf t rfl).iterOk ht⟩

theorem Snap.chunks (h : E.Lawful) (ht : T.Lawful) {s s' : St E} {t : Option (PTree T V)} (hs : Snap cx s t s') (mode : Mode) :
    Delivers (fun between n fuel t => Tree.chunks q mode mkExtra between n fuel t) cx.sec (snapshot cx s) s'
      (ordered mode (optChunks q mkExtra t)) := by
  intro between n fuel hb hf
  rw [snapshot_level] at hf
  have hr := hs.root
  unfold Tree.chunks snapshot
  cases t with
  | none =>
    rw [hr]
    refine ⟨s', ?_⟩
    cases mode <;> simp [optChunks, ordered] <;> rfl
  | some t =>
    rw [hs.level] at hf
    rw [hr]
    exact chunkedTake_spec h ht hb n (hs.seen ht) hs.coherent hf

theorem Snap.positive {s s' : St E} {t : PTree T V} (h : Snap cx s (some t) s') : t.All fun n => 0 < n.index.count := by
  intro n hn
  exact WF.count_pos (fun m hm => h.wf t rfl m (PTree.nodes_trans hn hm))

theorem consecutive_length {o e : Nat} {l : List (Chunk T V X)} (h : Consecutive o l e) : o + l.length ≤ e := by
  induction l generalizing o with
  | nil => cases h; exact Nat.le_refl _
  | cons ch l ih =>
    have h1 := ih h.2.2
    have h2 := h.2.1
    simp only [List.length_cons]
    omega

theorem flattenChunks_ok (l : List (Chunk T V X)) :
    flattenChunks (l.map .ok) = (l.flatMap Chunk.data).map .ok := by
  induction l with
  | nil => rfl
  | cons ch l ih =>
    unfold flattenChunks at ih ⊢
    simp only [List.map_cons, List.flatMap_cons, List.map_append]
    rw [ih]

/-- Nothing happens between the calls. -/
def idle : Nat → St E → St E := fun _ s => s

theorem idle_harmless (sec : Secrets E) : Harmless sec (idle : Nat → St E → St E) := fun _ _ h => ⟨fun _ _ h => h, h⟩

theorem Delivers.unique {α : Type} {op : (Nat → St E → St E) → Nat → Nat → Tree E → M E (List (Except String α))} {sec : Secrets E}
    {t : Tree E} {s : St E} {a b : List α} (ha : Delivers op sec t s a) (hb : Delivers op sec t s b) : a = b := by
  obtain ⟨s1, h1⟩ := ha idle (a.length + b.length) (2 * t.level + 4) (idle_harmless sec) (Nat.le_refl _)
  obtain ⟨s2, h2⟩ := hb idle (a.length + b.length) (2 * t.level + 4) (idle_harmless sec) (Nat.le_refl _)
  rw [h1] at h2
  have h3 := (EStateM.Result.ok.inj h2).1
  rw [List.take_of_length_le (by omega), List.take_of_length_le (by omega)] at h3
  exact (List.map_inj_right (fun x y h => Except.ok.inj h)).mp h3

end Banyan
