import Verif.Spec.Observe
import Verif.Proofs.History
/-
The observations in terms of the loaded tree.
-/
set_option autoImplicit false
namespace Banyan

open PTree

variable {T : TreeTypes} {V : Type} {E : Env T V} {cx : Ctx E} {I : NodeInv cx} {α : Type}

theorem Yields.unique {op : Nat → Tree E → M E α} {t : Tree E} {s : St E} {a b : α} (h1 : Yields op t s a)
    (h2 : Yields op t s b) : a = b := by
  obtain ⟨_, h1⟩ := h1 (t.level + 1) (Nat.lt_succ_self _)
  obtain ⟨_, h2⟩ := h2 (t.level + 1) (Nat.lt_succ_self _)
  rw [h1] at h2
  cases h2
  rfl

theorem snapshot_level (s : St E) : (snapshot cx s).level = rootLevel s.root := by
  unfold Tree.level snapshot
  cases s.root <;> rfl

theorem Contains.unique {s : St E} {a b : List (Option (T.Key × V))} (h1 : Contains cx s a) (h2 : Contains cx s b) : a = b :=
  Yields.unique h1 h2

/-- A snapshot of the builder in state `s`, read in a later state. -/
structure Snap (cx : Ctx E) (s : St E) (t : Option (PTree T V)) (s' : St E) : Prop where
  root : s.root = t.map index
  coherent : Coherent E cx.sec s'
  stored : ∀ t', t = some t' → Stored E cx.sec s'.store t'
  wf : ∀ t', t = some t' → WF E t'

theorem Snap.of_holds {s s' : St E} {t : Option (PTree T V)} (h : HoldsI I s t) (hx : Ext0 cx s s') : Snap cx s t s' :=
  ⟨h.root, hx.coherent h.coherent, fun t' ht => ((h.good t' ht).mono hx.store).stored, fun t' ht => (h.good t' ht).wf⟩

theorem HoldsI.snap {s : St E} {t : Option (PTree T V)} (h : HoldsI I s t) : Snap cx s t s := Snap.of_holds h (Ext0.refl s)

theorem HoldsI.loaded {s : St E} {t : Option (PTree T V)} (h : HoldsI I s t) : Loaded cx s t :=
  ⟨h.root, fun t' ht => (h.good t' ht).stored, fun t' ht => (h.good t' ht).wf⟩

theorem Snap.level {s s' : St E} {t : PTree T V} (h : Snap cx s (some t) s') : rootLevel s.root = t.index.level := by
  rw [h.root]; rfl

theorem Snap.collectFrom (h : E.Lawful) (ht : T.Lawful) {s s' : St E} {t : Option (PTree T V)} (hs : Snap cx s t s') (o : Nat) :
    Yields (fun fuel t => Tree.collectFrom fuel t o) (snapshot cx s) s' ((optContent t).drop o) := by
  intro fuel hf
  rw [snapshot_level] at hf
  unfold Tree.collectFrom snapshot
  have hr := hs.root
  cases t with
  | none =>
    rw [hr]
    exact ⟨s', by simp [optContent]; rfl⟩
  | some t =>
    rw [hs.level] at hf
    rw [hr]
    obtain ⟨c, _, h2⟩ := collect0_reads h ht fuel t o [] s' (hs.stored t rfl) (hs.wf t rfl).counts hs.coherent hf
    exact ⟨_, by simpa [optContent] using h2⟩

theorem Snap.collect (h : E.Lawful) (ht : T.Lawful) {s s' : St E} {t : Option (PTree T V)} (hs : Snap cx s t s') :
    Yields Tree.collect (snapshot cx s) s' (optContent t) := by
  have := hs.collectFrom h ht 0
  rw [List.drop_zero] at this
  exact this

theorem Snap.get (h : E.Lawful) (ht : T.Lawful) {s s' : St E} {t : Option (PTree T V)} (hs : Snap cx s t s') (o : Nat) :
    Yields (fun fuel t => Tree.get fuel t o) (snapshot cx s) s' ((optContent t)[o]?.join) := by
  intro fuel hf
  rw [snapshot_level] at hf
  unfold Tree.get snapshot
  have hr := hs.root
  cases t with
  | none =>
    rw [hr]
    exact ⟨s', by simp [optContent]; rfl⟩
  | some t =>
    rw [hs.level] at hf
    rw [hr]
    obtain ⟨c, _, h2⟩ := get0_reads h ht fuel t o s' (hs.stored t rfl) (hs.wf t rfl).counts hs.coherent hf
    exact ⟨_, h2⟩

theorem WF.nonempty {t : PTree T V} (h : WF E t) : t.All fun | .branch _ cs => cs ≠ [] | _ => True := by
  intro n hn
  cases n with
  | branch i cs => exact (h _ hn).1
  | _ => trivial

open Classical in
theorem Snap.isPacked (h : E.Lawful) {s s' : St E} {t : Option (PTree T V)} (hs : Snap cx s t s') :
    Yields Tree.isPacked (snapshot cx s) s' (decide (OptPacked t)) := by
  intro fuel hf
  rw [snapshot_level] at hf
  unfold Tree.isPacked snapshot
  have hr := hs.root
  cases t with
  | none =>
    rw [hr]
    rw [decide_eq_true (show OptPacked (none : Option (PTree T V)) from trivial)]
    exact ⟨s', rfl⟩
  | some t =>
    rw [hs.level] at hf
    rw [hr]
    obtain ⟨c, _, h2⟩ := isPacked0_reads h fuel t s' (hs.stored t rfl).outlined (hs.wf t rfl).counts (hs.wf t rfl).nonempty hs.coherent hf
    exact ⟨_, h2⟩

theorem HoldsI.contains (h : E.Lawful) (ht : T.Lawful) {s : St E} {t : Option (PTree T V)} (hh : HoldsI I s t)
    {c : List (Option (T.Key × V))} : Contains cx s c ↔ c = optContent t := by
  constructor
  · intro hc
    exact hc.unique (hh.snap.collect h ht)
  · rintro rfl
    exact hh.snap.collect h ht

theorem HoldsI.packed (h : E.Lawful) {s : St E} {t : Option (PTree T V)} (hh : HoldsI I s t) :
    ReportsPacked cx s ↔ OptPacked t := by
  classical
  have := hh.snap.isPacked h
  constructor
  · intro hc
    have := Yields.unique hc this
    simpa using this.symm
  · intro hp
    rw [decide_eq_true hp] at this
    exact this

end Banyan
