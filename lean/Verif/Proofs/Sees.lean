import Verif.Proofs.Observe
/-
Reading a tree value, whether it is a snapshot of a builder or was loaded.
-/
set_option autoImplicit false
namespace Banyan

open PTree

variable {T : TreeTypes} {V : Type} {E : Env T V} {cx : Ctx E} {I : NodeInv cx} {sec : Secrets E}

/-- In state `s` the tree value `tr` denotes the loaded tree `t`. -/
structure Sees (sec : Secrets E) (tr : Tree E) (t : PTree T V) (s : St E) : Prop where
  tree : ∃ o, tr = some (t.index, sec, o)
  coherent : Coherent E sec s
  stored : Stored E sec s.store t
  counts : Counts t
  nonempty : t.All fun | .branch _ cs => cs ≠ [] | _ => True

theorem Sees.level {tr : Tree E} {t : PTree T V} {s : St E} (h : Sees sec tr t s) : tr.level = t.index.level := by
  obtain ⟨o, rfl⟩ := h.tree
  rfl

theorem Sees.collectFrom (h : E.Lawful) (ht : T.Lawful) {tr : Tree E} {t : PTree T V} {s : St E} (hs : Sees sec tr t s) (n : Nat) :
    Yields (fun fuel t => Tree.collectFrom fuel t n) tr s (t.content.drop n) := by
  intro fuel hf
  rw [hs.level] at hf
  obtain ⟨o, rfl⟩ := hs.tree
  obtain ⟨c, _, h2⟩ := collect0_reads h ht fuel t n [] s hs.stored hs.counts hs.coherent hf
  exact ⟨_, by simpa [Tree.collectFrom] using h2⟩

theorem Sees.collect (h : E.Lawful) (ht : T.Lawful) {tr : Tree E} {t : PTree T V} {s : St E} (hs : Sees sec tr t s) :
    Yields Tree.collect tr s t.content := by
  have := hs.collectFrom h ht 0
  rw [List.drop_zero] at this
  exact this

theorem Sees.get (h : E.Lawful) (ht : T.Lawful) {tr : Tree E} {t : PTree T V} {s : St E} (hs : Sees sec tr t s) (n : Nat) :
    Yields (fun fuel t => Tree.get fuel t n) tr s (t.content[n]?.join) := by
  intro fuel hf
  rw [hs.level] at hf
  obtain ⟨o, rfl⟩ := hs.tree
  obtain ⟨c, _, h2⟩ := get0_reads h ht fuel t n s hs.stored hs.counts hs.coherent hf
  exact ⟨_, h2⟩

open Classical in
theorem Sees.isPacked (h : E.Lawful) {tr : Tree E} {t : PTree T V} {s : St E} (hs : Sees sec tr t s) :
    Yields Tree.isPacked tr s (decide (Packed t)) := by
  intro fuel hf
  rw [hs.level] at hf
  obtain ⟨o, rfl⟩ := hs.tree
  obtain ⟨c, _, h2⟩ := isPacked0_reads h fuel t s hs.stored.outlined hs.counts hs.nonempty hs.coherent hf
  exact ⟨_, h2⟩

theorem Snap.sees {s s' : St E} {t : PTree T V} (h : Snap cx s (some t) s') : Sees cx.sec (snapshot cx s) t s' := by
  refine ⟨⟨s.offset, ?_⟩, h.coherent, h.stored t rfl, (h.wf t rfl).counts, (h.wf t rfl).nonempty⟩
  unfold snapshot
  rw [h.root]
  rfl

end Banyan
