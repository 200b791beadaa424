import Verif.Proofs.Depth
import Verif.Props.Partial
/-
The depth of packed trees: C70.
-/
set_option autoImplicit false
namespace Banyan

open PTree Concrete

variable {T : TreeTypes} {V : Type} {E : Env T V} {cx : Ctx E} {s : St E} {c : List (Option (T.Key × V))}

/-- C70: if the configuration was never changed, a packed tree above level 1 has more elements than a sealed node directly
below its root has at least. -/
theorem C70_depth (ok : cx.Ok) (hr : Steady cx s) (hs : Small E s) (hc : Contains cx s c) (hp : ReportsPacked cx s)
    (hl : 2 ≤ rootLevel s.root) : cx.cfg.leastCount (rootLevel s.root - 1) < c.length := by
  obtain ⟨t, hi⟩ := hr.inv ok.env ok.types ok.cfg (depthInv_rewrites (cx := cx) (f := cx.cfg.leastCount) (h0 := Nat.le_refl 1)
    (hf := fun l hl => Nat.le_of_eq (leastCount_succ cx.cfg l hl))) hs
  rw [hi.holds.contains ok.env ok.types] at hc
  rw [hi.holds.packed ok.env] at hp
  subst hc
  cases t with
  | none => rw [hi.holds.root] at hl; exact absurd hl (by simp [rootLevel])
  | some t =>
    have hg := hi.holds.good t rfl
    rw [hi.holds.level] at hl ⊢
    show _ < t.content.length
    rw [content_length ok.types hg.counts]
    exact deep_count (leastCount_lt ok.cfg) hg.wf (PTree.All.imp (fun _ h => h.2.2.1) hg) hp hi.minRoot hl

/-- C70: the level of a packed tree is logarithmic in its number of elements, even if the configuration was changed. -/
theorem C70_log (ok : cx.Ok) (hr : Reach cx s) (hs : Small E s) (hc : Contains cx s c) (hp : ReportsPacked cx s) :
    rootLevel s.root ≤ Nat.log2 c.length + 2 := by
  obtain ⟨t, hi⟩ := ReachIn.inv ok.env ok.types (P := Config.Valid) (sec := cx.sec) (fun _ h => h)
    (fun cfg hv => depthInv ⟨cfg, cx.sec⟩ (fun l => 2 ^ (l - 1)) (Nat.le_refl 1) (pow_step hv)) (fun _ _ _ _ => rfl)
    (fun _ _ => depthInv_rewrites) hr ok.cfg hs
  rw [hi.holds.contains ok.env ok.types] at hc
  rw [hi.holds.packed ok.env] at hp
  subst hc
  cases t with
  | none => rw [hi.holds.root]; exact Nat.zero_le _
  | some t =>
    have hg := hi.holds.good t rfl
    rw [hi.holds.level]
    show _ ≤ Nat.log2 t.content.length + 2
    rw [content_length ok.types hg.counts]
    by_cases hl : 2 ≤ t.index.level
    · have h1 := deep_count (f := fun l => 2 ^ (l - 1)) (fun l hl => Nat.pow_lt_pow_right (by omega) (by omega)) hg.wf
        (PTree.All.imp (fun _ h => h.2.2.1) hg) hp hi.minRoot hl
      have h2 : t.index.level - 1 - 1 ≤ Nat.log2 t.index.count := (Nat.le_log2 (Nat.ne_of_gt (Nat.lt_of_le_of_lt (Nat.zero_le _) h1))).mpr (Nat.le_of_lt h1)
      omega
    · omega

/-- C70: reading an element of a packed tree needs at most logarithmically many blocks. -/
theorem C70_get_blocks (ok : cx.Ok) (hr : Reach cx s) (hs : Small E s) (hc : Contains cx s c) (hp : ReportsPacked cx s) (o : Nat) :
    ∃ links : List T.Link, links.length ≤ Nat.log2 c.length + 3 ∧
      ∀ s2, (∀ l ∈ links, E.get s2.store l = E.get s.store l) → Coherent E cx.sec s2 →
        Yields (fun fuel t => Tree.get fuel t o) (snapshot cx s) s2 (c[o]?.join) := by
  by_cases hn : s.root = none
  · refine ⟨[], Nat.zero_le _, fun s2 _ hco fuel _ => ?_⟩
    rw [(C28_count ok hr hs hc).2.mp hn]
    unfold Tree.get snapshot
    rw [hn]
    exact ⟨s2, rfl⟩
  · obtain ⟨t, sh⟩ := hr.shows ok hs hn
    refine ⟨(t.wayTo o).filterMap fun n => n.index.link, ?_, fun s2 h hco => ?_⟩
    · have h1 := wayTo_length (hr.wf ok hs sh).wf o
      have h2 := C70_log ok hr hs hc hp
      rw [sh.root] at h2
      have h3 : t.index.level ≤ Nat.log2 c.length + 2 := h2
      exact Nat.le_trans (List.length_filterMap_le _ _) (by omega)
    · refine C66_get ok hr hs sh hc o (fun n hn l hl => h l ?_) hco
      exact List.mem_filterMap.mpr ⟨n, hn, hl⟩

/-! ### examples -/

/-- A tree of level 2 with seven elements: sealed branches of level 1 have at least two elements. The element at offset 5
can be read with at most five blocks. -/
example : rootLevel packed7.root = 2 ∧ (ctx tiny).cfg.leastCount 1 < ((seq 0 7).map some).length ∧
    ∃ links : List types.Link, links.length ≤ 5 ∧
      ∀ s2, (∀ l ∈ links, env.get s2.store l = env.get packed7.store l) → Coherent env (ctx tiny).sec s2 →
        Yields (fun fuel t => Tree.get fuel t 5) (snapshot (ctx tiny) packed7) s2 (some ((5 : Nat), 50)) := by
  have hl : rootLevel packed7.root = 2 := by decide +kernel
  have h1 := C70_depth tiny_ok packed7_steady packed7_small packed7_contains packed7_packed (by rw [hl]; exact Nat.le_refl 2)
  rw [hl] at h1
  exact ⟨hl, h1, C70_get_blocks tiny_ok packed7_reach packed7_small packed7_contains packed7_packed 5⟩

/-- Elements appended one by one without packing. -/
def deep : Nat → St env
  | 0 => start 100
  | n + 1 => endState (extendUnpacked (ctx tiny) 10 (seq n 1)) (deep n)

theorem deep_reach (n : Nat) (h : (List.range n).all (fun m => fits (deep m) 10 1) = true) : Reach (ctx tiny) (deep n) := by
  induction n with
  | zero => exact start_reach tiny 100
  | succ n ih =>
    rw [List.range_succ, List.all_append, Bool.and_eq_true] at h
    exact reach_extendUnpacked (ih h.1) 10 (seq n 1) (by simpa [seq] using h.2)

/-- Trees that are not packed are not shallow: every append without packing adds a level. -/
theorem C70_unpacked_deep : ∃ s : St env, Reach (ctx tiny) s ∧ Small env s ∧ Nat.log2 (rootCount s.root) + 2 < rootLevel s.root :=
  ⟨deep 5, deep_reach 5 (by decide +kernel), small_of (by decide +kernel), by decide +kernel⟩

end Banyan
