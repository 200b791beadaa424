import Verif.Proofs.Check
import Verif.Props.Reload
import Verif.Props.Cache
/-
The invariant checker finds everything: C68.
-/
set_option autoImplicit false
namespace Banyan

open PTree Concrete

variable {T : TreeTypes} {V : Type} {E : Env T V} {cx : Ctx E} {s s' : St E}

/-- C68: on any tree that can be loaded, however it was made, the invariant checker reports a kind of problem exactly if
some node has it. (The only tree it cannot be used for has a branch with level zero, which makes it panic.) -/
theorem C68_checker_exact (hE : E.Lawful) {t : PTree T V} (hroot : s.root = some t.index) (hst : Stored E cx.sec s.store t) (hco : Coherent E cx.sec s)
    (hlev : ∀ i cs, .branch i cs ∈ t.nodes → 0 < i.level) :
    ∃ (n : Nat) (msgs : List InvMsg), (∀ fuel, n ≤ fuel → ∃ s', checkInvariants cx fuel s = .ok msgs s') ∧
      ∀ m, m ∈ msgs ↔ ∃ x ∈ t.nodes, Violates cx.cfg x m := by
  have hl : t.All fun n => ∀ i cs, n = .branch i cs → 0 < i.level := fun n hn i cs h => hlev i cs (h ▸ hn)
  refine ⟨t.height, t.nodes.flatMap (found cx.cfg), fun fuel hf => ?_, fun m => ?_⟩
  · obtain ⟨l', c', _, h2⟩ := checkInvariants0_found hE (coherent_serves hE cx.sec) (cfg := cx.cfg) fuel t i32max [] s hst hl hco hf
    unfold checkInvariants
    rw [bind_apply]
    unfold getIndex
    simp only [hroot]
    rw [bind_apply, h2]
    exact ⟨_, rfl⟩
  · rw [List.mem_flatMap]
    exact exists_congr fun x => and_congr_right fun hx => mem_found (hl x hx)

/-- C68: `assert_invariants` passes exactly if no node has a problem, and panics otherwise. -/
theorem C68_assert (hE : E.Lawful) {t : PTree T V} (hroot : s.root = some t.index) (hst : Stored E cx.sec s.store t) (hco : Coherent E cx.sec s)
    (hlev : ∀ i cs, .branch i cs ∈ t.nodes → 0 < i.level) :
    ∃ n : Nat, ∀ fuel, n ≤ fuel →
      ((∃ s', assertInvariants cx fuel s = .ok () s') ↔ ∀ x ∈ t.nodes, ∀ m, ¬ Violates cx.cfg x m) ∧
      ((∃ s', assertInvariants cx fuel s = .error (.panic "assert_invariants failed") s') ↔ ∃ x ∈ t.nodes, ∃ m, Violates cx.cfg x m) := by
  obtain ⟨n, msgs, h1, h2⟩ := C68_checker_exact hE hroot hst hco hlev
  refine ⟨n, fun fuel hf => ?_⟩
  obtain ⟨s', h3⟩ := h1 fuel hf
  have h4 : assertInvariants cx fuel s = if msgs = [] then .ok () s' else .error (.panic "assert_invariants failed") s' := by
    unfold assertInvariants
    rw [bind_apply, h3]
    cases msgs <;> rfl
  have h5 : msgs = [] ↔ ∀ x ∈ t.nodes, ∀ m, ¬ Violates cx.cfg x m := by
    rw [List.eq_nil_iff_forall_not_mem]
    constructor
    · intro h x hx m hm
      exact h m ((h2 m).mpr ⟨x, hx, hm⟩)
    · intro h m hm
      obtain ⟨x, hx, hv⟩ := (h2 m).mp hm
      exact h x hx m hv
  have h6 : (∃ x ∈ t.nodes, ∃ m, Violates cx.cfg x m) ↔ ¬ msgs = [] := by
    rw [h5]
    simp
  rw [h4, ← h5, h6]
  by_cases hm : msgs = []
  · simp [hm]
  · simp [hm]

/-! ### examples -/

theorem stored_root {sec : Secrets E} {σ : E.σ} {i i' : BranchIndex T} {cs : List (PTree T V)} (h : Stored E sec σ (.branch i cs)) (hl : i'.link = i.link) :
    Stored E sec σ (.branch i' cs) := by
  intro n hn
  simp only [nodes, List.mem_cons] at hn
  rcases hn with rfl | hn
  · obtain ⟨l, r, h1, h2⟩ := PTree.All.root h
    exact ⟨l, r, hl.trans h1, h2⟩
  · exact h n (by simp [nodes, hn])

/-- A state with wrong summaries, a wrong level and a wrong sealed flag in the root. -/
def spoiled (s : St env) : St env :=
  { s with root := s.root.map fun
    | .branch i => .branch { i with summaries := types.sums.ofList [(0, 3), (4, 5)], level := i.level + 1, isSealed := true }
    | i => i }

/-- It can be loaded. -/
theorem spoiled_stored {s : St env} {l : Nat} (hr : Reach (ctx tiny) s) (hs : Small env s) (hlink : linkOf s = some l) :
    ∃ t : PTree types Nat, (spoiled s).root = some t.index ∧ Stored env (ctx tiny).sec (spoiled s).store t ∧
      ∀ i cs, .branch i cs ∈ t.nodes → 0 < i.level := by
  obtain ⟨t, hi⟩ := tiny_ok.inv hr hs
  have hroot := hi.holds.root
  obtain ⟨i, h1, h2⟩ := linkOf_spec hlink
  unfold spoiled
  cases t with
  | none => rw [hroot] at h1; cases h1
  | some t =>
    have hg := hi.holds.good t rfl
    have hpos : ∀ i cs, PTree.branch i cs ∈ t.nodes → 0 < i.level := by
      intro i cs h
      obtain ⟨_, _, ⟨c, _, h2⟩, _⟩ := hg.wf _ h
      omega
    have hst := hg.stored
    rw [hroot] at h1
    have h1 : t.index = .branch i := by simpa using h1
    rw [hroot]
    cases t with
    | leaf => cases h1
    | purgedLeaf => cases h1
    | purgedBranch =>
      cases h1
      have : i.link = none := PTree.All.root hst
      rw [h2] at this
      cases this
    | branch j cs =>
      refine ⟨.branch { j with summaries := types.sums.ofList [(0, 3), (4, 5)], level := j.level + 1, isSealed := true } cs, rfl, stored_root hst rfl, ?_⟩
      intro i' cs' h
      simp only [nodes, List.mem_cons] at h
      rcases h with h | h
      · cases h; exact Nat.succ_pos _
      · exact hpos i' cs' (by simp [nodes, h])

/-- The hypotheses are met by trees with a root that was tampered with ... -/
theorem spoiled_checked {s : St env} {l : Nat} (hr : Reach (ctx tiny) s) (hs : Small env s) (hlink : linkOf s = some l) :
    ∃ t : PTree types Nat, (spoiled s).root = some t.index ∧
      ∃ (n : Nat) (msgs : List InvMsg), (∀ fuel, n ≤ fuel → ∃ s', checkInvariants (ctx tiny) fuel (spoiled s) = .ok msgs s') ∧
        ∀ m, m ∈ msgs ↔ ∃ x ∈ t.nodes, Violates tiny x m := by
  obtain ⟨t, h1, h2, h3⟩ := spoiled_stored hr hs hlink
  have hco : Coherent env (ctx tiny).sec s := hr.coherent env_lawful
  exact ⟨t, h1, C68_checker_exact (cx := ctx tiny) (s := spoiled s) env_lawful h1 h2 hco h3⟩

example : ∃ t : PTree types Nat, (spoiled packed7).root = some t.index ∧
    ∃ (n : Nat) (msgs : List InvMsg), (∀ fuel, n ≤ fuel → ∃ s', checkInvariants (ctx tiny) fuel (spoiled packed7) = .ok msgs s') ∧
      ∀ m, m ∈ msgs ↔ ∃ x ∈ t.nodes, Violates tiny x m :=
  spoiled_checked packed7_reach packed7_small (l := 6) (by decide +kernel)

/-- ... and there is something to report. -/
example : valueOf (checkInvariants (ctx tiny) 10) (spoiled packed7) = some [.childLevelSealed, .childLevelSealed, .childSummary, .sealedFlag] ∧
    errorOf (assertInvariants (ctx tiny) 10) (spoiled packed7) = some (.panic "assert_invariants failed") := by
  constructor <;> decide +kernel

end Banyan
