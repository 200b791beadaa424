import Verif.Proofs.Repair
/-
The invariant of reachable builders.
-/
set_option autoImplicit false
namespace Banyan

open PTree

variable {T : TreeTypes} {V : Type} {E : Env T V} {cx : Ctx E} {I : NodeInv cx}

/-- An invariant of the nodes for builders with different configurations. -/
theorem ReachIn.inv (h : E.Lawful) (ht : T.Lawful) {P : Config → Prop} (hP : ∀ c, P c → c.Valid) {sec : Secrets E}
    (F : ∀ c, P c → NodeInv (⟨c, sec⟩ : Ctx E)) (hF : ∀ c c' hc hc', (F c hc).J = (F c' hc').J) (hI : ∀ c hc, (F c hc).Rewrites)
    {cfg : Config} {s : St E} (hr : ReachIn P sec cfg s) (hc : P cfg) (hs : Small E s) : ∃ t, Inv (F cfg hc) s t := by
  induction hr with
  | fresh s h1 h2 =>
    exact ⟨none, ⟨by rw [h1]; rfl, h2, by simp⟩, trivial, by rw [h1]; exact Nat.zero_le _, Nat.zero_le _, trivial⟩
  | run _ h2 ih => exact h2.inv h ht (hP _ hc) (hI _ hc) (ih hc ((h2.ext0 h).small hs)) hs
  | @load cfg cfg' s i l h0 h1 h2 h3 ih =>
    have hw : (endState (loadStreamBuilder (⟨cfg, sec⟩ : Ctx E) l) s).written = s.written := by
      unfold endState loadStreamBuilder
      split <;> (rename_i hx; split at hx <;> cases hx <;> rfl)
    obtain ⟨t, hi⟩ := ih h0 (by unfold Small at *; rw [← hw]; exact hs)
    obtain ⟨s', t', k1, k2, _⟩ := load_inv (hP _ hc) ht (hI _ hc).reload (hi.reconfigure (hF _ _ h0 hc)) h2 h3
    exact ⟨t', by unfold endState; rw [k1]; exact k2⟩
  | @repair cfg s d s' fuel report h1 h2 h3 h4 h5 h6 h7 ih =>
    have hv := hP _ hc
    have hx := (frame0_repair (cx := ⟨cfg, sec⟩) h fuel).ok h6
    have hsd : Small E s := by
      have := hx.small hs
      unfold Small at *
      rwa [← h3.written]
    obtain ⟨t, hi⟩ := ih hc hsd
    rcases repair_ok h ht hv (hI _ hc) hi.holds h3 h5 h6 hs with ⟨rfl, rfl, rfl⟩ | ⟨t0, t', rfl, k1, k2, k3, k4, k5⟩
    · refine ⟨none, ⟨by rw [h3.root, hi.holds.root], h4, by simp⟩, trivial, by rw [h3.root]; exact hi.level, Nat.zero_le _, trivial⟩
    · have hp : Packed t0 := (hi.holds.packed h).mp h2
      have hg : Good (F cfg hc) s'.store t' := k2.good (k3.quiet h7 (hi.holds.good t0 rfl).wf.sealedPurges)
      have hh : HoldsI (F cfg hc) s' (some t') := by
        refine ⟨by rw [k1]; rfl, hx.coherent h4, ?_⟩
        intro t2 ht2
        cases ht2
        exact hg
      have hlen : (optContent (some t')).length = (optContent (some t0)).length := by
        show (content _).length = (content _).length
        rw [content_length ht (hi.holds.good t0 rfl).counts, content_length ht hg.counts, unlink_count k3.unlink]
      refine ⟨some t', hh, OptPacked.purgeOk hh (k3.packed hp), ?_, by rw [hlen]; exact hi.count, k3.minRoot hi.minRoot⟩
      rw [hlen, k1]
      have := hi.level
      rw [hi.holds.root] at this
      have hl : t'.index.level = t0.index.level := unlink_level k3.unlink
      show t'.index.level ≤ _
      rw [hl]
      exact this
  | @collect cfg s σ γ h1 h2 h3 ih =>
    obtain ⟨t, hi⟩ := ih hc hs
    refine ⟨t, ⟨hi.holds.root, h3, fun t' ht' => ?_⟩, hi.purge, hi.level, hi.count, hi.minRoot⟩
    have hg := hi.holds.good t' ht'
    exact hg.congr (fun n => (hI cfg hc).damage) (h2 t' (by rw [hi.holds.root, ht']; rfl) hg.stored)

/-- An invariant of the nodes that holds for builders with every configuration. -/
theorem Reach.inv (h : E.Lawful) (ht : T.Lawful) (hv : cx.cfg.Valid) (F : ∀ c, NodeInv (⟨c, cx.sec⟩ : Ctx E))
    (hF : ∀ c c', (F c).J = (F c').J) (hI : ∀ c, (F c).Rewrites) {s : St E} (hr : Reach cx s) (hs : Small E s) :
    ∃ t, Inv (F cx.cfg) s t :=
  ReachIn.inv h ht (fun _ hc => hc) (fun c _ => F c) (fun c c' _ _ => hF c c') (fun c _ => hI c) hr hv hs

/-- An invariant of the nodes for builders with one configuration. -/
theorem Steady.inv (h : E.Lawful) (ht : T.Lawful) (hv : cx.cfg.Valid) (hI : I.Rewrites) {s : St E} (hr : Steady cx s)
    (hs : Small E s) : ∃ t, Inv I s t :=
  ReachIn.inv h ht (P := (· = cx.cfg)) (fun _ hc => hc ▸ hv) (fun c hc => by subst hc; exact I) (by intro c c' hc hc'; subst hc; subst hc'; rfl)
    (by intro c hc; subst hc; exact hI) hr rfl hs

theorem Ctx.Ok.inv (ok : cx.Ok) {s : St E} (hr : Reach cx s) (hs : Small E s) : ∃ t, Inv (NodeInv.trivial cx) s t :=
  hr.inv ok.env ok.types ok.cfg (fun c => NodeInv.trivial ⟨c, cx.sec⟩) (fun _ _ => rfl) (fun c => NodeInv.trivial_rewrites ⟨c, cx.sec⟩) hs

end Banyan
