import Verif.Props.Cipher
import Verif.Props.Pack
import Verif.Props.Repair
import Verif.Props.Reconfigure
import Verif.Proofs.InStep
/-
Histories with any number of reloads: C22.
-/
set_option autoImplicit false
namespace Banyan

open PTree Concrete

variable {T : TreeTypes} {V : Type} {E : Env T V} {sec : Secrets E} {a s s' : St E} {cfg cfg' : Config} {fresh : Bool}

/-- Histories of a tree, from an empty builder in state `a`, in which a new builder is created from the link of the root
any number of times, with any valid configuration each time. The flag says that no operation failed or was rolled back
since the last successful append (or since the begin, or since the last reload): only then a reload is allowed. -/
inductive Careful (sec : Secrets E) (a : St E) : Config → Bool → St E → Prop
  | empty {cfg : Config} : cfg.Valid → a.root = none → Coherent E sec a → Careful sec a cfg true a
  | extend {cfg : Config} {fresh : Bool} {s s' : St E} (fuel : Nat) (xs : List (T.Key × V)) : Careful sec a cfg fresh s →
      rootLevel s.root < fuel → rootCount s.root + xs.length ≤ maxElements → extend ⟨cfg, sec⟩ fuel xs s = .ok () s' →
      Careful sec a cfg (fresh || !xs.isEmpty) s'
  | extendUnpacked {cfg : Config} {fresh : Bool} {s s' : St E} (fuel : Nat) (xs : List (T.Key × V)) :
      Careful sec a cfg fresh s → rootLevel s.root < fuel → rootCount s.root + xs.length ≤ maxElements →
      extendUnpacked ⟨cfg, sec⟩ fuel xs s = .ok () s' → Careful sec a cfg (fresh || !xs.isEmpty) s'
  | pack {cfg : Config} {fresh : Bool} {s s' : St E} (fuel : Nat) : Careful sec a cfg fresh s →
      rootLevel s.root < fuel → pack ⟨cfg, sec⟩ fuel s = .ok () s' → Careful sec a cfg fresh s'
  | retain {cfg : Config} {fresh : Bool} {s s' : St E} (fuel : Nat) (q : Query T) : Careful sec a cfg fresh s →
      rootLevel s.root < fuel → retain ⟨cfg, sec⟩ fuel q s = .ok () s' → Careful sec a cfg fresh s'
  | repair {cfg : Config} {fresh : Bool} {s d s' : St E} (fuel : Nat) (report : List (RepairMsg T)) : Careful sec a cfg fresh s →
      ReportsPacked ⟨cfg, sec⟩ s → Damaged ⟨cfg, sec⟩ s d → d.offset = s.offset → d.puts = s.puts → Coherent E sec d →
      rootLevel s.root < fuel → repair ⟨cfg, sec⟩ fuel d = .ok report s' → Quiet report → Careful sec a cfg fresh s'
  | world {cfg : Config} {fresh : Bool} {s : St E} (σ : E.σ) (γ : E.γ) : Careful sec a cfg fresh s → StoreLe E s.store σ →
      Coherent E sec { s with store := σ, cache := γ } → Careful sec a cfg fresh { s with store := σ, cache := γ }
  | collect {cfg : Config} {fresh : Bool} {s : St E} (σ : E.σ) (γ : E.γ) : Careful sec a cfg fresh s → KeepsTree sec s σ →
      Coherent E sec { s with store := σ, cache := γ } → Careful sec a cfg fresh { s with store := σ, cache := γ }
  | load {cfg cfg' : Config} {s s' : St E} {i : BranchIndex T} {l : T.Link} : Careful sec a cfg true s → cfg'.Valid →
      s.root = some (.branch i) → i.link = some l → loadStreamBuilder ⟨cfg', sec⟩ l s = .ok () s' → Careful sec a cfg' true s'
  | any {cfg : Config} {fresh : Bool} {s s' : St E} : Careful sec a cfg fresh s → Run ⟨cfg, sec⟩ s s' → Careful sec a cfg false s'

theorem endState_ok {α : Type} {m : M E α} {x : α} (h : m s = .ok x s') : endState m s = s' := by
  unfold endState
  rw [h]

theorem LastWritten.inStep {i : Index T} (hi : s.root = some i) (h : LastWritten s i) : InStep s := by
  intro b l hb hl
  obtain ⟨l', h1, h2⟩ := h
  rw [hi] at hb
  cases hb
  have : b.link = some l' := h1
  rw [hl] at this
  cases this
  exact h2

/-- What is known about such histories. -/
structure CarefulInv (sec : Secrets E) (a : St E) (cfg : Config) (fresh : Bool) (s : St E) : Prop where
  valid : cfg.Valid
  reach : Reach (⟨cfg, sec⟩ : Ctx E) s
  inStep : fresh = true → InStep s
  puts : ∃ new, s.puts = a.puts ++ new ∧ Chain E a.offset new s.offset

theorem CarefulInv.chain {fresh' : Bool} (hi : CarefulInv sec a cfg fresh s) (hx : Ext0 (⟨cfg, sec⟩ : Ctx E) s s') (hr : Reach (⟨cfg, sec⟩ : Ctx E) s')
    (hs : fresh' = true → InStep s') : CarefulInv sec a cfg fresh' s' := by
  refine ⟨hi.valid, hr, hs, ?_⟩
  obtain ⟨n1, h1, h2⟩ := hi.puts
  obtain ⟨n2, h3, h4⟩ := hx.puts
  exact ⟨n1 ++ n2, by rw [h3, h1, List.append_assoc], h2.append h4⟩

theorem loadStreamBuilder_root {cx : Ctx E} {l : T.Link} (hload : loadStreamBuilder cx l s = .ok () s') :
    ∃ b : BranchIndex T, s'.root = some (.branch b) ∧ b.link = some l := by
  unfold loadStreamBuilder at hload
  split at hload
  · next idx r hc =>
    cases hload
    unfold createIndexFromLink at hc
    cases hg : getBlock E s.store l with
    | error e => rw [hg] at hc; cases hc
    | ok bytes =>
      rw [hg] at hc
      simp only at hc
      cases hd : deserializeCompressed E cx.sec.indexKey bytes with
      | error e => rw [hd] at hc; cases hc
      | ok x =>
        rw [hd] at hc
        simp only at hc
        cases hm : maxLevel x.1 with
        | none => rw [hm] at hc; cases hc
        | some m => rw [hm] at hc; cases hc; exact ⟨_, rfl, rfl⟩
  · cases hload

theorem Careful.inv (h : E.Lawful) (ht : T.Lawful) (hc : Careful sec a cfg fresh s) (hs : Small E s) : CarefulInv sec a cfg fresh s := by
  induction hc with
  | empty h1 h2 h3 =>
    refine ⟨h1, Reach.fresh (cx := ⟨_, sec⟩) _ h2 h3, ?_, ?_⟩
    · intro _ i l hi
      rw [h2] at hi
      cases hi
    · exact ⟨[], by simp, Nat.le_refl _⟩
  | extend fuel xs _ h1 h2 h3 ih =>
    have hx := (frame0_extend h fuel xs).ok h3
    have hi := ih (hx.small hs)
    have hr := hi.reach.run (endState_ok h3 ▸ Run.extend fuel xs (.refl _) h1 h2)
    refine hi.chain hx hr fun hf => ?_
    by_cases hxs : xs = []
    · subst hxs
      cases h3
      exact hi.inStep (by simpa using hf)
    · obtain ⟨i, k1, k2⟩ := extend_last h hxs h3
      rcases k2 with k2 | k2
      · exact k2.inStep k1
      · exfalso
        have := C28_extend_count ⟨h, ht, hi.valid⟩ hi.reach fuel xs h1 h2 h3 hs
        rw [k2] at this
        have := List.length_pos_iff.mpr hxs
        omega
  | extendUnpacked fuel xs _ h1 h2 h3 ih =>
    have hx := (frame0_extendUnpacked h fuel xs).ok h3
    have hi := ih (hx.small hs)
    have hr := hi.reach.run (endState_ok h3 ▸ Run.extendUnpacked fuel xs (.refl _) h1 h2)
    refine hi.chain hx hr fun hf => ?_
    by_cases hxs : xs = []
    · subst hxs
      cases h3
      exact hi.inStep (by simpa using hf)
    · obtain ⟨i, k1, k2⟩ := extendUnpacked_last h hxs h3
      exact k2.inStep k1
  | pack fuel _ h1 h3 ih =>
    have hx := (frame0_pack h fuel).ok h3
    have hi := ih (hx.small hs)
    have hr := hi.reach.run (endState_ok h3 ▸ Run.pack fuel (.refl _) h1)
    refine hi.chain hx hr fun hf => ?_
    obtain ⟨t, hinv⟩ := Ctx.Ok.inv ⟨h, ht, hi.valid⟩ hi.reach (hx.small hs)
    exact pack_inStep h ht hi.valid hinv h1 (hi.inStep hf) h3 hs
  | retain fuel q _ h1 h3 ih =>
    have hx := (frame0_retain h fuel q).ok h3
    have hi := ih (hx.small hs)
    have hr := hi.reach.run (endState_ok h3 ▸ Run.retain fuel q (.refl _) h1)
    exact hi.chain hx hr fun hf => retain_inStep h (hi.inStep hf) h3 hs
  | repair fuel report _ h1 h2 h3 h4 h5 h6 h7 h8 ih =>
    have hx := (frame0_repair h fuel).ok h7
    have hi := ih (h2.small (hx.small hs))
    refine ⟨hi.valid, hi.reach.repair fuel report h1 h2 h5 h6 h7 h8, fun hf => repair_inStep h (hi.inStep hf) h2 h3 h7 hs, ?_⟩
    obtain ⟨n1, k1, k2⟩ := hi.puts
    obtain ⟨n2, k3, k4⟩ := hx.puts
    rw [h3] at k4
    exact ⟨n1 ++ n2, by rw [k3, h4, k1, List.append_assoc], k2.append k4⟩
  | world σ γ _ h1 h2 ih =>
    rename_i cfg _ _ _
    have hi := ih hs
    have hrun := Run.world (cx := ⟨cfg, sec⟩) σ γ (.refl _) h1 h2
    exact hi.chain (hrun.ext0 h) (hi.reach.run hrun) fun hf => fun i l hr hl => (hi.inStep hf i l hr hl).mono h1 rfl
  | collect σ γ _ h1 h2 ih =>
    rename_i cfg _ s _
    have hi := ih hs
    refine ⟨hi.valid, hi.reach.collect (cx := ⟨cfg, sec⟩) σ γ h1 h2, fun hf i l hr hl => ?_, hi.puts⟩
    obtain ⟨t, hinv⟩ := Ctx.Ok.inv (cx := ⟨cfg, sec⟩) ⟨h, ht, hi.valid⟩ hi.reach hs
    obtain ⟨cs, rfl⟩ := hinv.branch hr hl
    obtain ⟨o, links, d, k1, k2⟩ := hi.inStep hf i l hr hl
    exact ⟨o, links, d, by rw [← k1]; exact h1 (.branch i cs) hr (hinv.holds.good _ rfl).stored _ (self_mem_nodes _) l hl, k2⟩
  | load _ h1 h2 h3 h4 ih =>
    rename_i cfg cfg' s s' i l _
    have hw : s'.written = s.written ∧ s'.puts = s.puts ∧ s'.store = s.store := by
      unfold loadStreamBuilder at h4
      split at h4
      · cases h4; exact ⟨rfl, rfl, rfl⟩
      · cases h4
    have hss : Small E s := by
      unfold Small at hs ⊢
      rwa [hw.1] at hs
    have hi := ih hss
    have hlast := hi.inStep rfl i l h2 h3
    have ho : s'.offset = s.offset := reload_offset h (i := .branch i) h3 ⟨l, h3, hlast⟩ h4
    obtain ⟨t, hinv⟩ := Ctx.Ok.inv ⟨h, ht, hi.valid⟩ hi.reach hss
    refine ⟨h1, endState_ok h4 ▸ Reach.load (cx := ⟨cfg', sec⟩) hi.valid i l hi.reach h2 h3, ?_, ?_⟩
    · intro _ i' l' hi' hl'
      obtain ⟨b, hb, hbl⟩ := loadStreamBuilder_root h4
      rw [hb] at hi'
      cases hi'
      rw [hbl] at hl'
      cases hl'
      exact hlast.mono (by rw [hw.2.2]; exact fun _ _ h => h) ho
    · obtain ⟨n1, k1, k2⟩ := hi.puts
      exact ⟨n1, by rw [hw.2.1, k1], by rw [ho]; exact k2⟩
  | any _ h1 ih =>
    have hx := h1.ext0 h
    have hi := ih (hx.small hs)
    exact hi.chain hx (hi.reach.run h1) fun hf => nomatch hf

/-- C22, partial: in any history with reloads, whatever the configurations, operations and failures, no part of the key
stream is used twice, if no builder is re-created from a root that was written before an operation that failed or was
rolled back. Missing: such reloads, for which it is false (`C22_refuted`). -/
theorem C22_reloads_partial (h : E.Lawful) (ht : T.Lawful) (hc : Careful sec a cfg fresh s) (hs : Small E s) :
    ∃ new, s.puts = a.puts ++ new ∧ NoReuse E new ∧ ∀ b ∈ new, ∀ lo hi, UsesBytes E b lo hi → a.offset ≤ lo ∧ hi ≤ s.offset := by
  obtain ⟨new, h1, h2⟩ := (hc.inv h ht hs).puts
  refine ⟨new, h1, h2.noReuse h, fun b hb lo hi hu => ?_⟩
  have := (h2.mem h hb).2 lo hi hu
  omega

/-- C22, partial: whenever such a history allows it, creating a builder from the link of the root works, and goes on
with the same offset. -/
theorem C22_reload_offset_partial (h : E.Lawful) (ht : T.Lawful) (hc : Careful sec a cfg true s) (hs : Small E s) (hv : cfg'.Valid)
    {i : BranchIndex T} {l : T.Link} (hr : s.root = some (.branch i)) (hl : i.link = some l) :
    ∃ s1, loadStreamBuilder (⟨cfg', sec⟩ : Ctx E) l s = .ok () s1 ∧ s1.offset = s.offset ∧ Careful sec a cfg' true s1 := by
  have hi := hc.inv h ht hs
  obtain ⟨t, hinv⟩ := Ctx.Ok.inv (cx := ⟨cfg, sec⟩) ⟨h, ht, hi.valid⟩ hi.reach hs
  have : ∃ s1, loadStreamBuilder (⟨cfg', sec⟩ : Ctx E) l s = .ok () s1 := by
    obtain ⟨cs, rfl⟩ := hinv.branch hr hl
    obtain ⟨bytes, r, h1, h2⟩ := createIndex_spec (hinv.holds.good _ rfl) hl (cfg'.branchSealed)
    unfold loadStreamBuilder
    rw [h2]
    exact ⟨_, rfl⟩
  obtain ⟨s1, h1⟩ := this
  exact ⟨s1, h1, reload_offset h (i := .branch i) hl ⟨l, hl, hi.inStep rfl i l hr hl⟩ h1, .load hc hv hr hl h1⟩

/-! ### an example -/

/-- Such histories, for the example. -/
def Walk (cfg : Config) (b : Bool) (s : St env) : Prop := Careful (ctx cfg).sec (start 100) cfg b s

theorem walk_extend {cfg : Config} {b : Bool} {s s' : St env} (h : Walk cfg b s) (fuel : Nat) (xs : List (Nat × Nat))
    (hf : fits s fuel xs.length = true) (hok : succeeds (extend (ctx cfg) fuel xs) s = true)
    (he : s' = endState (extend (ctx cfg) fuel xs) s) : Walk cfg (b || !xs.isEmpty) s' :=
  he ▸ Careful.extend (sec := (ctx cfg).sec) fuel xs h (fits_iff hf).1 (fits_iff hf).2 (ok_of_succeeds (m := extend (ctx cfg) fuel xs) hok)

theorem walk_extendUnpacked {cfg : Config} {b : Bool} {s s' : St env} (h : Walk cfg b s) (fuel : Nat) (xs : List (Nat × Nat))
    (hf : fits s fuel xs.length = true) (hok : succeeds (extendUnpacked (ctx cfg) fuel xs) s = true)
    (he : s' = endState (extendUnpacked (ctx cfg) fuel xs) s) : Walk cfg (b || !xs.isEmpty) s' :=
  he ▸ Careful.extendUnpacked (sec := (ctx cfg).sec) fuel xs h (fits_iff hf).1 (fits_iff hf).2
    (ok_of_succeeds (m := extendUnpacked (ctx cfg) fuel xs) hok)

theorem walk_pack {cfg : Config} {b : Bool} {s s' : St env} (h : Walk cfg b s) (fuel : Nat)
    (hf : fits s fuel 0 = true) (hok : succeeds (pack (ctx cfg) fuel) s = true)
    (he : s' = endState (pack (ctx cfg) fuel) s) : Walk cfg b s' :=
  he ▸ Careful.pack (sec := (ctx cfg).sec) fuel h (fits_iff hf).1 (ok_of_succeeds (m := pack (ctx cfg) fuel) hok)

theorem walk_retain {cfg : Config} {b : Bool} {s s' : St env} (h : Walk cfg b s) (fuel : Nat) (q : Query types)
    (hf : fits s fuel 0 = true) (hok : succeeds (retain (ctx cfg) fuel q) s = true)
    (he : s' = endState (retain (ctx cfg) fuel q) s) : Walk cfg b s' :=
  he ▸ Careful.retain (sec := (ctx cfg).sec) fuel q h (fits_iff hf).1 (ok_of_succeeds (m := retain (ctx cfg) fuel q) hok)

theorem walk_reopened {cfg cfg' : Config} {s : St env} (h : Walk cfg true s) (hs : Small env s) (hv : cfg'.Valid)
    (hl : (linkOf s).isSome = true) : Walk cfg' true (reopened cfg' s) := by
  obtain ⟨l, hl⟩ := Option.isSome_iff_exists.mp hl
  obtain ⟨i, h1, h2⟩ := linkOf_spec hl
  obtain ⟨s1, h3, _, h4⟩ := C22_reload_offset_partial (cfg' := cfg') env_lawful types_lawful h hs hv h1 h2
  have e : s1 = reopened cfg' s := by
    unfold reopened
    rw [hl]
    exact (endState_ok h3).symm
  rw [← e]
  exact h4

/-- Ten elements in a tree that is not packed; an append that fails because the store is full after one block; a pack
and a successful append; a pack after reopening with larger nodes; a purge after reopening with the first
configuration; and, after reopening a third time, three more elements. -/
def stumbled : St env := withRoom 100 (endState (extend (ctx tiny) 10 (seq 7 5)) (withRoom 1 unpacked10))
def recovered : St env := endState (extend (ctx tiny) 10 (seq 20 3)) (endState (pack (ctx tiny) 10) stumbled)
def repacked : St env := endState (pack (ctx wide) 10) (reopened wide recovered)
def thinned : St env := endState (retain (ctx tiny) 10 (keyRange 5 5)) (reopened tiny repacked)
def continued : St env := endState (extend (ctx tiny) 10 (seq 30 3)) (reopened tiny thinned)

theorem stumbled_run : Run (ctx tiny) unpacked10 stumbled :=
  run_withRoom failed_run 100 (run_coherent failed_run unpacked10_coherent)

theorem continued_walk : Walk tiny true continued := by
  have h0 : Walk tiny true (start 100) := Careful.empty (sec := (ctx tiny).sec) tiny_valid rfl (by intro l b h; cases h)
  have h1 : Walk tiny true packed7 := walk_extend h0 10 (seq 0 7) (by decide +kernel) (by decide +kernel) rfl
  have h2 : Walk tiny true unpacked10 := walk_extendUnpacked h1 10 (seq 7 3) (by decide +kernel) (by decide +kernel) rfl
  have h3 : Walk tiny false stumbled := Careful.any h2 stumbled_run
  have h4 : Walk tiny false (endState (pack (ctx tiny) 10) stumbled) := walk_pack h3 10 (by decide +kernel) (by decide +kernel) rfl
  have h5 : Walk tiny true recovered := walk_extend h4 10 (seq 20 3) (by decide +kernel) (by decide +kernel) rfl
  have h6 : Walk wide true (reopened wide recovered) := walk_reopened h5 (small_of (by decide +kernel)) wide_ok.cfg (by decide +kernel)
  have h7 : Walk wide true repacked := walk_pack h6 10 (by decide +kernel) (by decide +kernel) rfl
  have h8 : Walk tiny true (reopened tiny repacked) := walk_reopened h7 (small_of (by decide +kernel)) tiny_valid (by decide +kernel)
  have h9 : Walk tiny true thinned := walk_retain h8 10 (keyRange 5 5) (by decide +kernel) (by decide +kernel) rfl
  have h10 : Walk tiny true (reopened tiny thinned) := walk_reopened h9 (small_of (by decide +kernel)) tiny_valid (by decide +kernel)
  exact walk_extend h10 10 (seq 30 3) (by decide +kernel) (by decide +kernel) rfl

/-- All the blocks of this history, also those of the failed append, use different parts of the key stream; the purge
did purge something, and the last append is there. -/
example : NoReuse env continued.puts ∧ 30 ≤ continued.puts.length ∧ elements tiny continued ≠ none ∧
    (elements tiny continued).map (fun c => (c.countP (·.isNone), c.length)) = some (10, 16) := by
  refine ⟨?_, by decide +kernel, by decide +kernel, by decide +kernel⟩
  obtain ⟨new, h1, h2, _⟩ := C22_reloads_partial env_lawful types_lawful continued_walk (small_of (by decide +kernel))
  rw [h1]
  exact h2

end Banyan
