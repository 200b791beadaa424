import Verif.Props.Reload
/-
Changing the configuration of a tree: C67, and C27 for such trees.
-/
set_option autoImplicit false
namespace Banyan

open PTree Concrete

variable {T : TreeTypes} {V : Type} {E : Env T V} {cx : Ctx E} {s s1 : St E} {c : List (Option (T.Key × V))}

/-- C67: a tree that was reopened with another configuration can be used. Appending appends, packing does not change the
content and makes a packed tree. `extend` of a packed tree and `extend_unpacked` fail only for a cause outside of the
tree. `pack` can also fail because a value of the tree is larger than the new limit.

Missing for the full claim: that `pack` does not fail for the last reason, which is false (`C67_refuted`). -/
theorem C67_usable_partial (ok : cx.Ok) {cfg : Config} (hv : cfg.Valid) (hr : Reach ⟨cfg, cx.sec⟩ s) (hs : Small E s) (hc : Contains cx s c)
    {i : BranchIndex T} {l : T.Link} (hi : s.root = some (.branch i)) (hl : i.link = some l) (hload : loadStreamBuilder cx l s = .ok () s1)
    (fuel : Nat) (hf : rootLevel s1.root < fuel) :
    (∀ xs, c.length + xs.length ≤ maxElements →
      (∀ s2, extend cx fuel xs s1 = .ok () s2 → Small E s2 → Contains cx s2 (c ++ xs.map some)) ∧
      (∀ e s2, ReportsPacked cx s → extend cx fuel xs s1 = .error e s2 → Small E s2 → Allowed E cx.cfg (fun v => ∃ k, (k, v) ∈ xs) e) ∧
      (∀ s2, extendUnpacked cx fuel xs s1 = .ok () s2 → Small E s2 → Contains cx s2 (c ++ xs.map some)) ∧
      (∀ e s2, extendUnpacked cx fuel xs s1 = .error e s2 → Small E s2 → Allowed E cx.cfg (fun v => ∃ k, (k, v) ∈ xs) e)) ∧
    (∀ s2, pack cx fuel s1 = .ok () s2 → Small E s2 → Contains cx s2 c ∧ ReportsPacked cx s2) ∧
    (∀ e s2, pack cx fuel s1 = .error e s2 → Small E s2 → Allowed E cx.cfg (fun v => ∃ k, some (k, v) ∈ c) e) := by
  obtain ⟨s1', h1, h2, h3, h4, i', cs, h5, h6, _⟩ := C67_reopen ok hv hr hs hc hi hl
  rw [h1] at hload
  cases hload
  have hs1 : Small E s1 := by
    have hw : s1.written = s.written := by
      unfold loadStreamBuilder at h1
      split at h1
      · cases h1; rfl
      · cases h1
    unfold Small at *
    rw [hw]
    exact hs
  have hn : rootCount s1.root = c.length := (C28_count ok h2 hs1 h3).1
  refine ⟨fun xs hx => ⟨fun s2 a b => ?_, fun e s2 p a b => ?_, fun s2 a b => ?_, fun e s2 a b => ?_⟩, fun s2 a b => ⟨?_, ?_⟩, fun e s2 a b => ?_⟩
  · exact C01_extend_appends ok h2 fuel xs hf (by omega) a b h3
  · exact C06_extend_never_aborts_partial ok h2 fuel xs hf (by omega) (h4.mpr p) a b
  · exact C02_extendUnpacked_appends ok h2 fuel xs (by omega) a b h3
  · exact C61_extendUnpacked_never_aborts ok h2 fuel xs (by omega) a b
  · exact C03_pack_preserves ok h2 fuel hf a b h3
  · exact C04_pack_packs ok h2 fuel hf a b
  · exact C18_pack_reconfigured ok h2 fuel hf a b h3

/-! ### examples and refutations -/

/-- A configuration with larger nodes. -/
def wide : Config :=
  { maxSummaryBranches := 3, maxKeyBranches := 4, maxLeafCount := 4, targetLeafSize := 2000, maxUncompressedLeafSize := 10000, zstdLevel := 2 }

theorem wide_ok : (ctx wide).Ok := ⟨env_lawful, types_lawful, by refine ⟨?_, ?_, ?_, ?_⟩ <;> decide⟩

/-- The builder that is created from the link of the root, with some configuration. -/
def reopened (cfg : Config) (s : St env) : St env :=
  match linkOf s with
  | some l => endState (loadStreamBuilder (ctx cfg) l) s
  | none => s

theorem reopened_reach {cfg cfg' : Config} (hv : cfg.Valid) {s : St env} (hr : Reach (ctx cfg) s) {l : Nat} (hl : linkOf s = some l) :
    Reach (ctx cfg') (reopened cfg' s) := by
  obtain ⟨i, h1, h2⟩ := linkOf_spec hl
  unfold reopened
  rw [hl]
  exact Reach.load (cx := ctx cfg') hv i l hr h1 h2

/-- Eight elements: the root is sealed. -/
def packed8 : St env := endState (extend (ctx tiny) 10 (seq 0 8)) (start 100)

theorem packed8_reach : Reach (ctx tiny) packed8 := reach_extend (start_reach tiny 100) 10 (seq 0 8) (by decide +kernel)

theorem packed8_contains : Contains (ctx tiny) packed8 ((seq 0 8).map some) :=
  C01_extend_appends (c := []) tiny_ok (start_reach tiny 100) 10 (seq 0 8) (by decide +kernel) (by decide +kernel)
    (ok_of_succeeds (by decide +kernel)) (small_of (by decide +kernel)) (contains_start tiny_ok rfl (by intro l b h; cases h))

/-- After reopening with larger nodes, the root is not sealed any more. -/
example : packed8.root.map Index.isSealed = some true ∧ (reopened wide packed8).root.map Index.isSealed = some false := by
  constructor <;> decide +kernel

/-- The hypotheses are met: nine more elements, with larger nodes. -/
example : Contains (ctx wide) (endState (extend (ctx wide) 10 (seq 8 9)) (reopened wide packed8)) ((seq 0 8).map some ++ (seq 8 9).map some) := by
  have h0 : linkOf packed8 = some 6 := by decide +kernel
  obtain ⟨i, h1, h2⟩ := linkOf_spec h0
  have hload : loadStreamBuilder (ctx wide) (6 : Nat) packed8 = .ok () (reopened wide packed8) := by
    unfold reopened
    rw [h0]
    exact ok_of_succeeds (by decide +kernel)
  exact ((C67_usable_partial (cx := ctx wide) (s := packed8) wide_ok tiny_valid packed8_reach (small_of (by decide +kernel)) packed8_contains h1 h2 hload 10
    (by decide +kernel)).1 (seq 8 9) (by decide +kernel)).1 _ (ok_of_succeeds (by decide +kernel)) (small_of (by decide +kernel))

/-- A configuration with a lower limit for the size of leaves. -/
def narrow : Config := { tiny with maxUncompressedLeafSize := 3 }

/-- Four elements, not packed. -/
def apart4 : St env := endState (extendUnpacked (ctx tiny) 10 (seq 301 3)) (endState (extendUnpacked (ctx tiny) 10 (seq 300 1)) (start 100))

theorem apart4_reach : Reach (ctx tiny) apart4 :=
  reach_extendUnpacked (reach_extendUnpacked (start_reach tiny 100) 10 (seq 300 1) (by decide +kernel)) 10 (seq 301 3) (by decide +kernel)

/-- C67 is false: a tree that can be packed with the configuration it was made with cannot be packed after it was reopened
with a lower (valid) limit for the size of leaves, although it can be read. -/
theorem C67_refuted : Reach (ctx narrow) (reopened narrow apart4) ∧ narrow.validate = true ∧ Small env (reopened narrow apart4) ∧
    succeeds (pack (ctx tiny) 10) apart4 = true ∧
    elements narrow (reopened narrow apart4) = some ((seq 300 4).map some) ∧
    errorOf (pack (ctx narrow) 10) (reopened narrow apart4) = some (.fail "single item too large!") :=
  ⟨reopened_reach tiny_valid apart4_reach (l := 5) (by decide +kernel), by decide, small_of (by decide +kernel), by decide +kernel, by decide +kernel,
    by decide +kernel⟩

/-- C27 is false for trees that were reopened with another configuration: `check_invariants` complains about branches that
are sealed according to the old configuration, but not according to the new one. -/
theorem C27_refuted_reconfigured : Reach (ctx wide) (reopened wide packed7) ∧ Small env (reopened wide packed7) ∧
    (valueOf (checkInvariants (ctx wide) 10) (reopened wide packed7)) = some [.sealedFlag] :=
  ⟨reopened_reach tiny_valid packed7_reach (l := 6) (by decide +kernel), small_of (by decide +kernel), by decide +kernel⟩

end Banyan
