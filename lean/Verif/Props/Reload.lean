import Verif.Props.Cipher
import Verif.Proofs.Sees
/-
Loading trees by link: C26.
-/
set_option autoImplicit false
namespace Banyan

open PTree Concrete

variable {T : TreeTypes} {V : Type} {E : Env T V} {cx : Ctx E} {s s' : St E} {c : List (Option (T.Key × V))}

/-- C67: a tree can be reopened with another configuration. If the root of the tree of a builder is a branch, creating a
builder with any other valid configuration from the link of the root gives a builder with the same content, the same
answer to `is_packed`, the same root index except for `key_bytes` and the sealed flag, and the same nodes below the root.
The root is sealed if and only if its children are all sealed, directly below it, and their number reaches the limit of
the new configuration. The builder is in a reachable state, so all that is claimed about reachable states holds. -/
theorem C67_reopen (ok : cx.Ok) {cfg : Config} (hv : cfg.Valid) (hr : Reach ⟨cfg, cx.sec⟩ s) (hs : Small E s) (hc : Contains cx s c)
    {i : BranchIndex T} {l : T.Link} (hi : s.root = some (.branch i)) (hl : i.link = some l) :
    ∃ s1, loadStreamBuilder cx l s = .ok () s1 ∧ Reach cx s1 ∧ Contains cx s1 c ∧
      (ReportsPacked cx s1 ↔ ReportsPacked cx s) ∧
      ∃ i' cs, s1.root = some (.branch i') ∧ i' = { i with keyBytes := i'.keyBytes, isSealed := i'.isSealed } ∧
        Loaded cx s (some (.branch i cs)) ∧ Loaded cx s1 (some (.branch i' cs)) ∧
        (i'.isSealed = true ↔ (∀ c ∈ cs, c.index.isSealed = true ∧ c.index.level + 1 = i.level) ∧
          (if i.level = 1 then cx.cfg.maxKeyBranches else cx.cfg.maxSummaryBranches) ≤ cs.length) := by
  have ok' : (⟨cfg, cx.sec⟩ : Ctx E).Ok := ⟨ok.env, ok.types, hv⟩
  obtain ⟨t, hinv0⟩ := ok'.inv hr hs
  have hinv : Inv (NodeInv.trivial cx) s t := Inv.reconfigure (c := cfg) (c' := cx.cfg) (sec := cx.sec) (I := NodeInv.trivial ⟨cfg, cx.sec⟩) (I' := NodeInv.trivial cx) rfl hinv0
  obtain ⟨cs, rfl⟩ := hinv.branch hi hl
  obtain ⟨s1, i', h1, h2, h3, h4, h5, h6, h7⟩ := load_spec ok.cfg (NodeInv.trivial_rewrites cx).reload hinv.holds hl
  have hr1 : Reach cx s1 := by
    have := Reach.load (cx := cx) hv i l hr hi hl
    unfold endState at this
    rwa [h1] at this
  have hw := ((hinv.holds.good _ rfl) _ (self_mem_nodes _)).2.1
  have hw' := ((h2.good _ rfl) _ (self_mem_nodes _)).2.1
  have hlv : i'.level = i.level := by rw [h3]
  refine ⟨s1, h1, hr1, ?_, ?_, i', cs, h2.root, by rw [h3], hinv.holds.loaded, h2.loaded, ?_⟩
  · rw [h2.contains ok.env ok.types]
    rw [hinv.holds.contains ok.env ok.types] at hc
    exact hc
  · rw [h2.packed ok.env, hinv.holds.packed ok.env]
    exact ⟨fun hp => Packed.remark hw' hlv.symm hp, fun hp => Packed.remark hw hlv hp⟩
  · have hse : i'.isSealed = cx.cfg.branchSealed (cs.map index) i.level := by rw [h3]
    rw [hse, branchSealed_iff, List.length_map]
    refine and_congr_left fun _ => ?_
    constructor
    · intro h c hc
      have h8 := h _ (List.mem_map_of_mem hc)
      have h9 := hw.2.1 c hc
      exact ⟨h8.1, by omega⟩
    · intro h x hx
      obtain ⟨c, hc, rfl⟩ := List.mem_map.mp hx
      exact ⟨(h c hc).1, by have := (h c hc).2; omega⟩

/-- C26, partial: if the root of the tree of a builder is a branch, re-creating the builder from the link of the root
gives a builder with the same content, the same answer to `is_packed`, the same root index except for `key_bytes`, and
the same nodes below the root, if the configuration was never changed. Missing: `key_bytes` (it differs after `retain`, see `C50`), other
configurations (the sealed flag can change, see `C67_reopen`), and roots that are leaves,
for which it is false (`C26_refuted`). -/
theorem C26_load_builder_partial (ok : cx.Ok) (hr : Steady cx s) (hs : Small E s) (hc : Contains cx s c)
    {i : BranchIndex T} {l : T.Link} (hi : s.root = some (.branch i)) (hl : i.link = some l) :
    ∃ s1, loadStreamBuilder cx l s = .ok () s1 ∧ Steady cx s1 ∧ Contains cx s1 c ∧
      (ReportsPacked cx s1 ↔ ReportsPacked cx s) ∧
      ∃ i' cs, s1.root = some (.branch i') ∧ i' = { i with keyBytes := i'.keyBytes } ∧
        Loaded cx s (some (.branch i cs)) ∧ Loaded cx s1 (some (.branch i' cs)) := by
  obtain ⟨t, hinv⟩ := hr.inv ok.env ok.types ok.cfg withinInv_rewrites hs
  obtain ⟨cs, rfl⟩ := hinv.branch hi hl
  obtain ⟨s1, i', h1, h2, h3, h4, h5, h6, h7⟩ := load_spec ok.cfg withinInv_rewrites.reload hinv.holds hl
  have hsl : i.isSealed = cx.cfg.branchSealed (cs.map index) i.level := ((hinv.holds.good _ rfl) _ (self_mem_nodes _)).2.2.2
  rw [← hsl] at h3
  have hr1 : Steady cx s1 := by
    have := Steady.load i l hr hi hl
    unfold endState at this
    rwa [h1] at this
  refine ⟨s1, h1, hr1, ?_, ?_, i', cs, h2.root, h3, hinv.holds.loaded, h2.loaded⟩
  · rw [h2.contains ok.env ok.types]
    rw [hinv.holds.contains ok.env ok.types] at hc
    exact hc
  · rw [h2.packed ok.env, hinv.holds.packed ok.env]
    have hlv : i'.level = i.level := by rw [h3]
    have hse : i'.isSealed = i.isSealed := by rw [h3]
    constructor
    · intro hp
      cases hp with
      | closed _ _ h => exact .closed i cs (hse ▸ h)
      | unclosed _ init last ha hb hd => exact .unclosed i init last (hlv ▸ ha) (hlv ▸ hb) hd
    · intro hp
      cases hp with
      | closed _ _ h => exact .closed i' cs (hse.symm ▸ h)
      | unclosed _ init last ha hb hd => exact .unclosed i' init last (hlv.symm ▸ ha) (hlv.symm ▸ hb) hd

/-- C26, partial: loading a tree by link gives a tree value with the same content, also when read by offset; its root
index is that of the builder except for `key_bytes` and the sealed flag, which is always set. -/
theorem C26_load_tree_partial (ok : cx.Ok) (hr : Reach cx s) (hs : Small E s) (hc : Contains cx s c)
    {i : BranchIndex T} {l : T.Link} (hi : s.root = some (.branch i)) (hl : i.link = some l) :
    ∃ t o kb, loadTree cx.sec l s = .ok t s ∧ t = some (.branch { i with keyBytes := kb, isSealed := true }, cx.sec, o) ∧
      Yields Tree.collect t s c ∧ ∀ n, Yields (fun fuel t => Tree.get fuel t n) t s (c[n]?.join) := by
  obtain ⟨t, hinv⟩ := ok.inv hr hs
  obtain ⟨cs, rfl⟩ := hinv.branch hi hl
  have hg := hinv.holds.good _ rfl
  obtain ⟨bytes, r, hb, h1⟩ := createIndex_spec hg hl (fun _ _ => true)
  have hcc := (hinv.holds.contains ok.env ok.types).mp hc
  have hsees : Sees cx.sec (some (.branch { i with keyBytes := (cs.map fun c => c.index.keyBytes).sum + bytes.length, isSealed := true }, cx.sec, r.2))
      (.branch { i with keyBytes := (cs.map fun c => c.index.keyBytes).sum + bytes.length, isSealed := true } cs) s := by
    refine ⟨⟨_, rfl⟩, hinv.holds.coherent, ?_, ?_, ?_⟩
    · rw [Stored, all_branch]
      have := hg.stored
      rw [Stored, all_branch] at this
      exact this
    · rw [Counts, all_branch]
      have := hg.wf.counts
      rw [Counts, all_branch] at this
      exact this
    · rw [all_branch]
      have := hg.wf.nonempty
      rw [all_branch] at this
      exact this
  have hcontent : c = PTree.content (.branch { i with keyBytes := (cs.map fun c => c.index.keyBytes).sum + bytes.length, isSealed := true } cs) := hcc
  refine ⟨_, r.2, (cs.map fun c => c.index.keyBytes).sum + bytes.length, ?_, rfl, ?_, ?_⟩
  · unfold loadTree
    rw [h1]
  · rw [hcontent]
    exact hsees.collect ok.env ok.types
  · intro n
    rw [hcontent]
    exact hsees.get ok.env ok.types n

/-- The hypotheses are met by a tree with purged leaves. -/
example : ∃ (l : Nat) (s1 : St env), linkOf retained10 = some l ∧ loadStreamBuilder (ctx tiny) l retained10 = .ok () s1 ∧
    Contains (ctx tiny) s1 (List.replicate 4 none ++ (seq 4 6).map some) := by
  have h0 : (linkOf retained10).isSome = true := by decide +kernel
  obtain ⟨l, hl⟩ := Option.isSome_iff_exists.mp h0
  obtain ⟨i, h1, h2⟩ := linkOf_spec hl
  obtain ⟨s1, h3, _, h4, _⟩ := C26_load_builder_partial tiny_ok retained10_steady retained10_small retained10_contains h1 h2
  exact ⟨l, s1, hl, h3, h4⟩

/-- Two elements, packed: the root is the leaf itself. -/
def bare : St env := endState (pack (ctx tiny) 10) (endState (extend (ctx tiny) 10 (seq 0 2)) (start 100))

/-- The link of a tree. -/
def rootLinkOf (s : St env) : Option Nat := rootLink s.root

/-- What `is_packed` says about a tree after loading it. -/
def packedAfterLoad (l : Nat) (s : St env) : Option Bool :=
  match loadTree (ctx tiny).sec l s with
  | .ok t s => valueOf (Tree.isPacked 10 t) s
  | .error _ _ => none

/-- C26 is false. (1) Packing a tree with just one sealed leaf leaves the leaf as the root; the tree has a link and can
be read, but loading it by its link is an error, since `create_index_from_link` takes every root for a branch. (2) A
tree that is not packed says that it is packed after having been loaded by link, since `load_tree` sets the sealed flag
of the root. -/
theorem C26_refuted :
    (Reach (ctx tiny) bare ∧ Small env bare ∧ rootLinkOf bare = some 0 ∧
      elements tiny bare = some ((seq 0 2).map some) ∧
      errorOf (loadStreamBuilder (ctx tiny) (0 : Nat)) bare = some (.fail "invalid") ∧
      errorOf (loadTree (ctx tiny).sec (0 : Nat)) bare = some (.fail "invalid")) ∧
    (Reach (ctx tiny) unpacked10 ∧ linkOf unpacked10 = some 10 ∧
      valueOf (Tree.isPacked 10 (snapshot (ctx tiny) unpacked10)) unpacked10 = some false ∧
      packedAfterLoad 10 unpacked10 = some true) :=
  ⟨⟨reach_pack (reach_extend (start_reach tiny 100) 10 (seq 0 2) (by decide +kernel)) 10 (by decide +kernel),
    small_of (by decide +kernel), by decide +kernel, by decide +kernel, by decide +kernel, by decide +kernel⟩,
   unpacked10_reach, by decide +kernel, by decide +kernel, by decide +kernel⟩

end Banyan
