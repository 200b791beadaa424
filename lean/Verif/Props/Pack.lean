import Verif.Props.Append
import Verif.Concrete.Free
import Verif.Proofs.NodeInvs
/-
Packing: C03, C04, C18, C59.
-/
set_option autoImplicit false
namespace Banyan

open PTree Concrete

variable {T : TreeTypes} {V : Type} {E : Env T V} {cx : Ctx E} {s s' : St E} {c : List (Option (T.Key × V))}

theorem pack_reach (hr : Reach cx s) {fuel : Nat} (hf : rootLevel s.root < fuel) (he : pack cx fuel s = .ok () s') : Reach cx s' := by
  have := hr.run (.pack fuel (.refl s) hf)
  unfold endState at this
  rw [he] at this
  exact this

/-- C03: a successful `pack` does not change the content. -/
theorem C03_pack_preserves (ok : cx.Ok) (hr : Reach cx s) (fuel : Nat) (hf : rootLevel s.root < fuel)
    (he : pack cx fuel s = .ok () s') (hs : Small E s') (hc : Contains cx s c) : Contains cx s' c := by
  obtain ⟨t, hi⟩ := ok.inv hr (((frame0_pack ok.env fuel).ok he).small hs)
  have h2 := hi.count
  have hm : maxElements = 2147483645 := rfl
  have hu : u32max = 4294967295 := rfl
  obtain ⟨t', k1, k2, _⟩ := (pack_spec (I := NodeInv.trivial cx) (R := fun _ => True) ok.env ok.types ok.cfg
    fuel t (fun _ _ => trivial) s hi.holds hi.purge hf hi.level_lt (by omega)).ok he hs
  rw [hi.holds.contains ok.env ok.types] at hc
  rw [k1.contains ok.env ok.types, k2, hc]

/-- C28 for `pack`. -/
theorem C28_pack_count (ok : cx.Ok) (hr : Reach cx s) (fuel : Nat) (hf : rootLevel s.root < fuel)
    (he : pack cx fuel s = .ok () s') (hs : Small E s') : rootCount s'.root = rootCount s.root := by
  have hs0 := ((frame0_pack ok.env fuel).ok he).small hs
  obtain ⟨c, hc⟩ := reach_readable ok hr hs0
  rw [(C28_count ok hr hs0 hc).1, (C28_count ok (pack_reach hr hf he) hs (C03_pack_preserves ok hr fuel hf he hs hc)).1]

/-- C04: after a successful `pack` the tree is packed. -/
theorem C04_pack_packs (ok : cx.Ok) (hr : Reach cx s) (fuel : Nat) (hf : rootLevel s.root < fuel)
    (he : pack cx fuel s = .ok () s') (hs : Small E s') : ReportsPacked cx s' := by
  obtain ⟨t, hi⟩ := ok.inv hr (((frame0_pack ok.env fuel).ok he).small hs)
  have h2 := hi.count
  have hm : maxElements = 2147483645 := rfl
  have hu : u32max = 4294967295 := rfl
  obtain ⟨t', k1, _, k3, _⟩ := (pack_spec (I := NodeInv.trivial cx) (R := fun _ => True) ok.env ok.types ok.cfg
    fuel t (fun _ _ => trivial) s hi.holds hi.purge hf hi.level_lt (by omega)).ok he hs
  rw [k1.packed ok.env]
  exact k3

/-- the unpacked tree of the examples does not report that it is packed, but it does after packing -/
example : valueOf (Tree.isPacked 100 (snapshot (ctx tiny) unpacked10)) unpacked10 = some false ∧
    ReportsPacked (ctx tiny) (endState (pack (ctx tiny) 10) unpacked10) ∧
    Contains (ctx tiny) (endState (pack (ctx tiny) 10) unpacked10) ((seq 0 10).map some) := by
  have he : pack (ctx tiny) 10 unpacked10 = .ok () (endState (pack (ctx tiny) 10) unpacked10) := ok_of_succeeds (by decide +kernel)
  have hs : Small env (endState (pack (ctx tiny) 10) unpacked10) := small_of (by decide +kernel)
  exact ⟨by decide +kernel, C04_pack_packs tiny_ok unpacked10_reach 10 (by decide +kernel) he hs,
    C03_pack_preserves tiny_ok unpacked10_reach 10 (by decide +kernel) he hs unpacked10_contains⟩

/-- C18: packing any tree that was made with `extend`, `extend_unpacked`, `pack` and `retain`, in any order, fails only
for a cause outside of the tree, or because a value of the tree is larger than the limit of the configuration (which was
changed since the value was added); in particular not because of purged data, and it never panics. -/
theorem C18_pack_reconfigured (ok : cx.Ok) (hr : Reach cx s) (fuel : Nat) (hf : rootLevel s.root < fuel)
    {e : Err} (he : pack cx fuel s = .error e s') (hs : Small E s') (hc : Contains cx s c) :
    Allowed E cx.cfg (fun v => ∃ k, some (k, v) ∈ c) e := by
  obtain ⟨t, hi⟩ := ok.inv hr (((frame0_pack ok.env fuel).err he).small hs)
  rw [hi.holds.contains ok.env ok.types] at hc
  subst hc
  have h2 := hi.count
  have hm : maxElements = 2147483645 := rfl
  have hu : u32max = 4294967295 := rfl
  exact (pack_spec (I := NodeInv.trivial cx) (R := Allowed E cx.cfg (fun v => ∃ k, some (k, v) ∈ optContent t)) ok.env ok.types ok.cfg
    fuel t (fun _ h => h) s hi.holds hi.purge hf hi.level_lt (by omega)).err he hs

/-- C18: as long as the configuration is never changed, packing fails only for a cause outside of the tree. -/
theorem C18_pack_after_retain (ok : cx.Ok) (hr : Steady cx s) (fuel : Nat) (hf : rootLevel s.root < fuel)
    {e : Err} (he : pack cx fuel s = .error e s') (hs : Small E s') : Allowed E cx.cfg (fun _ => False) e := by
  have hs0 := ((frame0_pack ok.env fuel).err he).small hs
  obtain ⟨c, hc⟩ := reach_readable ok (hr.reach ok.cfg) hs0
  exact (C18_pack_reconfigured ok (hr.reach ok.cfg) fuel hf he hs hc).none fun v ⟨k, hk⟩ => hr.fits ok hs0 hc hk

/-- C18: with a store that accepts all blocks, and links that can be extracted, `pack` succeeds as long as the cipher
offset does not run out and no value of the tree is larger than the limit of the configuration. -/
theorem C18_pack_succeeds (ok : cx.Ok) (hr : Reach cx s) (fuel : Nat) (hf : rootLevel s.root < fuel)
    (hput : E.PutsOk) (hsi : E.ScrapesIdx) (hsv : E.ScrapesVal) (hs : Small E (endState (pack cx fuel) s))
    (hc : Contains cx s c) (hfit : ∀ k v, some (k, v) ∈ c → (E.encV v).length ≤ cx.cfg.maxUncompressedLeafSize) :
    pack cx fuel s = .ok () (endState (pack cx fuel) s) ∨ pack cx fuel s = .error .offsets (endState (pack cx fuel) s) := by
  unfold endState at hs ⊢
  cases hm : pack cx fuel s with
  | ok a s' => exact Or.inl rfl
  | error e s' =>
    rw [hm] at hs
    right
    have := C18_pack_reconfigured ok hr fuel hf hm hs hc
    cases this with
    | offsets => rfl
    | put s d m h => obtain ⟨l, hl⟩ := hput s d; rw [hl] at h; cases h
    | scrapeVal v m h => obtain ⟨l, hl⟩ := hsv v; rw [hl] at h; cases h
    | scrapeIdx i m h => obtain ⟨l, hl, _⟩ := hsi i; rw [hl] at h; cases h
    | tooLarge v m h1 h2 =>
      obtain ⟨k, hk⟩ := h1
      have := hfit k v hk
      omega

example : pack (freeCtx tiny) 10 free8 = .ok () (endState (pack (freeCtx tiny) 10) free8) ∨
    pack (freeCtx tiny) 10 free8 = .error .offsets (endState (pack (freeCtx tiny) 10) free8) :=
  have ⟨_, hc⟩ := reach_readable freeTiny_ok free8_reach (freeSmall_of (by decide +kernel))
  C18_pack_succeeds freeTiny_ok free8_reach 10 (by decide +kernel) freeEnv_putsOk freeEnv_scrapesIdx freeEnv_scrapesVal
    (freeSmall_of (by decide +kernel)) hc fun _ _ hk => free8_steady.fits freeTiny_ok (freeSmall_of (by decide +kernel)) hc hk

/-! ### C59 -/

/-- C59 for sealed trees: packing does not change the root. Missing: packed trees whose root is not sealed, for which the
claim is false (`C59_refuted`). -/
theorem C59_pack_noop_partial (ok : cx.Ok) (hr : Reach cx s) (fuel : Nat) (hf : rootLevel s.root < fuel)
    (he : pack cx fuel s = .ok () s') (hs : Small E s') (r : Index T) (hroot : s.root = some r) (hsl : r.isSealed = true) :
    s'.root = some r := by
  obtain ⟨t, hi⟩ := ok.inv hr (((frame0_pack ok.env fuel).ok he).small hs)
  have h2 := hi.count
  have hm : maxElements = 2147483645 := rfl
  have hu : u32max = 4294967295 := rfl
  obtain ⟨t', k1, _, _, _, _, k6⟩ := (pack_spec (I := NodeInv.trivial cx) (R := fun _ => True) ok.env ok.types ok.cfg
    fuel t (fun _ _ => trivial) s hi.holds hi.purge hf hi.level_lt (by omega)).ok he hs
  have h3 := hi.holds.root
  rw [hroot] at h3
  cases t with
  | none => cases h3
  | some t =>
    cases h3
    rw [k1.root, k6.1 t rfl hsl]
    rfl

/-- a sealed tree: four elements -/
example : (endState (pack (ctx tiny) 10) (endState (extend (ctx tiny) 10 (seq 0 4)) (start 100))).root =
    (endState (extend (ctx tiny) 10 (seq 0 4)) (start 100)).root := by
  have hr : Reach (ctx tiny) (endState (extend (ctx tiny) 10 (seq 0 4)) (start 100)) :=
    reach_extend (start_reach tiny 100) 10 (seq 0 4) (by decide +kernel)
  cases h : (endState (extend (ctx tiny) 10 (seq 0 4)) (start 100)).root with
  | none => 
    have h2 : (endState (extend (ctx tiny) 10 (seq 0 4)) (start 100)).root.isSome = true := by decide +kernel
    rw [h] at h2
    cases h2
  | some r =>
    have h2 : ((endState (extend (ctx tiny) 10 (seq 0 4)) (start 100)).root.map Index.isSealed) = some true := by decide +kernel
    rw [h] at h2
    exact C59_pack_noop_partial tiny_ok hr 10 (by decide +kernel) (ok_of_succeeds (by decide +kernel)) (small_of (by decide +kernel)) r h
      (by simpa using h2)

/-- C59 is false, although `tree.rs:528-531` says that this will be a noop: with ten elements and the debug
configuration, the tree reports that it is packed, but packing replaces its root (a branch) by a leaf. -/
theorem C59_refuted : ∃ s : St env, Reach (ctx Config.debug) s ∧ Small env s ∧
    valueOf (Tree.isPacked 10 (snapshot (ctx Config.debug) s)) s = some true ∧
    succeeds (pack (ctx Config.debug) 10) s = true ∧
    s.root.map Index.level = some 1 ∧ (endState (pack (ctx Config.debug) 10) s).root.map Index.level = some 0 :=
  ⟨endState (extend (ctx Config.debug) 10 (seq 0 10)) (start 100),
    reach_extend (start_reach Config.debug 100) 10 (seq 0 10) (by decide +kernel), small_of (by decide +kernel),
    by decide +kernel, by decide +kernel, by decide +kernel, by decide +kernel⟩

end Banyan
