import Verif.Proofs.Stuck
import Verif.Props.Retain
/-
Configurations: C60.
-/
set_option autoImplicit false
namespace Banyan

open PTree Concrete

variable {T : TreeTypes} {V : Type} {E : Env T V} {cx : Ctx E} {s s' : St E} {c : List (Option (T.Key × V))}

/-- `Config::validate` and `max_leaf_count > 0`. -/
theorem Ctx.ok_of_validate (henv : E.Lawful) (htypes : T.Lawful) (hv : cx.cfg.validate = true)
    (h1 : cx.cfg.maxLeafCount ≠ 0) : cx.Ok :=
  ⟨henv, htypes, cx.cfg.valid_of_validate hv (by omega)⟩

/-- The preset configurations fulfil everything that the theorems about trees need. But `Config::validate` (which nothing calls)
rejects both of them, because of their compression level 0. -/
theorem C60_presets : Config.debug.Valid ∧ Config.debugFast.Valid ∧ Config.debug.validate = false ∧ Config.debugFast.validate = false :=
  ⟨⟨by decide, by decide, by decide, by decide⟩, ⟨by decide, by decide, by decide, by decide⟩, by decide, by decide⟩

/-- C60 for `extend`: with a validated configuration appending to a packed tree (in particular to a new one) terminates
and the elements are appended, unless the cipher offset runs out. Missing: `max_leaf_count = 0`, for which the claim is
false (`C60_refuted`, `C60_stuck`). -/
theorem C60_extend_partial (henv : E.Lawful) (htypes : T.Lawful) (hv : cx.cfg.validate = true) (h1 : cx.cfg.maxLeafCount ≠ 0)
    (hr : Reach cx s) (fuel : Nat) (xs : List (T.Key × V))
    (hf : rootLevel s.root < fuel) (hn : rootCount s.root + xs.length ≤ maxElements) (hp : ReportsPacked cx s)
    (hput : E.PutsOk) (hsi : E.ScrapesIdx) (hsv : E.ScrapesVal)
    (hfit : ∀ kv ∈ xs, (E.encV kv.2).length ≤ cx.cfg.maxUncompressedLeafSize)
    (hs : Small E (endState (extend cx fuel xs) s)) (hc : Contains cx s c) :
    (∃ s', extend cx fuel xs s = .ok () s' ∧ Contains cx s' (c ++ xs.map some)) ∨
      ∃ s', extend cx fuel xs s = .error .offsets s' := by
  have ok := Ctx.ok_of_validate henv htypes hv h1
  rcases C06_extend_succeeds_partial ok hr fuel xs hf hn hp hput hsi hsv hfit hs with h | h
  · exact Or.inl ⟨_, h, C01_extend_appends ok hr fuel xs hf hn h hs hc⟩
  · exact Or.inr ⟨_, h⟩

/-- C60 for `extend_unpacked`, on any tree. -/
theorem C60_extendUnpacked_partial (henv : E.Lawful) (htypes : T.Lawful) (hv : cx.cfg.validate = true)
    (h1 : cx.cfg.maxLeafCount ≠ 0) (hr : Reach cx s) (fuel : Nat) (xs : List (T.Key × V))
    (hn : rootCount s.root + xs.length ≤ maxElements)
    (hput : E.PutsOk) (hsi : E.ScrapesIdx) (hsv : E.ScrapesVal)
    (hfit : ∀ kv ∈ xs, (E.encV kv.2).length ≤ cx.cfg.maxUncompressedLeafSize)
    (hs : Small E (endState (extendUnpacked cx fuel xs) s)) (hc : Contains cx s c) :
    (∃ s', extendUnpacked cx fuel xs s = .ok () s' ∧ Contains cx s' (c ++ xs.map some)) ∨
      ∃ s', extendUnpacked cx fuel xs s = .error .offsets s' := by
  have ok := Ctx.ok_of_validate henv htypes hv h1
  unfold endState at hs
  cases hm : extendUnpacked cx fuel xs s with
  | ok a s' => rw [hm] at hs; exact Or.inl ⟨s', rfl, C02_extendUnpacked_appends ok hr fuel xs hn hm hs hc⟩
  | error e s' =>
    rw [hm] at hs
    right
    have := C61_extendUnpacked_never_aborts ok hr fuel xs hn hm hs
    cases this with
    | offsets => exact ⟨s', rfl⟩
    | put s d m h => obtain ⟨l, hl⟩ := hput s d; rw [hl] at h; cases h
    | scrapeVal v m h => obtain ⟨l, hl⟩ := hsv v; rw [hl] at h; cases h
    | scrapeIdx i m h => obtain ⟨l, hl, _⟩ := hsi i; rw [hl] at h; cases h
    | tooLarge v m h1 h2 =>
      obtain ⟨k, hk⟩ := h1
      have := hfit _ hk
      simp only at this
      omega

/-- A smallest configuration accepted by `validate`, one element per leaf. -/
def smallestConfig : Config :=
  { maxLeafCount := 1, maxSummaryBranches := 2, maxKeyBranches := 2, targetLeafSize := 1, maxUncompressedLeafSize := 100, zstdLevel := 1 }

theorem free_ok_of {m : M freeEnv Unit} {s : St freeEnv} (h : freeSucceeds m s = true) : m s = .ok () (endState m s) := by
  unfold freeSucceeds at h
  unfold endState
  split at h
  · rename_i hm; rw [hm]
  · cases h

theorem free_contains_start : Contains (freeCtx smallestConfig) freeStart [] :=
  contains_start ⟨freeEnv_lawful, types_lawful, Config.valid_of_validate _ (by decide) (by decide)⟩ rfl (by intro l b h; cases h)

theorem free3_contains : Contains (freeCtx tiny) free3 ((seq 0 3).map some) :=
  C01_extend_appends (c := []) freeTiny_ok (freeStart_reach tiny) 10 (seq 0 3) (by decide +kernel) (by decide +kernel)
    (free_ok_of (by decide +kernel)) (freeSmall_of (by decide +kernel))
    (contains_start freeTiny_ok rfl (by intro l b h; cases h))

theorem free8_contains : Contains (freeCtx tiny) free8 ((seq 0 8).map some) :=
  C02_extendUnpacked_appends freeTiny_ok free3_reach 10 (seq 3 5) (by decide +kernel)
    (free_ok_of (by decide +kernel)) (freeSmall_of (by decide +kernel)) free3_contains

example : (∃ s', extend (freeCtx smallestConfig) 10 (seq 0 5) freeStart = .ok () s' ∧
      Contains (freeCtx smallestConfig) s' ([] ++ (seq 0 5).map some)) ∨
    ∃ s', extend (freeCtx smallestConfig) 10 (seq 0 5) freeStart = .error .offsets s' :=
  C60_extend_partial freeEnv_lawful types_lawful (by decide) (by decide) (freeStart_reach _) 10 (seq 0 5)
    (by decide +kernel) (by decide +kernel) (reportsPacked_start rfl) freeEnv_putsOk freeEnv_scrapesIdx freeEnv_scrapesVal
    (show ∀ kv : Nat × Nat, kv ∈ seq 0 5 → List.length (freeEnv.encV kv.snd) ≤ smallestConfig.maxUncompressedLeafSize by decide +kernel)
    (freeSmall_of (by decide +kernel)) free_contains_start

example : (∃ s', extendUnpacked (freeCtx tiny) 10 (seq 8 5) free8 = .ok () s' ∧
      Contains (freeCtx tiny) s' ((seq 0 8).map some ++ (seq 8 5).map some)) ∨
    ∃ s', extendUnpacked (freeCtx tiny) 10 (seq 8 5) free8 = .error .offsets s' :=
  C60_extendUnpacked_partial freeEnv_lawful types_lawful (by decide) (by decide) free8_reach 10 (seq 8 5)
    (by decide +kernel) freeEnv_putsOk freeEnv_scrapesIdx freeEnv_scrapesVal
    (show ∀ kv : Nat × Nat, kv ∈ seq 8 5 → List.length (freeEnv.encV kv.snd) ≤ tiny.maxUncompressedLeafSize by decide +kernel)
    (freeSmall_of (by decide +kernel)) free8_contains

/-- `max_leaf_count = 0`, otherwise as usual. -/
def zeroConfig : Config :=
  { maxLeafCount := 0, maxSummaryBranches := 2, maxKeyBranches := 2, targetLeafSize := 100, maxUncompressedLeafSize := 10000, zstdLevel := 10 }

/-- C60 is false for `max_leaf_count = 0`: appending any elements to an empty tree, with any store, does not succeed within
the first 2^32 - 2 blocks written. -/
theorem C60_stuck (h0 : cx.cfg.maxLeafCount = 0) (fuel : Nat) (xs : List (T.Key × V)) (hne : xs ≠ []) (hr : s.root = none)
    (hfew : (endState (extend cx fuel xs) s).puts.length < s.puts.length + 4294967295) :
    ∃ e s', extend cx fuel xs s = .error e s' := by
  unfold endState at hfew
  cases hm : extend cx fuel xs s with
  | ok a s' =>
    rw [hm] at hfew
    have h1 := (extend_stuck h0 fuel xs hne hm).2 hr
    have h2 : u32max = 4294967295 := rfl
    simp only at hfew
    omega
  | error e s' => exact ⟨e, s', rfl⟩

/-- The same for `extend_unpacked`, on any tree. -/
theorem C60_stuck_unpacked (h0 : cx.cfg.maxLeafCount = 0) (fuel : Nat) (xs : List (T.Key × V)) (hne : xs ≠ [])
    (hfew : (endState (extendUnpacked cx fuel xs) s).puts.length < s.puts.length + 4294967295) :
    ∃ e s', extendUnpacked cx fuel xs s = .error e s' := by
  unfold endState at hfew
  cases hm : extendUnpacked cx fuel xs s with
  | ok a s' =>
    rw [hm] at hfew
    have h1 := extendUnpacked_stuck h0 fuel xs hne hm
    have h2 : u32max = 4294967295 := rfl
    simp only at hfew
    omega
  | error e s' => exact ⟨e, s', rfl⟩

theorem zero_few : (endState (extend (ctx zeroConfig) 10 (seq 0 1)) (start 100)).puts.length < (start 100).puts.length + 4294967295 := by
  decide +kernel

theorem zero_few_unpacked : (endState (extendUnpacked (ctx zeroConfig) 10 (seq 7 1)) packed7).puts.length <
    packed7.puts.length + 4294967295 := by
  decide +kernel

example : ∃ e s', extend (ctx zeroConfig) 10 (seq 0 1) (start 100) = .error e s' :=
  C60_stuck (cx := ctx zeroConfig) (s := start 100) (show zeroConfig.maxLeafCount = 0 from rfl) 10 (seq 0 1) (fun h => by cases h)
    rfl zero_few

example : ∃ e s', extendUnpacked (ctx zeroConfig) 10 (seq 7 1) packed7 = .error e s' :=
  C60_stuck_unpacked (cx := ctx zeroConfig) (s := packed7) (show zeroConfig.maxLeafCount = 0 from rfl) 10 (seq 7 1)
    (fun h => by cases h) zero_few_unpacked

/-- C60 is false: a configuration is accepted by `validate`, and a store with space for 100 blocks gets filled while a
single small element is appended to a new tree; the same happens with `extend_unpacked`. (`C60_stuck`: a larger store does
not help.) -/
theorem C60_refuted : zeroConfig.validate = true ∧
    errorOf (extend (ctx zeroConfig) 10 (seq 0 1)) (start 100) = some (.fail "full") ∧
    (endState (extend (ctx zeroConfig) 10 (seq 0 1)) (start 100)).puts.length = 101 ∧
    errorOf (extendUnpacked (ctx zeroConfig) 10 (seq 0 1)) (start 100) = some (.fail "full") :=
  ⟨by decide, by decide +kernel, by decide +kernel, by decide +kernel⟩

end Banyan
