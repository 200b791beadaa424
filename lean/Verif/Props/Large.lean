import Verif.Proofs.Large
import Verif.Props.Config
/-
Everything written can be read back: C52.
-/
set_option autoImplicit false
namespace Banyan

open PTree Concrete

variable {T : TreeTypes} {V : Type} {E : Env T V} {cx : Ctx E} {s s' : St E}

/-- C52: all blocks of a tree can be read and decoded again, and so can all elements. Missing: trees with branches of more
than 16 MiB, for which the claim is false (`C52_refuted`). -/
theorem C52_readable_partial (ok : cx.Ok) (hr : Reach cx s) (hs : Small E s) :
    (∃ c, Contains cx s c) ∧ (s.root = none ∨ ∃ t : PTree T V, Shows cx s t) := by
  refine ⟨reach_readable ok hr hs, ?_⟩
  by_cases hn : s.root = none
  · exact Or.inl hn
  · exact Or.inr (hr.shows ok hs hn)

example : (∃ c, Contains (ctx tiny) unpacked10 c) ∧ (unpacked10.root = none ∨ ∃ t : PTree types Nat, Shows (ctx tiny) unpacked10 t) :=
  C52_readable_partial tiny_ok unpacked10_reach unpacked10_small

/-- C52 is false if the keys of a leaf take more than 16 MiB: appending such an element to a new tree succeeds (if it does
not fail for other reasons), but the tree cannot be read any more. -/
theorem C52_large_unreadable (ok : cx.Ok) (hr : s.root = none) (hc : Exact E cx.sec s) (fuel : Nat) (k : T.Key) (v : V)
    (hbig : ∀ i : LeafIndex T, i.keys = T.keys.ofList [k] → maxCapacity < (E.encIdx (.leaf i)).length)
    (he : extend cx fuel [(k, v)] s = .ok () s') (fuel' : Nat) :
    (∃ m s'', Tree.collect (fuel' + 1) (snapshot cx s') s' = .error (.fail m) s'') ∧
    ∃ m s'', Tree.get (fuel' + 1) (snapshot cx s') 0 s' = .error (.fail m) s'' := by
  obtain ⟨i, l, m, h1, h2, h3, h4⟩ := extend_large ok.env ok.types ok.cfg.leaf fuel s hr hbig () s' he
  have hco : Exact E cx.sec s' := (frame0_extend ok.env fuel [(k, v)]).exact he hc
  have hload : ∃ c, loadBranchCached cx.sec l s' = .error (.fail m) { s' with cache := c } := by
    unfold loadBranchCached
    cases hg : E.cacheGet s'.cache l with
    | mk r c =>
      cases r with
      | none => simp only [h4]; exact ⟨c, rfl⟩
      | some b =>
        have := hco l b (by rw [hg])
        rw [h4] at this
        cases this
  obtain ⟨c, hload⟩ := hload
  have hsnap : snapshot cx s' = some (.branch i, cx.sec, s'.offset) := by unfold snapshot; rw [h1]; rfl
  rw [hsnap]
  constructor
  · refine ⟨m, { s' with cache := c }, ?_⟩
    · unfold Tree.collect Tree.collectFrom
      simp only [collect0, Index.count, h2, h3]
      rw [if_neg (by omega), bind_apply, hload]
  · refine ⟨m, { s' with cache := c }, ?_⟩
    · unfold Tree.get
      simp only [get0, Index.count, h2, h3]
      rw [if_neg (by omega), bind_apply, hload]

/-! ### a key of more than 16 MiB -/

namespace Concrete

theorem varintLoop_length (n f m : Nat) (hf : m ≤ f) (h1 : 128 ^ n ≤ m) (h2 : m < 128 ^ (n + 1)) : (varintLoop f m).length = n + 1 := by
  induction n generalizing f m with
  | zero =>
    cases f with
    | zero => rfl
    | succ f => rw [varintLoop, if_pos (by omega)]; rfl
  | succ n ih =>
    have h3 : 128 ≤ m := Nat.le_trans (by rw [Nat.pow_succ]; exact Nat.le_mul_of_pos_left _ (Nat.pos_of_ne_zero (by simp))) h1
    cases f with
    | zero => omega
    | succ f =>
      rw [varintLoop, if_neg (by omega), List.length_cons, ih f (m / 128) (by omega)]
      · rw [Nat.pow_succ] at h1; omega
      · rw [Nat.pow_succ] at h2; omega

theorem varint_pow_length (n : Nat) : (varint (128 ^ n)).length = n + 1 :=
  varintLoop_length n _ _ (Nat.le_refl _) (Nat.le_refl _) (Nat.pow_lt_pow_right (by omega) (by omega))

theorem varint_le (m n : Nat) (h : m < 128 ^ (n + 1)) : (varint m).length ≤ n + 1 := by
  unfold varint
  suffices ∀ f, (varintLoop f m).length ≤ n + 1 from this m
  induction n generalizing m with
  | zero => intro f; cases f with
    | zero => exact Nat.le_refl _
    | succ f => rw [varintLoop, if_pos (by omega)]; exact Nat.le_refl _
  | succ n ih =>
    intro f
    cases f with
    | zero => simp [varintLoop]
    | succ f =>
      rw [varintLoop]
      split
      · simp
      · rw [List.length_cons]
        have := ih (m / 128) (by rw [Nat.pow_succ] at h; omega) f
        omega

theorem bigIdx_lower {bigKey : Nat} (hb : (varint bigKey).length = maxCapacity + 1) (i : LeafIndex types) (h : i.keys = types.keys.ofList [bigKey]) : maxCapacity < (encIdx (.leaf i)).length := by
  have h1 : idxNats (.leaf i) = [0, if i.isSealed then 1 else 0, (match i.link with | none => 0 | some l => Nat.succ l), i.valueBytes] ++
      [bigKey] := by
    obtain ⟨a, l, k, vb⟩ := i
    cases h
    rfl
  unfold encIdx frame
  rw [h1]
  simp only [List.cons_append, List.nil_append, encNats, List.length_append, List.length_cons, hb, List.length_nil]
  omega

theorem bigIdx_upper {bigKey : Nat} (hb : (varint bigKey).length = maxCapacity + 1) (i : LeafIndex types) (h : i.keys = types.keys.ofList [bigKey]) (hs : i.valueBytes = 4)
    (hl : i.link = some (0 : Nat)) : (encIdx (.leaf i)).length < 2 * maxCapacity := by
  have h1 : (encNats (idxNats (.leaf i))).length = maxCapacity + 5 := by
    have : idxNats (.leaf i) = [0, if i.isSealed then 1 else 0, 1, 4, bigKey] := by
      obtain ⟨a, l, k, vb⟩ := i
      cases h
      cases hs
      cases hl
      rfl
    rw [this]
    simp only [encNats, List.length_append, hb, List.length_nil]
    have h2 : ∀ n, n < 128 → (varint n).length = 1 := fun n hn => by
      have h3 := varint_le n 0 (by omega)
      have h4 := List.length_pos_iff.mpr (varint_ne n)
      omega
    rw [h2 0 (by omega), h2 1 (by omega), h2 4 (by omega), h2 (if i.isSealed then 1 else 0) (by split <;> omega)]
    omega
  unfold encIdx frame
  rw [List.length_append, List.length_cons, h1]
  have h3 := varint_le (maxCapacity + 5 + 1) 9 (by unfold maxCapacity; omega)
  have h4 : maxCapacity = 16777216 := rfl
  omega

/-- C52 is false: on a store that accepts everything and with a valid configuration, appending an element succeeds, and
after that the tree cannot be read. -/
theorem C52_refuted : ∃ (k v : Nat) (s' : St freeEnv), extend (freeCtx tiny) 10 [(k, v)] freeStart = .ok () s' ∧
    ∀ fuel, (∃ m s'', Tree.collect (fuel + 1) (snapshot (freeCtx tiny) s') s' = .error (.fail m) s'') ∧
      ∃ m s'', Tree.get (fuel + 1) (snapshot (freeCtx tiny) s') 0 s' = .error (.fail m) s'' := by
  obtain ⟨bigKey, hb⟩ : ∃ k, (varint k).length = maxCapacity + 1 := ⟨_, varint_pow_length maxCapacity⟩
  obtain ⟨s', h⟩ := extend_one (cx := freeCtx tiny) (k := bigKey) (v := (0 : Nat)) freeEnv_lawful tiny_valid freeEnv_putsOk freeEnv_scrapesIdx
    freeEnv_scrapesVal 10 freeStart rfl (show (encV 0).length ≤ tiny.maxUncompressedLeafSize by decide +kernel) (by
      intro d l i h1 h2 h3 h4
      have h5 : (0 : Nat) = l := by cases h1; rfl
      subst h5
      have h6 := bigIdx_upper hb i h3 (h4.trans (by decide +kernel)) h2
      have h7 : (freeEnv.zfin tiny.zstdLevel [freeEnv.encV (0 : Nat)]).length = 4 := by decide +kernel
      have h8 : (freeEnv.zfin tiny.zstdLevel [freeEnv.encIdx (.leaf i)]).length = (encIdx (.leaf i)).length + 1 := by
        show (1 :: [encIdx (.leaf i)].flatten).length = _
        simp
      have h9 : freeStart.offset = 0 := rfl
      have h10 : maxCapacity = 16777216 := rfl
      show freeStart.offset + (freeEnv.zfin tiny.zstdLevel [freeEnv.encV (0 : Nat)]).length +
        (freeEnv.zfin tiny.zstdLevel [freeEnv.encIdx (.leaf i)]).length < 2 ^ 64
      rw [h7, h8, h9]
      omega)
  exact ⟨bigKey, 0, s', h, fun fuel => C52_large_unreadable freeTiny_ok rfl (by intro l b h; cases h) 10 bigKey 0 (bigIdx_lower hb) h fuel⟩

end Concrete

end Banyan
