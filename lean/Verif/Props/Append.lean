import Verif.Proofs.Observe
import Verif.Concrete.States
import Verif.Concrete.Free
/-
Appending: C01, C02, C05, C06, C28.
-/
set_option autoImplicit false
namespace Banyan

open PTree Concrete

variable {T : TreeTypes} {V : Type} {E : Env T V} {cx : Ctx E} {s s' : St E} {c : List (Option (T.Key × V))}

/-- Every reachable tree can be read back. -/
theorem reach_readable (ok : cx.Ok) (hr : Reach cx s) (hs : Small E s) : ∃ c, Contains cx s c := by
  obtain ⟨t, hi⟩ := ok.inv hr hs
  exact ⟨_, hi.holds.snap.collect ok.env ok.types⟩

theorem contains_start (ok : cx.Ok) (hr : s.root = none) (hc : Coherent E cx.sec s) : Contains cx s [] :=
  (HoldsI.contains (I := NodeInv.trivial cx) (t := none) ok.env ok.types ⟨hr, hc, by simp⟩).mpr rfl

/-! ### C01 -/

/-- C01: after a successful `extend` the content is the old content followed by the new pairs. -/
theorem C01_extend_appends (ok : cx.Ok) (hr : Reach cx s) (fuel : Nat) (xs : List (T.Key × V))
    (hf : rootLevel s.root < fuel) (hn : rootCount s.root + xs.length ≤ maxElements)
    (he : extend cx fuel xs s = .ok () s') (hs : Small E s') (hc : Contains cx s c) :
    Contains cx s' (c ++ xs.map some) := by
  obtain ⟨t, hi⟩ := ok.inv hr (((frame0_extend ok.env fuel xs).ok he).small hs)
  have h1 := hi.level
  have h2 := hi.count
  have h3 := rootCount_eq ok.types hi.holds
  have hm : maxElements = 2147483645 := rfl
  have hu : u32max = 4294967295 := rfl
  obtain ⟨t', k1, k2, _⟩ := (extend_spec (I := NodeInv.trivial cx) (vals := fun _ => True) (R := fun _ => True)
    ok.env ok.types ok.cfg (fun _ _ => trivial) fuel xs t s hi.holds (fun _ _ => trivial) hf (by omega)
    (Or.inr fun _ => trivial)).ok he hs
  rw [hi.holds.contains ok.env ok.types] at hc
  rw [k1.contains ok.env ok.types, k2, hc]

/-- C01 for `push`. -/
theorem C01_push_appends (ok : cx.Ok) (hr : Reach cx s) (fuel : Nat) (k : T.Key) (v : V)
    (hf : rootLevel s.root < fuel) (hn : rootCount s.root + 1 ≤ maxElements)
    (he : push cx fuel k v s = .ok () s') (hs : Small E s') (hc : Contains cx s c) :
    Contains cx s' (c ++ [some (k, v)]) :=
  C01_extend_appends ok hr fuel [(k, v)] hf hn he hs hc

theorem packed7_contains : Contains (ctx tiny) packed7 ((seq 0 7).map some) :=
  C01_extend_appends (c := []) tiny_ok (start_reach tiny 100) 10 (seq 0 7) (by decide +kernel) (by decide +kernel) packed7_ok
    packed7_small (contains_start tiny_ok rfl (by intro l b h; cases h))

/-- also to a tree that is not empty -/
example : Contains (ctx tiny) (endState (extend (ctx tiny) 10 (seq 7 3)) packed7) ((seq 0 7).map some ++ (seq 7 3).map some) :=
  C01_extend_appends tiny_ok packed7_reach 10 (seq 7 3) (by decide +kernel) (by decide +kernel) (ok_of_succeeds (by decide +kernel))
    (small_of (by decide +kernel)) packed7_contains

/-! ### C02 -/

/-- C02: after a successful `extend_unpacked` the content is the old content followed by the new pairs. -/
theorem C02_extendUnpacked_appends (ok : cx.Ok) (hr : Reach cx s) (fuel : Nat) (xs : List (T.Key × V))
    (hn : rootCount s.root + xs.length ≤ maxElements)
    (he : extendUnpacked cx fuel xs s = .ok () s') (hs : Small E s') (hc : Contains cx s c) :
    Contains cx s' (c ++ xs.map some) := by
  obtain ⟨t, hi⟩ := ok.inv hr (((frame0_extendUnpacked ok.env fuel xs).ok he).small hs)
  have h2 := hi.count
  have hm : maxElements = 2147483645 := rfl
  have hu : u32max = 4294967295 := rfl
  obtain ⟨t', k1, k2, _⟩ := (extendUnpacked_spec (I := NodeInv.trivial cx) (vals := fun _ => True) (R := fun _ => True)
    ok.env ok.types ok.cfg (fun _ _ => trivial) fuel xs t s hi.holds (fun _ _ => trivial) (by omega)).ok he hs
  rw [hi.holds.contains ok.env ok.types] at hc
  rw [k1.contains ok.env ok.types, k2, hc]

theorem unpacked10_contains : Contains (ctx tiny) unpacked10 ((seq 0 10).map some) :=
  C02_extendUnpacked_appends tiny_ok packed7_reach 10 (seq 7 3) (by decide +kernel) unpacked10_ok unpacked10_small
    packed7_contains

/-! ### C05 -/

/-- C05: `extend` keeps packed trees packed. -/
theorem C05_extend_keeps_packed (ok : cx.Ok) (hr : Reach cx s) (fuel : Nat) (xs : List (T.Key × V))
    (hf : rootLevel s.root < fuel) (hn : rootCount s.root + xs.length ≤ maxElements)
    (he : extend cx fuel xs s = .ok () s') (hs : Small E s') (hp : ReportsPacked cx s) : ReportsPacked cx s' := by
  obtain ⟨t, hi⟩ := ok.inv hr (((frame0_extend ok.env fuel xs).ok he).small hs)
  have h1 := hi.level
  have h2 := hi.count
  have h3 := rootCount_eq ok.types hi.holds
  have hm : maxElements = 2147483645 := rfl
  have hu : u32max = 4294967295 := rfl
  obtain ⟨t', k1, _, k3, _⟩ := (extend_spec (I := NodeInv.trivial cx) (vals := fun _ => True) (R := fun _ => True)
    ok.env ok.types ok.cfg (fun _ _ => trivial) fuel xs t s hi.holds (fun _ _ => trivial) hf (by omega)
    (Or.inr fun _ => trivial)).ok he hs
  rw [hi.holds.packed ok.env] at hp
  rw [k1.packed ok.env]
  exact k3 hp

/-- the empty tree is packed -/
theorem reportsPacked_start (hr : s.root = none) : ReportsPacked cx s := by
  intro fuel _
  unfold Tree.isPacked snapshot
  rw [hr]
  exact ⟨s, rfl⟩

theorem packed7_packed : ReportsPacked (ctx tiny) packed7 :=
  C05_extend_keeps_packed tiny_ok (start_reach tiny 100) 10 (seq 0 7) (by decide +kernel) (by decide +kernel) packed7_ok
    packed7_small (reportsPacked_start rfl)

/-! ### C06 -/

/-- C06 for packed trees: if `extend` fails on a packed tree then the cause is outside of the tree. Missing: trees that
are not packed, for which the claim is false (`C06_refuted`). -/
theorem C06_extend_never_aborts_partial (ok : cx.Ok) (hr : Reach cx s) (fuel : Nat) (xs : List (T.Key × V))
    (hf : rootLevel s.root < fuel) (hn : rootCount s.root + xs.length ≤ maxElements) (hp : ReportsPacked cx s)
    {e : Err} (he : extend cx fuel xs s = .error e s') (hs : Small E s') :
    Allowed E cx.cfg (fun v => ∃ k, (k, v) ∈ xs) e := by
  obtain ⟨t, hi⟩ := ok.inv hr (((frame0_extend ok.env fuel xs).err he).small hs)
  have h1 := hi.level
  have h2 := hi.count
  have h3 := rootCount_eq ok.types hi.holds
  have hm : maxElements = 2147483645 := rfl
  have hu : u32max = 4294967295 := rfl
  rw [hi.holds.packed ok.env] at hp
  exact (extend_spec (I := NodeInv.trivial cx) (vals := fun v => ∃ k, (k, v) ∈ xs)
    (R := Allowed E cx.cfg (fun v => ∃ k, (k, v) ∈ xs))
    ok.env ok.types ok.cfg (fun _ h => h) fuel xs t s hi.holds (fun kv h => ⟨kv.1, h⟩) hf (by omega) (Or.inl hp)).err he hs

/-- The allowed errors are neither panics (except for the exhausted cipher offset) nor endless recursion. -/
theorem Allowed.no_abort {cfg : Config} {vals : V → Prop} {e : Err} (h : Allowed E cfg vals e) :
    e ≠ .fuel ∧ ∀ m, e ≠ .panic m := by
  cases h <;> exact ⟨by simp, by simp⟩

/-- With a store that accepts all blocks, values which fit into leaves, and links that can be extracted, `extend`
succeeds on packed trees as long as the cipher offset does not run out. -/
theorem C06_extend_succeeds_partial (ok : cx.Ok) (hr : Reach cx s) (fuel : Nat) (xs : List (T.Key × V))
    (hf : rootLevel s.root < fuel) (hn : rootCount s.root + xs.length ≤ maxElements) (hp : ReportsPacked cx s)
    (hput : E.PutsOk) (hsi : E.ScrapesIdx) (hsv : E.ScrapesVal)
    (hfit : ∀ kv ∈ xs, (E.encV kv.2).length ≤ cx.cfg.maxUncompressedLeafSize)
    (hs : Small E (endState (extend cx fuel xs) s)) :
    extend cx fuel xs s = .ok () (endState (extend cx fuel xs) s) ∨
    extend cx fuel xs s = .error .offsets (endState (extend cx fuel xs) s) := by
  unfold endState at hs ⊢
  cases hm : extend cx fuel xs s with
  | ok a s' => exact Or.inl rfl
  | error e s' =>
    rw [hm] at hs
    right
    have := C06_extend_never_aborts_partial ok hr fuel xs hf hn hp hm hs
    cases this with
    | offsets => rfl
    | put s d m h => obtain ⟨l, hl⟩ := hput s d; rw [hl] at h; cases h
    | scrapeVal v m h => obtain ⟨l, hl⟩ := hsv v; rw [hl] at h; cases h
    | scrapeIdx i m h => obtain ⟨l, hl, _⟩ := hsi i; rw [hl] at h; cases h
    | tooLarge v m h1 h2 =>
      obtain ⟨k, hk⟩ := h1
      have := hfit _ hk
      simp only at this
      omega

example : extend (freeCtx tiny) 10 (seq 0 9) freeStart = .ok () (endState (extend (freeCtx tiny) 10 (seq 0 9)) freeStart) ∨
    extend (freeCtx tiny) 10 (seq 0 9) freeStart = .error .offsets (endState (extend (freeCtx tiny) 10 (seq 0 9)) freeStart) :=
  C06_extend_succeeds_partial freeTiny_ok (freeStart_reach tiny) 10 (seq 0 9) (by decide +kernel) (by decide +kernel)
    (reportsPacked_start rfl) freeEnv_putsOk freeEnv_scrapesIdx freeEnv_scrapesVal
    (show ∀ kv : Nat × Nat, kv ∈ seq 0 9 → List.length (freeEnv.encV kv.snd) ≤ tiny.maxUncompressedLeafSize by decide +kernel)
    (freeSmall_of (by decide +kernel))

/-- a failure: the store is full -/
example : Allowed env tiny (fun v => ∃ k, (k, v) ∈ seq 0 7) (.fail "full") :=
  C06_extend_never_aborts_partial (cx := ctx tiny) (s := start 2) tiny_ok (start_reach tiny 2) 10 (seq 0 7) (by decide +kernel)
    (by decide +kernel) (reportsPacked_start rfl) (error_of (by decide +kernel)) (small_of (by decide +kernel))

/-- C06 is false: there is a tree, built with the public operations and a valid configuration on a store that works, for
which `extend` panics. The tree has one element, and one more appended with `extend_unpacked`; then 5 elements are
appended with `extend`. -/
theorem C06_refuted : ∃ (s : St env) (m : String), Reach (ctx tiny) s ∧ Small env s ∧ s.store.room = 98 ∧
    errorOf (extend (ctx tiny) 10 (seq 2 5)) s = some (.panic m) := by
  refine ⟨endState (extendUnpacked (ctx tiny) 10 (seq 1 1)) (endState (extend (ctx tiny) 10 (seq 0 1)) (start 103)), _,
    reach_extendUnpacked (reach_extend (start_reach tiny 103) 10 (seq 0 1) (by decide +kernel)) 10 (seq 1 1) (by decide +kernel),
    small_of (by decide +kernel), by decide +kernel,
    show errorOf (extend (ctx tiny) 10 (seq 2 5)) _ =
      some (.panic "All children must be sealed / at least one must be directly below the branch to be created.") by decide +kernel⟩

/-! ### C28 -/

/-- C28: the count is the number of elements in the content; the tree is empty iff it has no elements. With C01, C02,
C03 and C16 this is the number of elements ever appended. -/
theorem C28_count (ok : cx.Ok) (hr : Reach cx s) (hs : Small E s) (hc : Contains cx s c) :
    rootCount s.root = c.length ∧ (s.root = none ↔ c = []) := by
  obtain ⟨t, hi⟩ := ok.inv hr hs
  rw [hi.holds.contains ok.env ok.types] at hc
  subst hc
  refine ⟨rootCount_eq ok.types hi.holds, ?_⟩
  rw [hi.holds.root]
  cases t with
  | none => simp [optContent]
  | some t =>
    have h1 := WF.count_pos (hi.holds.good t rfl).wf
    rw [← content_length ok.types (hi.holds.good t rfl).counts] at h1
    simp only [Option.map_some, reduceCtorEq, optContent, false_iff]
    intro h0
    rw [h0] at h1
    simp at h1

/-- C28: `extend` adds the number of new elements to the count. -/
theorem C28_extend_count (ok : cx.Ok) (hr : Reach cx s) (fuel : Nat) (xs : List (T.Key × V))
    (hf : rootLevel s.root < fuel) (hn : rootCount s.root + xs.length ≤ maxElements)
    (he : extend cx fuel xs s = .ok () s') (hs : Small E s') : rootCount s'.root = rootCount s.root + xs.length := by
  have hs0 := ((frame0_extend ok.env fuel xs).ok he).small hs
  obtain ⟨c, hc⟩ := reach_readable ok hr hs0
  have hr' : Reach cx s' := by
    have := hr.run (.extend fuel xs (.refl s) hf hn)
    unfold endState at this
    rw [he] at this
    exact this
  rw [(C28_count ok hr hs0 hc).1, (C28_count ok hr' hs (C01_extend_appends ok hr fuel xs hf hn he hs hc)).1]
  simp

/-- C28: so does `extend_unpacked`. -/
theorem C28_extendUnpacked_count (ok : cx.Ok) (hr : Reach cx s) (fuel : Nat) (xs : List (T.Key × V))
    (hf : rootLevel s.root < fuel) (hn : rootCount s.root + xs.length ≤ maxElements)
    (he : extendUnpacked cx fuel xs s = .ok () s') (hs : Small E s') : rootCount s'.root = rootCount s.root + xs.length := by
  have hs0 := ((frame0_extendUnpacked ok.env fuel xs).ok he).small hs
  obtain ⟨c, hc⟩ := reach_readable ok hr hs0
  have hr' : Reach cx s' := by
    have := hr.run (.extendUnpacked fuel xs (.refl s) hf hn)
    unfold endState at this
    rw [he] at this
    exact this
  rw [(C28_count ok hr hs0 hc).1, (C28_count ok hr' hs (C02_extendUnpacked_appends ok hr fuel xs hn he hs hc)).1]
  simp

example : rootCount unpacked10.root = 10 := by
  have := (C28_count tiny_ok unpacked10_reach unpacked10_small unpacked10_contains).1
  rw [this]
  rfl

end Banyan
