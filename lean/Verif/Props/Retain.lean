import Verif.Props.Pack
import Verif.Proofs.Unique
import Verif.Concrete.KeyQuery
import Verif.Concrete.Load
/-
Removal of elements: C16, C17, C28 for `retain`, C61.
-/
set_option autoImplicit false
namespace Banyan

open PTree Concrete

variable {T : TreeTypes} {V : Type} {E : Env T V} {cx : Ctx E} {s s' : St E} {c : List (Option (T.Key × V))}

theorem Erased.get {m : Nat → T.Key → Bool} {o : Nat} {a b : List (Option (T.Key × V))} (h : Erased m o a b) (n : Nat) :
    b[n]? = a[n]? ∨ (b[n]? = some none ∧ ∀ k v, a[n]? = some (some (k, v)) → m (o + n) k = false) := by
  induction a generalizing o b n with
  | nil => cases b with
    | nil => exact Or.inl rfl
    | cons => exact h.elim
  | cons x a ih => cases b with
    | nil => exact h.elim
    | cons y b =>
      cases n with
      | zero =>
        rcases h.1 with h | ⟨h1, h2⟩
        · exact Or.inl (by simp [h])
        · refine Or.inr ⟨by simp [h1], fun k v hk => ?_⟩
          simp only [List.getElem?_cons_zero, Option.some.injEq] at hk
          exact h2 k v hk
      | succ n =>
        have := ih h.2 n
        rw [Nat.add_right_comm] at this
        simpa [Nat.add_assoc] using this

/-! ### C16 -/

/-- C16: after a successful `retain` with a query that selects the elements satisfying `p`, the content has the same
length; at every position there is what was there before, or nothing; and there is nothing only where there was nothing
before or an element that does not satisfy `p`. -/
theorem C16_retain_keeps_matches (ok : cx.Ok) (hr : Reach cx s) (fuel : Nat) (hf : rootLevel s.root < fuel)
    (q : Query T) (covers : T.Summary → T.Key → Prop) (p : Nat → T.Key → Bool) (hcov : Covering T covers) (hq : QueryFor q covers p)
    (he : retain cx fuel q s = .ok () s') (hs : Small E s') (hc : Contains cx s c) :
    ∃ c', Contains cx s' c' ∧ c'.length = c.length ∧
      ∀ n : Nat, c'[n]? = c[n]? ∨ (c'[n]? = some none ∧ ∀ k v, c[n]? = some (some (k, v)) → p n k = false) := by
  obtain ⟨t, hi⟩ := ok.inv hr (((frame0_retain ok.env fuel q).ok he).small hs)
  obtain ⟨t', k1, k2⟩ := (retain_spec (I := NodeInv.trivial cx) (vals := fun _ => True) (R := fun _ => True) ok.env ok.types ok.cfg
    (NodeInv.trivial_rewrites cx) (fun _ _ => trivial) q fuel t s hi.holds hf).ok he hs
  rw [hi.holds.contains ok.env ok.types] at hc
  subst hc
  have h1 := k2.erased hcov hq
  refine ⟨optContent t', (k1.contains ok.env ok.types).mpr rfl, h1.length_eq, fun n => ?_⟩
  have := h1.get n
  rwa [Nat.zero_add] at this

/-- C16 in terms of `get`: an element that satisfies the predicate can be read as before. -/
theorem C16_get_after_retain (ok : cx.Ok) (hr : Reach cx s) (fuel : Nat) (hf : rootLevel s.root < fuel)
    (q : Query T) (covers : T.Summary → T.Key → Prop) (p : Nat → T.Key → Bool) (hcov : Covering T covers) (hq : QueryFor q covers p)
    (he : retain cx fuel q s = .ok () s') (hs : Small E s') (n : Nat) (k : T.Key) (v : V)
    (hg : Yields (fun fuel t => Tree.get fuel t n) (snapshot cx s) s (some (k, v))) (hp : p n k = true) :
    Yields (fun fuel t => Tree.get fuel t n) (snapshot cx s') s' (some (k, v)) := by
  obtain ⟨t, hi⟩ := ok.inv hr (((frame0_retain ok.env fuel q).ok he).small hs)
  obtain ⟨t', k1, k2⟩ := (retain_spec (I := NodeInv.trivial cx) (vals := fun _ => True) (R := fun _ => True) ok.env ok.types ok.cfg
    (NodeInv.trivial_rewrites cx) (fun _ _ => trivial) q fuel t s hi.holds hf).ok he hs
  have h0 := Yields.unique hg (hi.holds.snap.get ok.env ok.types n)
  have h1 := (k2.erased hcov hq).get n
  rw [Nat.zero_add] at h1
  have h2 := k1.snap.get ok.env ok.types n
  rcases h1 with h1 | ⟨_, h1⟩
  · rw [h1, ← h0] at h2
    exact h2
  · cases hx : (optContent t)[n]? with
    | none => rw [hx] at h0; cases h0
    | some x =>
      rw [hx] at h0
      simp only [Option.join_some] at h0
      rw [h1 k v (by rw [hx, ← h0])] at hp
      cases hp

/-- C28 for `retain`. -/
theorem C28_retain_count (ok : cx.Ok) (hr : Reach cx s) (fuel : Nat) (hf : rootLevel s.root < fuel) (q : Query T)
    (he : retain cx fuel q s = .ok () s') (hs : Small E s') : rootCount s'.root = rootCount s.root := by
  obtain ⟨t, hi⟩ := ok.inv hr (((frame0_retain ok.env fuel q).ok he).small hs)
  obtain ⟨t', k1, k2⟩ := (retain_spec (I := NodeInv.trivial cx) (vals := fun _ => True) (R := fun _ => True) ok.env ok.types ok.cfg
    (NodeInv.trivial_rewrites cx) (fun _ _ => trivial) q fuel t s hi.holds hf).ok he hs
  rw [hi.holds.root, k1.root]
  cases t <;> cases t' <;> try exact k2.elim
  · rfl
  · obtain ⟨l', k2⟩ := k2
    exact unlink_count k2.unlink

theorem unpacked10_coherent : Coherent env (ctx tiny).sec unpacked10 := by
  obtain ⟨t, h⟩ := tiny_ok.inv unpacked10_reach unpacked10_small
  exact h.holds.coherent

/-- Ten elements, from which all but the one with key 5 may be removed. -/
def retained10 : St env := endState (retain (ctx tiny) 10 (keyRange 5 5)) unpacked10

theorem retained10_ok : retain (ctx tiny) 10 (keyRange 5 5) unpacked10 = .ok () retained10 := ok_of_succeeds (by decide +kernel)

theorem retained10_reach : Reach (ctx tiny) retained10 := reach_retain unpacked10_reach 10 _ (by decide +kernel)

theorem retained10_steady : Steady (ctx tiny) retained10 := steady_retain unpacked10_steady 10 _ (by decide +kernel)

theorem retained10_small : Small env retained10 := small_of (by decide +kernel)

theorem retained10_coherent : Coherent env (ctx tiny).sec retained10 := by
  obtain ⟨t, h⟩ := tiny_ok.inv retained10_reach retained10_small
  exact h.holds.coherent

/-- Four of them are removed. -/
theorem retained10_elements : elements tiny retained10 = some (List.replicate 4 none ++ (seq 4 6).map some) := by decide +kernel

example : ∃ c' : List (Option (Nat × Nat)), Contains (ctx tiny) retained10 c' ∧ c'.length = 10 ∧ c'[5]? = some (some (5, 50)) := by
  obtain ⟨c', h1, h2, h3⟩ := C16_retain_keeps_matches tiny_ok unpacked10_reach 10 (by decide +kernel) (keyRange 5 5) covers _
    covering (keyRange_queryFor 5 5) retained10_ok retained10_small unpacked10_contains
  refine ⟨c', h1, h2, ?_⟩
  rcases h3 5 with h | ⟨_, h⟩
  · exact h
  · exact absurd (h (5 : Nat) 50 rfl) (by decide)

/-! ### C17 -/

/-- C17, first part: every leaf which is not sealed is still in the tree, at the same offset, after `retain`. -/
theorem C17_unsealed_stays (ok : cx.Ok) (hr : Reach cx s) (fuel : Nat) (hf : rootLevel s.root < fuel)
    (q : Query T) (he : retain cx fuel q s = .ok () s') (hs : Small E s') {t t' : PTree T V}
    (hl : Loaded cx s (some t)) (hl' : Loaded cx s' (some t')) (x : Nat × LeafIndex T) (hx : x ∈ t.leavesAt 0)
    (hu : x.2.isSealed = false) : x ∈ t'.leavesAt 0 := by
  obtain ⟨u, hi⟩ := ok.inv hr (((frame0_retain ok.env fuel q).ok he).small hs)
  obtain ⟨u', k1, k2⟩ := (retain_spec (I := NodeInv.trivial cx) (vals := fun _ => True) (R := fun _ => True) ok.env ok.types ok.cfg
    (NodeInv.trivial_rewrites cx) (fun _ _ => trivial) q fuel u s hi.holds hf).ok he hs
  obtain rfl := hi.holds.loaded.unique ok.env hl
  obtain rfl := k1.loaded.unique ok.env hl'
  obtain ⟨l', k2⟩ := k2
  exact k2.unsealed x hx hu

/-- C17, second part: on a packed tree, all elements of a sealed leaf in which the query selects nothing are gone after
`retain`. -/
theorem C17_retain_effective (ok : cx.Ok) (hr : Reach cx s) (fuel : Nat) (hf : rootLevel s.root < fuel)
    (q : Query T) (he : retain cx fuel q s = .ok () s') (hs : Small E s') {t : PTree T V}
    (hl : Loaded cx s (some t)) (hp : ReportsPacked cx s) (hc : Contains cx s' c)
    (x : Nat × LeafIndex T) (hx : x ∈ t.leavesAt 0) (hm : Missed q x) : Wiped 0 c x := by
  obtain ⟨u, hi⟩ := ok.inv hr (((frame0_retain ok.env fuel q).ok he).small hs)
  obtain ⟨u', k1, k2⟩ := (retain_spec (I := NodeInv.trivial cx) (vals := fun _ => True) (R := fun _ => True) ok.env ok.types ok.cfg
    (NodeInv.trivial_rewrites cx) (fun _ _ => trivial) q fuel u s hi.holds hf).ok he hs
  rw [k1.contains ok.env ok.types] at hc
  rw [hi.holds.packed ok.env] at hp
  obtain rfl := hi.holds.loaded.unique ok.env hl
  cases u' with
  | none => exact k2.elim
  | some u' =>
    obtain ⟨l', k2⟩ := k2
    subst hc
    exact k2.effPacked hp (by decide) x hx hm

/-- Every reachable tree can be loaded. -/
theorem reach_loaded (ok : cx.Ok) (hr : Reach cx s) (hs : Small E s) : ∃ t, Loaded cx s t := by
  obtain ⟨t, hi⟩ := ok.inv hr hs
  exact ⟨t, hi.holds.loaded⟩

/-- The second part of C17 on the packed tree of seven elements: the sealed leaf of the elements 0 and 1 is not selected
by the query for key 5. -/
example : elements tiny (endState (retain (ctx tiny) 10 (keyRange 5 5)) packed7) =
    some (List.replicate 4 none ++ (seq 4 3).map some) := by decide +kernel

/-- The first leaf of the packed tree is sealed, and the query selects nothing in it; the last leaf is not sealed. -/
theorem packed7_missed : ∃ t, Loaded (ctx tiny) packed7 (some t) ∧ (∃ x ∈ t.leavesAt 0, Missed (keyRange 5 5) x) ∧
    ∃ x ∈ t.leavesAt 0, x.2.isSealed = false := by
  have h := loaded_spec tiny_ok packed7_reach packed7_small (by decide +kernel)
  have h1 : (leaves tiny packed7).any (fun x => x.2.isSealed &&
    ((keyRange 5 5).containing x.1 x.2 (List.replicate (types.keys.len x.2.keys) true)).all (! ·)) = true := by decide +kernel
  have h2 : (leaves tiny packed7).any (fun x => !x.2.isSealed) = true := by decide +kernel
  unfold leaves at h1 h2
  cases hl : loaded tiny packed7 with
  | none => rw [hl] at h1; cases h1
  | some t =>
    rw [hl] at h h1 h2
    simp only at h1 h2
    refine ⟨t, h, ?_, ?_⟩
    · obtain ⟨x, hx, h3⟩ := List.any_eq_true.mp h1
      rw [Bool.and_eq_true, List.all_eq_true] at h3
      exact ⟨x, hx, h3.1, fun b hb => by simpa using h3.2 b hb⟩
    · obtain ⟨x, hx, h3⟩ := List.any_eq_true.mp h2
      exact ⟨x, hx, by simpa using h3⟩

/-- Both parts of C17 applied to it. -/
example : ∃ t t' c, Loaded (ctx tiny) packed7 (some t) ∧
    Contains (ctx tiny) (endState (retain (ctx tiny) 10 (keyRange 5 5)) packed7) c ∧
    Loaded (ctx tiny) (endState (retain (ctx tiny) 10 (keyRange 5 5)) packed7) (some t') ∧
    (∃ x ∈ t.leavesAt 0, Wiped 0 c x) ∧ ∃ x ∈ t.leavesAt 0, x ∈ t'.leavesAt 0 := by
  obtain ⟨t, h1, ⟨x, hx, h2⟩, y, hy, h3⟩ := packed7_missed
  have hr : Reach (ctx tiny) (endState (retain (ctx tiny) 10 (keyRange 5 5)) packed7) := reach_retain packed7_reach 10 _ (by decide +kernel)
  have hs : Small env (endState (retain (ctx tiny) 10 (keyRange 5 5)) packed7) := small_of (by decide +kernel)
  have he : retain (ctx tiny) 10 (keyRange 5 5) packed7 = .ok () (endState (retain (ctx tiny) 10 (keyRange 5 5)) packed7) :=
    ok_of_succeeds (by decide +kernel)
  have hf : rootLevel packed7.root < 10 := by decide +kernel
  obtain ⟨c, hc⟩ := reach_readable tiny_ok hr hs
  have hsome : (loaded tiny (endState (retain (ctx tiny) 10 (keyRange 5 5)) packed7)).isSome = true := by decide +kernel
  have hl' := loaded_spec tiny_ok hr hs hsome
  cases hl : loaded tiny (endState (retain (ctx tiny) 10 (keyRange 5 5)) packed7) with
  | none => rw [hl] at hsome; cases hsome
  | some t' =>
    rw [hl] at hl'
    exact ⟨t, t', c, h1, hc, hl',
      ⟨x, hx, C17_retain_effective tiny_ok packed7_reach 10 hf _ he hs h1 packed7_packed hc x hx h2⟩,
      ⟨y, hy, C17_unsealed_stays tiny_ok packed7_reach 10 hf _ he hs h1 hl' y hy h3⟩⟩

/-! ### C18 -/

/-- packing a tree from which elements have been removed -/
example : ReportsPacked (ctx tiny) (endState (pack (ctx tiny) 10) retained10) ∧
    elements tiny (endState (pack (ctx tiny) 10) retained10) = some (List.replicate 4 none ++ (seq 4 6).map some) :=
  ⟨C04_pack_packs tiny_ok retained10_reach 10 (by decide +kernel) (ok_of_succeeds (by decide +kernel))
    (small_of (by decide +kernel)), by decide +kernel⟩

/-- a failure for a cause outside of the tree: the store is full -/
example : Allowed env tiny (fun _ => False) (.fail "full") :=
  C18_pack_after_retain (cx := ctx tiny) (s := withRoom 0 retained10)
    tiny_ok (steady_withRoom retained10_steady 0 retained10_coherent)
    10 (by decide +kernel) (error_of (by decide +kernel)) (small_of (by decide +kernel))

/-! ### C61 -/

/-- C61: `retain` fails only for a cause outside of the tree. -/
theorem C61_retain_never_aborts (ok : cx.Ok) (hr : Reach cx s) (fuel : Nat) (hf : rootLevel s.root < fuel)
    (q : Query T) {e : Err} (he : retain cx fuel q s = .error e s') (hs : Small E s') : Allowed E cx.cfg (fun _ => False) e := by
  obtain ⟨t, hi⟩ := ok.inv hr (((frame0_retain ok.env fuel q).err he).small hs)
  exact (retain_spec (I := NodeInv.trivial cx) (vals := fun _ => False) (R := Allowed E cx.cfg (fun _ => False)) ok.env ok.types ok.cfg
    (NodeInv.trivial_rewrites cx) (fun _ h => h) q fuel t s hi.holds hf).err he hs

/-- C61: `extend_unpacked` fails only for a cause outside of the tree. -/
theorem C61_extendUnpacked_never_aborts (ok : cx.Ok) (hr : Reach cx s) (fuel : Nat) (xs : List (T.Key × V))
    (hn : rootCount s.root + xs.length ≤ maxElements) {e : Err}
    (he : extendUnpacked cx fuel xs s = .error e s') (hs : Small E s') : Allowed E cx.cfg (fun v => ∃ k, (k, v) ∈ xs) e := by
  obtain ⟨t, hi⟩ := ok.inv hr (((frame0_extendUnpacked ok.env fuel xs).err he).small hs)
  have h2 := hi.count
  have h3 := rootCount_eq ok.types hi.holds
  have hm : maxElements = 2147483645 := rfl
  have hu : u32max = 4294967295 := rfl
  exact (extendUnpacked_spec (I := NodeInv.trivial cx) (vals := fun v => ∃ k, (k, v) ∈ xs)
    (R := Allowed E cx.cfg (fun v => ∃ k, (k, v) ∈ xs))
    ok.env ok.types ok.cfg (fun _ h => h) fuel xs t s hi.holds (fun kv h => ⟨kv.1, h⟩) (by omega)).err he hs

/-- the store is full -/
example : Allowed env tiny (fun _ => False) (.fail "full") :=
  C61_retain_never_aborts (cx := ctx tiny) (s := withRoom 0 unpacked10)
    tiny_ok (reach_withRoom unpacked10_reach 0 unpacked10_coherent)
    10 (by decide +kernel) (keyRange 5 5) (error_of (by decide +kernel)) (small_of (by decide +kernel))

example : Allowed env tiny (fun v => ∃ k, (k, v) ∈ seq 0 7) (.fail "full") :=
  C61_extendUnpacked_never_aborts (cx := ctx tiny) (s := start 2) tiny_ok (start_reach tiny 2) 10 (seq 0 7)
    (by decide +kernel) (error_of (by decide +kernel)) (small_of (by decide +kernel))

end Banyan
