import Verif.Props.Retain
/-
Reading: C07, C08, C27.
-/
set_option autoImplicit false
namespace Banyan

open PTree Concrete

variable {T : TreeTypes} {V : Type} {E : Env T V} {cx : Ctx E} {s s' : St E} {c : List (Option (T.Key × V))}

/-- C07: reading a single position of a reachable tree succeeds; it yields the element at that position of the content,
and nothing if the position is past the end or has been purged. -/
theorem C07_get (ok : cx.Ok) (hr : Reach cx s) (hs : Small E s) (hc : Contains cx s c) (o : Nat) :
    ∃ r, Yields (fun fuel t => Tree.get fuel t o) (snapshot cx s) s r ∧
      (∀ k v, r = some (k, v) ↔ c[o]? = some (some (k, v))) ∧
      (r = none ↔ rootCount s.root ≤ o ∨ c[o]? = some none) := by
  obtain ⟨t, hi⟩ := ok.inv hr hs
  have hlen := (C28_count ok hr hs hc).1
  rw [hi.holds.contains ok.env ok.types] at hc
  subst hc
  refine ⟨_, hi.holds.snap.get ok.env ok.types o, ?_, ?_⟩
  · intro k v
    cases (optContent t)[o]? with
    | none => simp
    | some x => simp
  · rw [hlen]
    cases hx : (optContent t)[o]? with
    | none => simpa using hx
    | some x =>
      have : o < (optContent t).length := (List.getElem?_eq_some_iff.mp hx).1
      simp only [Option.join_some, Option.some.injEq]
      constructor
      · exact Or.inr
      · rintro (h | h)
        · omega
        · exact h

example : ∃ r : Option (Nat × Nat), Yields (fun fuel t => Tree.get fuel t 8) (snapshot (ctx tiny) unpacked10) unpacked10 r ∧ r = some (8, 80) := by
  obtain ⟨r, h1, h2, _⟩ := C07_get tiny_ok unpacked10_reach unpacked10_small unpacked10_contains 8
  exact ⟨r, h1, (h2 (8 : Nat) 80).mpr rfl⟩

/-- C08: `collect_from` yields the content from the given offset on. -/
theorem C08_collectFrom (ok : cx.Ok) (hr : Reach cx s) (hs : Small E s) (hc : Contains cx s c) (o : Nat) :
    Yields (fun fuel t => Tree.collectFrom fuel t o) (snapshot cx s) s (c.drop o) := by
  obtain ⟨t, hi⟩ := ok.inv hr hs
  rw [hi.holds.contains ok.env ok.types] at hc
  subst hc
  exact hi.holds.snap.collectFrom ok.env ok.types o

theorem retained10_contains : Contains (ctx tiny) retained10 (List.replicate 4 none ++ (seq 4 6).map some) := by
  obtain ⟨c, hc⟩ := reach_readable tiny_ok retained10_reach retained10_small
  obtain ⟨s', h1⟩ := hc 100 (by decide +kernel)
  have h2 := retained10_elements
  unfold elements valueOf at h2
  rw [h1] at h2
  have h3 := Option.some.inj h2
  subst h3
  exact hc

/-- also with purged elements -/
example : Yields (fun fuel t => Tree.collectFrom fuel t 3) (snapshot (ctx tiny) retained10) retained10
    ((List.replicate 4 none ++ (seq 4 6).map some).drop 3) :=
  C08_collectFrom tiny_ok retained10_reach retained10_small retained10_contains 3

/-- C27: the invariant checker finds nothing on any reachable tree, as long as the configuration is never changed. -/
theorem C27_invariants (ok : cx.Ok) (hr : Steady cx s) (hs : Small E s) (fuel : Nat) (hf : rootLevel s.root < fuel) :
    ∃ s', checkInvariants cx fuel s = .ok [] s' := by
  obtain ⟨t, hi⟩ := hr.inv ok.env ok.types ok.cfg withinInv_rewrites hs
  have hroot := hi.holds.root
  have hc : checkInvariants cx fuel s = (match s.root with
    | some root => (do
        let (_, msgs) ← checkInvariants0 cx.sec cx.cfg fuel root i32max []
        pure msgs : M E (List InvMsg)) s
    | none => .ok [] s) := by
    unfold checkInvariants
    rw [bind_apply]
    unfold getIndex
    simp only
    cases s.root <;> rfl
  rw [hc]
  cases t with
  | none =>
    rw [hroot]
    exact ⟨s, rfl⟩
  | some t =>
    rw [hi.holds.level] at hf
    rw [hroot]
    have hg := hi.holds.good t rfl
    obtain ⟨l', c', _, h2⟩ := checkInvariants0_reads ok.env ok.types fuel t i32max [] s hg.stored hg.wf
      (PTree.All.imp (fun _ h => h.2.2) hg) hi.holds.coherent hf
    simp only [Option.map_some]
    rw [bind_apply, h2]
    exact ⟨_, rfl⟩

example : ∃ s', checkInvariants (ctx tiny) 10 retained10 = .ok [] s' :=
  C27_invariants tiny_ok retained10_steady retained10_small 10 (by decide +kernel)

end Banyan
