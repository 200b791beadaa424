import Verif.Proofs.Again
import Verif.Props.Repair
import Verif.Props.Retain
/-
Doing `retain` and `repair` again: C73.
-/
set_option autoImplicit false
namespace Banyan

open PTree Concrete

variable {T : TreeTypes} {V : Type} {E : Env T V} {cx : Ctx E} {s s1 s2 : St E}

/-! ### queries that can be repeated -/

theorem Query.Blind.refl {q : Query T} (h : q.Blind) : q.Implies q where
  containing := fun o i l hq => by rw [h.containing]; exact hq
  intersecting := fun o i l hq => by rw [h.intersecting]; exact hq

/-- Retaining everything retains at least as much as any query. -/
theorem Query.implies_all (q : Query T) : q.Implies allQuery where
  containing := fun o i l hq => by
    have hl := q.len_containing o i (List.replicate (T.keys.len i.keys) true)
    have h1 := List.length_pos_of_mem hq
    rw [hl, List.length_replicate] at h1
    exact List.mem_replicate.mpr ⟨by omega, rfl⟩
  intersecting := fun o i l hq => by
    have hl := q.len_intersecting o i (List.replicate (T.sums.len i.summaries) true)
    have h1 := List.length_pos_of_mem hq
    rw [hl, List.length_replicate] at h1
    exact List.mem_replicate.mpr ⟨by omega, rfl⟩

theorem allQuery_blind : (allQuery (T := T)).Blind := ⟨fun _ _ _ _ => rfl, fun _ _ _ _ => rfl⟩

theorem emptyQuery_blind : (emptyQuery (T := T)).Blind := ⟨fun _ _ _ _ => rfl, fun _ _ _ _ => rfl⟩

theorem offsetRangeQuery_blind (r : RangeB Nat) : (offsetRangeQuery (T := T) r).Blind := ⟨fun _ _ _ _ => rfl, fun _ _ _ _ => rfl⟩

theorem Query.Blind.and {a b : Query T} (ha : a.Blind) (hb : b.Blind) : (andQuery a b).Blind where
  containing := fun o i l m => by
    show b.containing o _ (a.containing o _ m) = b.containing o i (a.containing o i m)
    rw [ha.containing, hb.containing]
  intersecting := fun o i l m => by
    show b.intersecting o _ (a.intersecting o _ m) = b.intersecting o i (a.intersecting o i m)
    rw [ha.intersecting, hb.intersecting]

theorem Query.Blind.or {a b : Query T} (ha : a.Blind) (hb : b.Blind) : (orQuery a b).Blind where
  containing := fun o i l m => by
    show orWith (a.containing o _ m) (b.containing o _ m) = orWith (a.containing o i m) (b.containing o i m)
    rw [ha.containing, hb.containing]
  intersecting := fun o i l m => by
    show orWith (a.intersecting o _ m) (b.intersecting o _ m) = orWith (a.intersecting o i m) (b.intersecting o i m)
    rw [ha.intersecting, hb.intersecting]

theorem mem_orWith {a : List Bool} (b : List Bool) (h : true ∈ a) : true ∈ orWith a b := by
  induction a generalizing b with
  | nil => cases h
  | cons x a ih =>
    cases b with
    | nil => exact h
    | cons y b =>
      unfold orWith
      rcases List.mem_cons.mp h with rfl | h
      · simp
      · exact List.mem_cons_of_mem _ (ih b h)

/-- Retaining `a` or `b` after retaining `a`. -/
theorem Query.Blind.implies_or {a : Query T} (ha : a.Blind) (b : Query T) : a.Implies (orQuery a b) where
  containing := fun o i l hq => mem_orWith _ (by rw [ha.containing]; exact hq)
  intersecting := fun o i l hq => mem_orWith _ (by rw [ha.intersecting]; exact hq)

/-! ### C73 -/

/-- C73: after a successful `retain`, retaining again, with the same query or with one that selects at least as much, succeeds, writes
nothing and changes nothing: not even the cipher offset or the cache. Other trees may have been written in between. -/
theorem C73_retain_again (ok : cx.Ok) {q q' : Query T} (hq : q.Implies q') (fuel fuel' : Nat) (hf : fuel ≤ fuel')
    (he : retain cx fuel q s = .ok () s1) (hs : Small E s1) (hroot : s2.root = s1.root) (hst : StoreLe E s1.store s2.store) :
    retain cx fuel' q' s2 = .ok () s2 := by
  unfold retain at he
  rw [bind_apply] at he
  simp only [getIndex] at he
  cases hr : s.root with
  | none =>
    rw [hr] at he
    cases he
    unfold retain
    rw [bind_apply]
    simp only [getIndex, hroot, hr]
    rfl
  | some index =>
    rw [hr] at he
    simp only at he
    rw [bind_apply] at he
    have hp := retain0_again (cx := cx) ok.env hq fuel 0 index i32max s
    unfold Post at hp
    cases hrun : retain0 cx q fuel 0 index i32max s with
    | error e s' => rw [hrun] at he; cases he
    | ok r s' =>
      obtain ⟨i', l'⟩ := r
      rw [hrun] at he hp
      simp only at he hp
      cases he
      obtain ⟨_, hc⟩ := hp hs
      unfold retain
      rw [bind_apply]
      simp only [getIndex, hroot]
      rw [bind_apply, hc fuel' s2 hf hst]
      show EStateM.Result.ok () { s2 with root := some i' } = _
      rw [← show s2.root = some i' from hroot]

/-- C73: a `retain` that selects everything changes nothing, in particular it purges nothing and writes nothing. -/
theorem C73_retain_all (ok : cx.Ok) (hr : Reach cx s) (hs : Small E s) (fuel : Nat) (hf : rootLevel s.root < fuel) {q : Query T}
    (hq : (allQuery (T := T)).Implies q) : retain cx fuel q s = .ok () s := by
  obtain ⟨t, hi⟩ := ok.inv hr hs
  unfold retain
  rw [bind_apply]
  simp only [getIndex]
  cases t with
  | none =>
    rw [show s.root = none from hi.holds.root]
    rfl
  | some t =>
    have hroot : s.root = some t.index := hi.holds.root
    have hg := hi.holds.good t rfl
    rw [hi.holds.level] at hf
    obtain ⟨l', hc⟩ := retain0_all (cx := cx) ok.types hq fuel t 0 i32max s.store hg.stored hg.wf.formed hf
    rw [hroot]
    simp only
    rw [bind_apply, hc fuel s (Nat.le_refl _) (StoreLe.refl _)]
    show EStateM.Result.ok () { s with root := some t.index } = _
    rw [← hroot]

/-- C73: after a successful `repair`, whatever was damaged, repairing again finds nothing to repair, writes nothing and changes nothing,
unless further blocks are lost. -/
theorem C73_repair_again (ok : cx.Ok) (fuel fuel' : Nat) (hf : fuel ≤ fuel') {r : List (RepairMsg T)}
    (he : repair cx fuel s = .ok r s1) (hs : Small E s1) (hroot : s2.root = s1.root) (hst : StoreLe E s1.store s2.store) :
    repair cx fuel' s2 = .ok [] s2 := by
  unfold repair at he
  rw [bind_apply] at he
  simp only [getIndex] at he
  cases hr : s.root with
  | none =>
    rw [hr] at he
    cases he
    unfold repair
    rw [bind_apply]
    simp only [getIndex, hroot, hr]
    rfl
  | some index =>
    rw [hr] at he
    simp only at he
    rw [bind_apply] at he
    have hp := repair0_again (cx := cx) ok.env fuel index [] i32max s
    unfold Post at hp
    cases hrun : repair0 cx fuel index [] i32max s with
    | error e s' => rw [hrun] at he; cases he
    | ok x s' =>
      obtain ⟨i', r', l'⟩ := x
      rw [hrun] at he hp
      simp only at he hp
      cases he
      obtain ⟨_, hc⟩ := hp hs
      obtain ⟨l2, hc⟩ := hc fuel' [] i32max s2 hf hst
      unfold repair
      rw [bind_apply]
      simp only [getIndex, hroot]
      rw [bind_apply, hc]
      show EStateM.Result.ok [] { s2 with root := some i' } = _
      rw [← show s2.root = some i' from hroot]

/-! ### examples -/

theorem keyRange_blind (a b : Nat) : (keyRange a b).Blind := ⟨fun _ _ _ _ => rfl, fun _ _ _ _ => rfl⟩

/-- Four elements are removed at the first time, nothing changes at the second time. -/
example : elements tiny retained10 ≠ elements tiny unpacked10 ∧ retain (ctx tiny) 10 (keyRange 5 5) retained10 = .ok () retained10 :=
  ⟨by decide +kernel, C73_retain_again tiny_ok (keyRange_blind 5 5).refl 10 10 (Nat.le_refl _) retained10_ok retained10_small rfl (StoreLe.refl _)⟩

/-- A larger range, with a store in which another tree has been written. -/
example (s2 : St env) (h1 : s2.root = retained10.root) (h2 : StoreLe env retained10.store s2.store) :
    retain (ctx tiny) 12 (orQuery (keyRange 5 5) (keyRange 7 8)) s2 = .ok () s2 :=
  C73_retain_again (cx := ctx tiny) (s := unpacked10) (s1 := retained10) tiny_ok ((keyRange_blind 5 5).implies_or _) 10 12 (by decide) retained10_ok
    retained10_small h1 h2

example : retain (ctx tiny) 10 allQuery unpacked10 = .ok () unpacked10 :=
  C73_retain_all tiny_ok unpacked10_reach unpacked10_small 10 (by decide +kernel) allQuery_blind.refl

/-- Without the hypothesis about the query the second `retain` does change the tree. -/
example : elements tiny (endState (retain (ctx tiny) 10 emptyQuery) retained10) ≠ elements tiny retained10 := by decide +kernel

/-- A branch is lost and given up; there is nothing left to repair. -/
example : elements tiny (repaired [2] packed7) ≠ elements tiny packed7 ∧ repair (ctx tiny) 10 (repaired [2] packed7) = .ok [] (repaired [2] packed7) :=
  ⟨by decide +kernel, C73_repair_again tiny_ok 10 10 (Nat.le_refl _) lost2 (small_of (by decide +kernel)) rfl (StoreLe.refl _)⟩

end Banyan
