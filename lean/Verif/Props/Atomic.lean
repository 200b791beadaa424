import Verif.Props.Read
/-
Failures and transactions: C24, C25.
-/
set_option autoImplicit false
namespace Banyan

open PTree Concrete

variable {T : TreeTypes} {V : Type} {E : Env T V} {cx : Ctx E} {s s' : St E} {c : List (Option (T.Key × V))}

/-- A later state with the same root has the same content. -/
theorem contains_of_ext0 (ok : cx.Ok) (hr : Reach cx s) (hs : Small E s) (hx : Ext0 cx s s') (hroot : s'.root = s.root)
    (hc : Contains cx s c) : Contains cx s' c := by
  obtain ⟨t, hi⟩ := ok.inv hr hs
  rw [hi.holds.contains ok.env ok.types] at hc
  subst hc
  have h := (Snap.of_holds hi.holds hx).collect ok.env ok.types
  intro fuel hf
  rw [snapshot_level, hroot] at hf
  obtain ⟨s2, h2⟩ := h fuel (by rw [snapshot_level]; exact hf)
  refine ⟨s2, ?_⟩
  rw [← h2]
  unfold snapshot Tree.collect Tree.collectFrom
  rw [hroot]
  cases s.root <;> rfl

theorem Ext0.offset_le (h : Ext0 cx s s') : s.offset ≤ s'.offset := by
  obtain ⟨new, _, h⟩ := h.puts
  exact h.le

/-! ### C24 -/

/-- C24: a transaction that is not committed (it ends without a commit, with an error or with a panic) leaves the root
and the content of the builder as they were, and the builder in a state from which it can go on. The cipher offset does
not go back. The body can be any sequence of operations. -/
theorem C24_rollback (ok : cx.Ok) (hr : Reach cx s) (body : M E Bool) (hb : Run cx s (endState body s))
    (hn : ∀ s1, body s ≠ .ok true s1) (hs : Small E (endState body s)) (hc : Contains cx s c) :
    (endState (transaction body) s).root = s.root ∧ Contains cx (endState (transaction body) s) c ∧
    Reach cx (endState (transaction body) s) ∧ s.offset ≤ (endState (transaction body) s).offset ∧
    (endState (transaction body) s).offset = (endState body s).offset := by
  have hst : endState (transaction body) s = { endState body s with root := s.root } := by
    unfold endState transaction
    cases hx : body s with
    | ok b s1 =>
      cases b with
      | true => exact absurd hx (hn s1)
      | false => rfl
    | error e s1 => rfl
  have hx := hb.ext0 ok.env
  have hx' : Ext0 cx s { endState body s with root := s.root } := hx.trans (Ext0.setRoot _ _)
  rw [hst]
  exact ⟨rfl, contains_of_ext0 ok hr (hx.small hs) hx' rfl hc, hr.run (.rollback (.refl s) hb), hx.offset_le, rfl⟩

/-- C24: a committed transaction has the effect of its body. -/
theorem C24_commit (body : M E Bool) {s1 : St E} (hb : body s = .ok true s1) :
    transaction body s = .ok () s1 := by
  unfold transaction
  rw [hb]

/-- Three elements are appended to the tree of seven elements, and then the transaction is dropped. -/
def dropped : M env Bool := do
  extend (ctx tiny) 10 (seq 7 3)
  pure false

theorem dropped_end : endState dropped packed7 = endState (extend (ctx tiny) 10 (seq 7 3)) packed7 := by
  unfold dropped endState
  rw [bind_apply]
  cases extend (ctx tiny) 10 (seq 7 3) packed7 <;> rfl

example : Contains (ctx tiny) (endState (transaction dropped) packed7) ((seq 0 7).map some) ∧
    packed7.offset < (endState (transaction dropped) packed7).offset := by
  have hb : Run (ctx tiny) packed7 (endState dropped packed7) := by
    rw [dropped_end]
    exact .extend (cx := ctx tiny) 10 _ (.refl _) (by decide +kernel) (by decide +kernel)
  have h := C24_rollback tiny_ok packed7_reach dropped hb (by
    intro s1 h
    unfold dropped at h
    rw [bind_apply] at h
    split at h <;> cases h) (small_of (by decide +kernel)) packed7_contains
  exact ⟨h.2.1, by decide +kernel⟩

/-! ### C25 -/

/-- C25: if `extend` fails, root and content are as before. -/
theorem C25_extend (ok : cx.Ok) (hr : Reach cx s) (fuel : Nat) (xs : List (T.Key × V)) {e : Err}
    (he : extend cx fuel xs s = .error e s') (hs : Small E s') (hc : Contains cx s c) :
    s'.root = s.root ∧ Contains cx s' c := by
  have hx := extend_error ok.env he
  exact ⟨hx.root, contains_of_ext0 ok hr (hx.ext0.small hs) hx.ext0 hx.root hc⟩

/-- C25: if `extend_unpacked` fails, root and content are as before. -/
theorem C25_extendUnpacked (ok : cx.Ok) (hr : Reach cx s) (fuel : Nat) (xs : List (T.Key × V)) {e : Err}
    (he : extendUnpacked cx fuel xs s = .error e s') (hs : Small E s') (hc : Contains cx s c) :
    s'.root = s.root ∧ Contains cx s' c := by
  have hx := extendUnpacked_error ok.env he
  exact ⟨hx.root, contains_of_ext0 ok hr (hx.ext0.small hs) hx.ext0 hx.root hc⟩

/-- C25: if `retain` fails, root and content are as before. -/
theorem C25_retain (ok : cx.Ok) (hr : Reach cx s) (fuel : Nat) (q : Query T) {e : Err}
    (he : retain cx fuel q s = .error e s') (hs : Small E s') (hc : Contains cx s c) :
    s'.root = s.root ∧ Contains cx s' c := by
  have hx := retain_error ok.env he
  exact ⟨hx.root, contains_of_ext0 ok hr (hx.ext0.small hs) hx.ext0 hx.root hc⟩

/-- C25: if `repair` fails, the root is as before (on any store, also a damaged one). -/
theorem C25_repair (ok : cx.Ok) (fuel : Nat) {e : Err} (he : repair cx fuel s = .error e s') :
    s'.root = s.root := (repair_error ok.env he).root

/-- C25 for `pack`: if `pack` fails, the content is as before, or a prefix of it. Missing: that it is as before, which is
false (`C25_refuted`): the roots of the packed part are installed before the remaining elements are appended. -/
theorem C25_pack_partial (ok : cx.Ok) (hr : Reach cx s) (fuel : Nat) (hf : rootLevel s.root < fuel) {e : Err}
    (he : pack cx fuel s = .error e s') (hs : Small E s') (hc : Contains cx s c) :
    ∃ c', Contains cx s' c' ∧ c' <+: c := by
  obtain ⟨t, hi⟩ := ok.inv hr (((frame0_pack ok.env fuel).err he).small hs)
  obtain ⟨t', h1, h2⟩ := pack_error ok.env ok.types ok.cfg hi.holds hf he hs
  rw [hi.holds.contains ok.env ok.types] at hc
  subst hc
  refine ⟨optContent t', (h1.contains ok.env ok.types).mpr rfl, ?_⟩
  rcases h2 with rfl | ⟨h2, _⟩
  · exact List.prefix_rfl
  · rw [h2]
    obtain ⟨rest, h3⟩ := optRoots_content hi.purge (by
      rintro t2 rfl
      have := hi.level_lt
      rwa [hi.holds.level] at this)
    exact ⟨rest.map some, h3.symm⟩

theorem withRoom_root (n : Nat) (s : St env) : (withRoom n s).root = s.root := rfl

theorem withRoom_ext0 {cfg : Config} (n : Nat) (s : St env) : Ext0 (ctx cfg) s (withRoom n s) :=
  ⟨fun _ _ h => h, fun h l b hb => h l b hb, ⟨[], by simp [withRoom], Nat.le_refl _⟩, ⟨[], by simp [withRoom]⟩⟩

/-- The store accepts one more block. -/
def nearlyFull : St env := withRoom 1 unpacked10

theorem nearlyFull_reach : Reach (ctx tiny) nearlyFull := reach_withRoom unpacked10_reach 1 unpacked10_coherent

/-- C25 is false for `pack`: the tree has ten elements and the store has room for one more block. `pack` fails, and then
the tree has only six elements. -/
theorem C25_refuted : errorOf (pack (ctx tiny) 10) nearlyFull = some (.fail "full") ∧ elements tiny nearlyFull = some ((seq 0 10).map some) ∧
    elements tiny (endState (pack (ctx tiny) 10) nearlyFull) = some ((seq 0 6).map some) := by
  refine ⟨by decide +kernel, by decide +kernel, by decide +kernel⟩

/-- a failing `extend` on a full store -/
example : Contains (ctx tiny) (endState (extend (ctx tiny) 10 (seq 7 3)) (withRoom 1 packed7)) ((seq 0 7).map some) := by
  have hco : Coherent env (ctx tiny).sec packed7 := by
    obtain ⟨t, h⟩ := tiny_ok.inv packed7_reach packed7_small
    exact h.holds.coherent
  have hr : Reach (ctx tiny) (withRoom 1 packed7) := reach_withRoom packed7_reach 1 hco
  have hc : Contains (ctx tiny) (withRoom 1 packed7) ((seq 0 7).map some) :=
    contains_of_ext0 tiny_ok packed7_reach packed7_small (withRoom_ext0 1 packed7) (withRoom_root 1 packed7) packed7_contains
  exact (C25_extend tiny_ok hr 10 (seq 7 3) (e := .fail "full") (error_of (by decide +kernel)) (small_of (by decide +kernel)) hc).2

end Banyan
