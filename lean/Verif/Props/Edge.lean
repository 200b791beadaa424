import Verif.Proofs.Edge
import Verif.Props.Partial
import Verif.Props.Depth
import Verif.Props.Outline
/-
Appending needs only the blocks at the right edge of a tree: C90.
-/
set_option autoImplicit false
namespace Banyan

open PTree Concrete

variable {T : TreeTypes} {V : Type} {E : Env T V} {cx : Ctx E} {s s2 s' : St E} {c : List (Option (T.Key × V))} {t : PTree T V}

theorem Edged.known (ok : cx.Ok) (hr : Reach cx s) (hs : Small E s) (hd : Edged cx s s2) :
    Coherent E cx.sec s ∧ ∀ i, s.root = some i →
      EdgeKnown E cx.sec (fun l b => E.get s.store l = .ok b ∧ E.get s2.store l = .ok b) i := by
  obtain ⟨t0, hi⟩ := ok.inv hr hs
  refine ⟨hi.holds.coherent, fun i hroot => ?_⟩
  obtain ⟨t, sh⟩ := hr.shows ok hs (by rw [hroot]; simp)
  have h1 := sh.root
  rw [hroot] at h1
  cases h1
  exact edgeKnown_of_stored t sh.stored (hd.edge t sh)

/-- C90: a builder that has only the blocks at the right edge of a tree can append to it. The result is the same tree as with all blocks,
and the same blocks are written. And so on: the builder has the blocks at the right edge of the new tree. -/
theorem C90_extend (ok : cx.Ok) (hr : Reach cx s) (hs : Small E s) (hd : Edged cx s s2) (fuel : Nat) (xs : List (T.Key × V))
    (he : extend cx fuel xs s = .ok () s') :
    ∃ s2' bs, extend cx fuel xs s2 = .ok () s2' ∧ s2'.root = s'.root ∧ s'.puts = s.puts ++ bs ∧ s2'.puts = s2.puts ++ bs ∧
      (Small E s' → Edged cx s' s2') := by
  obtain ⟨hco, hk⟩ := hd.known ok hr hs
  have h := extend_both ok.env (hd.twin hco) fuel xs hk
  rw [he] at h
  obtain ⟨K', s2', h1, h2, h3⟩ := h
  obtain ⟨bs, h4, h5⟩ := h2.puts
  exact ⟨s2', bs, h1, h2.root, h4, h5, fun hs' => h2.edged (h3 hs')⟩

/-- C90: if appending fails then it fails in the same way. -/
theorem C90_extend_fails (ok : cx.Ok) (hr : Reach cx s) (hs : Small E s) (hd : Edged cx s s2) (fuel : Nat) (xs : List (T.Key × V))
    {e : Err} (he : extend cx fuel xs s = .error e s') :
    ∃ s2' bs, extend cx fuel xs s2 = .error e s2' ∧ s2'.root = s'.root ∧ s'.puts = s.puts ++ bs ∧ s2'.puts = s2.puts ++ bs := by
  obtain ⟨hco, hk⟩ := hd.known ok hr hs
  have h := extend_both ok.env (hd.twin hco) fuel xs hk
  rw [he] at h
  obtain ⟨K', s2', h1, h2⟩ := h
  obtain ⟨bs, h4, h5⟩ := h2.puts
  exact ⟨s2', bs, h1, h2.root, h4, h5⟩

/-- C90: appending without packing needs no blocks at all: it works alike in a store that has nothing of the tree. After that the right edge
is there. -/
theorem C90_extendUnpacked (ok : cx.Ok) (hr : Reach cx s) (hs : Small E s) (hroot : s2.root = s.root) (hoff : s2.offset = s.offset)
    (hal : Alike E s.store s2.store) (hco2 : Coherent E cx.sec s2) (fuel : Nat) (xs : List (T.Key × V))
    (he : extendUnpacked cx fuel xs s = .ok () s') :
    ∃ s2' bs, extendUnpacked cx fuel xs s2 = .ok () s2' ∧ s2'.root = s'.root ∧ s'.puts = s.puts ++ bs ∧ s2'.puts = s2.puts ++ bs ∧
      (xs ≠ [] → Small E s' → Edged cx s' s2') := by
  obtain ⟨t0, hi⟩ := ok.inv hr hs
  have h := extendUnpacked_both (K := fun _ _ => False) ok.env (⟨hroot, hoff, ⟨[], (List.append_nil _).symm, (List.append_nil _).symm⟩, hal,
    (fun _ _ h => h.elim), (fun _ _ h => h.elim), (fun _ _ _ h => .inl h), hi.holds.coherent, hco2⟩ :
      Twin E cx.sec _ ⟨s.puts, fun l b => E.get s.store l = .ok b⟩ s2.puts s s2) fuel xs
  rw [he] at h
  obtain ⟨K', s2', h1, h2, h3⟩ := h
  obtain ⟨bs, h4, h5⟩ := h2.puts
  exact ⟨s2', bs, h1, h2.root, h4, h5, fun hx hs' => h2.edged (h3 hx hs')⟩

/-- The tree of a builder is there wherever its blocks are. -/
theorem contains_elsewhere {s3 : St E} (ok : cx.Ok) (hr : Reach cx s) (hs : Small E s) (hc : Contains cx s c) (hroot : s3.root = s.root)
    (hst : StoreLe E s.store s3.store) (hco : Coherent E cx.sec s3) : Contains cx s3 c := by
  obtain ⟨t, hi⟩ := ok.inv hr hs
  rw [hi.holds.contains ok.env ok.types] at hc
  subst hc
  exact Snap.collect ok.env ok.types (s := s3) ⟨hroot.trans hi.holds.root, hco, fun t' ht => ((hi.holds.good t' ht).mono hst).stored,
    fun t' ht => (hi.holds.good t' ht).wf⟩

/-- C90: what has been appended to the right edge belongs to the whole tree. In every store that has the blocks of the old tree and those
of the builder that had only the right edge, the old elements and the new ones are found. -/
theorem C90_extend_joined (ok : cx.Ok) (hfr : Frugal E) (hr : Reach cx s) (hd : Edged cx s s2) (hc : Contains cx s c) (fuel : Nat)
    (xs : List (T.Key × V)) (hf : rootLevel s.root < fuel) (hn : rootCount s.root + xs.length ≤ maxElements)
    (he : extend cx fuel xs s = .ok () s') (hs : Small E s') {s2' s3 : St E} (he2 : extend cx fuel xs s2 = .ok () s2')
    (hroot : s3.root = s2'.root) (hold : StoreLe E s.store s3.store) (hnew : StoreLe E s2'.store s3.store) (hco : Coherent E cx.sec s3) :
    Contains cx s3 (c ++ xs.map some) := by
  have hs0 := ((frame0_extend ok.env fuel xs).ok he).small hs
  obtain ⟨hco1, hk⟩ := hd.known ok hr hs0
  have h := extend_both ok.env (hd.twin hco1) fuel xs hk
  rw [he] at h
  obtain ⟨K', s2'', h1, h2, _⟩ := h
  rw [he2] at h1
  cases h1
  have he' : s' = endState (extend cx fuel xs) s := by unfold endState; rw [he]
  exact contains_elsewhere ok (he' ▸ hr.run (.extend fuel xs (.refl s) hf hn)) hs (C01_extend_appends ok hr fuel xs hf hn he hs hc)
    (hroot.trans h2.root) (fun l b hb => (h2.new hfr l b hb).elim (hold l b) fun hb => hnew l b (h2.right l b hb)) hco

/-- C90: the same for appending without packing, with a builder that had no blocks at all. -/
theorem C90_extendUnpacked_joined (ok : cx.Ok) (hfr : Frugal E) (hr : Reach cx s) (hroot2 : s2.root = s.root) (hoff : s2.offset = s.offset)
    (hal : Alike E s.store s2.store) (hco2 : Coherent E cx.sec s2) (hc : Contains cx s c) (fuel : Nat) (xs : List (T.Key × V))
    (hf : rootLevel s.root < fuel) (hn : rootCount s.root + xs.length ≤ maxElements)
    (he : extendUnpacked cx fuel xs s = .ok () s') (hs : Small E s') {s2' s3 : St E} (he2 : extendUnpacked cx fuel xs s2 = .ok () s2')
    (hroot : s3.root = s2'.root) (hold : StoreLe E s.store s3.store) (hnew : StoreLe E s2'.store s3.store) (hco : Coherent E cx.sec s3) :
    Contains cx s3 (c ++ xs.map some) := by
  have hs0 := ((frame0_extendUnpacked ok.env fuel xs).ok he).small hs
  obtain ⟨t0, hi⟩ := ok.inv hr hs0
  have h := extendUnpacked_both (K := fun _ _ => False) ok.env (⟨hroot2, hoff, ⟨[], (List.append_nil _).symm, (List.append_nil _).symm⟩, hal,
    (fun _ _ h => h.elim), (fun _ _ h => h.elim), (fun _ _ _ h => .inl h), hi.holds.coherent, hco2⟩ :
      Twin E cx.sec _ ⟨s.puts, fun l b => E.get s.store l = .ok b⟩ s2.puts s s2) fuel xs
  rw [he] at h
  obtain ⟨K', s2'', h1, h2, _⟩ := h
  rw [he2] at h1
  cases h1
  have he' : s' = endState (extendUnpacked cx fuel xs) s := by unfold endState; rw [he]
  exact contains_elsewhere ok (he' ▸ hr.run (.extendUnpacked fuel xs (.refl s) hf hn)) hs (C02_extendUnpacked_appends ok hr fuel xs hn he hs hc)
    (hroot.trans h2.root) (fun l b hb => (h2.new hfr l b hb).elim (hold l b) fun hb => hnew l b (h2.right l b hb)) hco

/-- C90: at most one block for each level of the tree is at the right edge. -/
theorem C90_levels (ok : cx.Ok) (hr : Reach cx s) (hs : Small E s) (sh : Shows cx s t) : t.edge.length ≤ rootLevel s.root + 1 := by
  rw [sh.root]
  exact edge_length (hr.wf ok hs sh).wf

/-- C90: the number of blocks at the right edge of a packed tree is at most logarithmic in the number of elements. -/
theorem C90_log (ok : cx.Ok) (hr : Reach cx s) (hs : Small E s) (sh : Shows cx s t) (hc : Contains cx s c) (hp : ReportsPacked cx s) :
    t.edge.length ≤ Nat.log2 c.length + 3 := by
  have h1 := C90_levels ok hr hs sh
  have h2 := C70_log ok hr hs hc hp
  omega

/-! ### a concrete case -/

theorem put_alike (σ σ' : Store) (h1 : σ'.room = σ.room) (h2 : σ'.blocks.length = σ.blocks.length) : Alike env σ σ' := by
  have step : ∀ (σ σ' : Store) (d : Bytes), σ'.room = σ.room → σ'.blocks.length = σ.blocks.length →
      (σ'.put d).1 = (σ.put d).1 ∧ (σ'.put d).2.room = (σ.put d).2.room ∧ (σ'.put d).2.blocks.length = (σ.put d).2.blocks.length := by
    intro σ σ' d h1 h2
    unfold Store.put
    rw [h1]
    cases σ.room with
    | zero => exact ⟨rfl, h1, h2⟩
    | succ n => exact ⟨by simp [h2], rfl, by simp [h2]⟩
  intro ds d
  induction ds generalizing σ σ' with
  | nil => exact (step σ σ' d h1 h2).1
  | cons e ds ih => exact ih _ _ (step σ σ' e h1 h2).2.1 (step σ σ' e h1 h2).2.2

theorem punch_length (ns : List Nat) (σ : Store) : (punch ns σ).blocks.length = σ.blocks.length := by
  unfold punch
  simp only
  generalize σ.blocks = bs
  induction ns generalizing bs with
  | nil => rfl
  | cons n ns ih => rw [List.foldl_cons, ih, List.length_set]

theorem hole_alike (ns : List Nat) (s : St env) : Alike env s.store (hole ns s).store := put_alike _ _ rfl (punch_length _ _)

/-- Whether the blocks at the right edge of a loaded tree are not lost. -/
def edgeLeft (ns : List Nat) (s : St env) : Bool :=
  match loaded tiny s with
  | some t => t.edge.all fun n => match n.index.link with
    | some (l : Nat) => decide ((punch ns s.store).blocks[l]? = s.store.blocks[l]?)
    | none => true
  | none => false

theorem hole_edged {s : St env} (hr : Reach (ctx tiny) s) (hs : Small env s) (ns : List Nat) (h : edgeLeft ns s = true) :
    Edged (ctx tiny) s (hole ns s) := by
  refine ⟨rfl, rfl, hole_alike ns s, hole_coherent tiny _ _, fun t sh => ?_⟩
  unfold edgeLeft at h
  cases ht : loaded tiny s with
  | none => rw [ht] at h; cases h
  | some t' =>
    obtain rfl := sh.unique tiny_ok.env (shows_of_loaded tiny_ok hr hs ht)
    rw [ht] at h
    intro n hn l hl
    have h2 := List.all_eq_true.1 h n hn
    rw [hl] at h2
    have h3 : ∀ (a b : Store) (l : Nat), a.blocks[l]? = b.blocks[l]? → a.get l = b.get l := by
      intro a b l h
      unfold Store.get
      rw [h]
    exact h3 _ _ l (of_decide_eq_true h2)

/-- Seven elements, of which only the blocks at the right edge are left: the leaf with the last element and the two branches above it. -/
def edge7 : St env := hole [0, 1, 2, 3] packed7

theorem edge7_edged : Edged (ctx tiny) packed7 edge7 := hole_edged packed7_reach packed7_small _ (by decide +kernel)

/-- Ten elements, packed. -/
def seven_and_three : St env := endState (extend (ctx tiny) 10 (seq 7 3)) packed7

/-- C90: three elements can be appended if three of seven blocks are left, and again five, always with the same tree as result as if all
blocks were there. -/
example : ∃ s1 s2, extend (ctx tiny) 10 (seq 7 3) edge7 = .ok () s1 ∧ s1.root = seven_and_three.root ∧
    extend (ctx tiny) 10 (seq 10 5) s1 = .ok () s2 ∧ s2.root = (endState (extend (ctx tiny) 10 (seq 10 5)) seven_and_three).root := by
  have e1 : extend (ctx tiny) 10 (seq 7 3) packed7 = .ok () seven_and_three := ok_of_succeeds (by decide +kernel)
  have e2 : extend (ctx tiny) 10 (seq 10 5) seven_and_three = .ok () (endState (extend (ctx tiny) 10 (seq 10 5)) seven_and_three) :=
    ok_of_succeeds (by decide +kernel)
  have hs : Small env seven_and_three := small_of (by decide +kernel)
  obtain ⟨s1, _, h1, h2, _, _, h3⟩ := C90_extend tiny_ok packed7_reach packed7_small edge7_edged 10 (seq 7 3) e1
  obtain ⟨s2, _, g1, g2, _⟩ := C90_extend tiny_ok (reach_extend packed7_reach 10 (seq 7 3) (by decide +kernel)) hs (h3 hs)
    10 (seq 10 5) e2
  exact ⟨s1, s2, h1, h2, g1, g2⟩

theorem env_frugal : Frugal env := by
  intro (σ : Store) d (l : Nat) b
  show (σ.put d).2.get l = .ok b → σ.get l = .ok b ∨ (σ.put d).1 = .ok l ∧ b = d
  unfold Store.put
  cases σ.room with
  | zero => exact .inl
  | succ n =>
    intro h
    unfold Store.get at h ⊢
    simp only at h
    rcases Nat.lt_trichotomy l σ.blocks.length with hl | rfl | hl
    · rw [List.getElem?_append_left hl] at h
      exact .inl h
    · rw [List.getElem?_append_right (Nat.le_refl _)] at h
      simp at h
      exact .inr ⟨rfl, h.symm⟩
    · rw [List.getElem?_eq_none (by simp; omega)] at h
      cases h

/-- Whether the first store has no block that the second one does not have. -/
def within (a b : Store) : Bool := (List.range a.blocks.length).all fun l =>
  match a.blocks[l]? with
  | some (some x) => b.blocks[l]? == some (some x)
  | _ => true

theorem within_le {a b : Store} (h : within a b = true) : StoreLe env a b := by
  intro (l : Nat) x (hx : a.get l = .ok x)
  show b.get l = .ok x
  unfold Store.get at hx ⊢
  cases hy : a.blocks[l]? with
  | none => rw [hy] at hx; cases hx
  | some y =>
    cases y with
    | none => rw [hy] at hx; cases hx
    | some y =>
      rw [hy] at hx
      cases hx
      have h1 := List.all_eq_true.1 h l (List.mem_range.2 (List.getElem?_eq_some_iff.1 hy).1)
      rw [hy] at h1
      rw [eq_of_beq h1]

/-- C90: three elements are appended where three of seven blocks are left. Together with the other blocks these are ten elements. -/
example : ∃ s1, extend (ctx tiny) 10 (seq 7 3) edge7 = .ok () s1 ∧ Contains (ctx tiny) (rejoin packed7 s1) ((seq 0 7).map some ++ (seq 7 3).map some) := by
  have key : ∀ {s s2 s' s2' : St env} {c : List (Option (Nat × Nat))}, Reach (ctx tiny) s → Edged (ctx tiny) s s2 → Contains (ctx tiny) s c → rootLevel s.root < 10 →
      rootCount s.root + 3 ≤ maxElements → extend (ctx tiny) 10 (seq 7 3) s = .ok () s' → Small env s' →
      extend (ctx tiny) 10 (seq 7 3) s2 = .ok () s2' → within s.store (rejoin s s2').store = true → within s2'.store (rejoin s s2').store = true →
      Contains (ctx tiny) (rejoin s s2') (c ++ (seq 7 3).map some) := by
    intro s s2 s' s2' c hr hd hc hf hn he hs he2 h1 h2
    exact C90_extend_joined tiny_ok env_frugal hr hd hc 10 (seq 7 3) hf hn he hs he2 rfl (within_le h1) (within_le h2) (rejoin_coherent _ _)
  exact ⟨endState (extend (ctx tiny) 10 (seq 7 3)) edge7, ok_of_succeeds (by decide +kernel),
    key packed7_reach edge7_edged packed7_contains (by decide +kernel) (by decide +kernel) (s' := seven_and_three) (ok_of_succeeds (by decide +kernel))
      (small_of (by decide +kernel)) (ok_of_succeeds (by decide +kernel)) (by decide +kernel) (by decide +kernel)⟩

/-- Each of the blocks at the right edge is needed: without it, appending fails. -/
theorem C90_needed : ∀ n ∈ [4, 5, 6], errorOf (extend (ctx tiny) 10 (seq 7 3)) (hole [n] packed7) = some (.fail "not there") := by
  decide +kernel

/-- C90: three elements can be appended without packing if nothing of a tree of seven elements is left. -/
example : ∃ s1, extendUnpacked (ctx tiny) 10 (seq 7 3) (hole [0, 1, 2, 3, 4, 5, 6] packed7) = .ok () s1 ∧ s1.root = unpacked10.root := by
  have key : ∀ {s s' : St env} (ns : List Nat), Reach (ctx tiny) s → Small env s → extendUnpacked (ctx tiny) 10 (seq 7 3) s = .ok () s' →
      ∃ s1, extendUnpacked (ctx tiny) 10 (seq 7 3) (hole ns s) = .ok () s1 ∧ s1.root = s'.root := by
    intro s s' ns hr hs he
    obtain ⟨s1, _, h1, h2, _⟩ := C90_extendUnpacked tiny_ok hr hs (s2 := hole ns s) rfl rfl (hole_alike ns s) (hole_coherent tiny _ _) 10 _ he
    exact ⟨s1, h1, h2⟩
  exact key _ packed7_reach packed7_small unpacked10_ok

end Banyan
