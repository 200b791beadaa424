import Verif.Proofs.Grown
import Verif.Props.Edge
import Verif.Props.Pack
import Verif.Props.Append
/-
Packing needs only the blocks outside of the packed sealed subtrees: C91.
-/
set_option autoImplicit false
namespace Banyan

open PTree Concrete

variable {T : TreeTypes} {V : Type} {E : Env T V} {cx : Ctx E} {s s2 s' : St E} {c : List (Option (T.Key × V))} {t : PTree T V}

theorem Loosened.twin (h : Loosened cx s s2) (hco : Coherent E cx.sec s) :
    Twin E cx.sec (fun l b => E.get s.store l = .ok b ∧ E.get s2.store l = .ok b)
      ⟨s.puts, fun l b => E.get s.store l = .ok b⟩ s2.puts s s2 :=
  ⟨h.root, h.offset, ⟨[], by simp, by simp⟩, h.alike, fun _ _ h => h.1, fun _ _ h => h.2, fun _ _ _ h => .inl h, hco, h.coherent⟩

theorem Loosened.pack (ok : cx.Ok) (hr : Reach cx s) (hd : Loosened cx s s2) (fuel : Nat) (hf : rootLevel s.root < fuel)
    (hs : Small E (endState (Banyan.pack cx fuel) s)) :
    match Banyan.pack cx fuel s with
    | .ok _ s' => ∃ K' s2', Banyan.pack cx fuel s2 = .ok () s2' ∧
        Twin E cx.sec K' ⟨s.puts, fun l b => E.get s.store l = .ok b⟩ s2.puts s' s2' ∧ ∀ i, s'.root = some i → EdgeKnown E cx.sec K' i
    | .error e s' => ∃ K' s2', Banyan.pack cx fuel s2 = .error e s2' ∧
        Twin E cx.sec K' ⟨s.puts, fun l b => E.get s.store l = .ok b⟩ s2.puts s' s2' := by
  have hs0 : Small E s := ((frame0_pack ok.env fuel) s).1.small hs
  obtain ⟨t, hi⟩ := ok.inv hr hs0
  have htw := hd.twin hi.holds.coherent
  cases t with
  | some t =>
    have hl := hi.level_lt
    rw [hi.holds.level] at hl
    exact pack_both ok htw fuel t hi.holds hi.purge hf hl (hd.loose t hi.holds.shows) hs
  | none =>
    have hroot : s.root = none := hi.holds.root
    have key : ∀ s : St E, s.root = none → Banyan.pack cx fuel s = .ok () { s with root := none } := by
      intro s hs
      have e1 : Banyan.pack cx fuel s = (roots cx fuel >>= fun rs => packRoots cx fuel (snapshot cx s) rs) s := rfl
      have e2 : roots cx fuel s = .ok [] s := by
        show (match s.root with | some index => rootsImpl cx.sec fuel index | none => pure [] : M E (List (Index T))) s = _
        rw [hs]
        rfl
      have e3 : snapshot cx s = none := by unfold snapshot; rw [hs]; rfl
      rw [e1, bind_apply, e2, e3]
      rfl
    rw [key s hroot, key s2 (by rw [hd.root, hroot])]
    exact ⟨_, _, rfl, ⟨rfl, htw.offset, htw.puts, htw.alike, htw.left, htw.right, htw.new, Coherent.mono (fun _ _ h => h) rfl htw.co,
      Coherent.mono (fun _ _ h => h) rfl htw.co2⟩, fun i hi => by cases hi⟩

/-- C91: a builder that has only the blocks outside of the packed sealed subtrees can pack its tree. The result is the same tree as with
all blocks, and the same blocks are written. After that the builder has the blocks at the right edge of the packed tree, so it can go on
appending (C90). -/
theorem C91_pack (ok : cx.Ok) (hr : Reach cx s) (hd : Loosened cx s s2) (fuel : Nat) (hf : rootLevel s.root < fuel)
    (he : pack cx fuel s = .ok () s') (hs : Small E s') :
    ∃ s2' bs, pack cx fuel s2 = .ok () s2' ∧ s2'.root = s'.root ∧ s'.puts = s.puts ++ bs ∧ s2'.puts = s2.puts ++ bs ∧
      Edged cx s' s2' := by
  have h := hd.pack ok hr fuel hf (by unfold endState; rw [he]; exact hs)
  rw [he] at h
  obtain ⟨K', s2', h1, h2, h3⟩ := h
  obtain ⟨bs, h4, h5⟩ := h2.puts
  exact ⟨s2', bs, h1, h2.root, h4, h5, h2.edged h3⟩

/-- C91: if packing fails then it fails in the same way. -/
theorem C91_pack_fails (ok : cx.Ok) (hr : Reach cx s) (hd : Loosened cx s s2) (fuel : Nat) (hf : rootLevel s.root < fuel)
    {e : Err} (he : pack cx fuel s = .error e s') (hs : Small E s') :
    ∃ s2' bs, pack cx fuel s2 = .error e s2' ∧ s2'.root = s'.root ∧ s'.puts = s.puts ++ bs ∧ s2'.puts = s2.puts ++ bs := by
  have h := hd.pack ok hr fuel hf (by unfold endState; rw [he]; exact hs)
  rw [he] at h
  obtain ⟨K', s2', h1, h2⟩ := h
  obtain ⟨bs, h4, h5⟩ := h2.puts
  exact ⟨s2', bs, h1, h2.root, h4, h5⟩

/-- C91: the builder has packed the whole tree. In every store that has the blocks of the old tree and those of the builder that had only
the blocks outside of the packed sealed subtrees, all elements are found. -/
theorem C91_pack_joined (ok : cx.Ok) (hfr : Frugal E) (hr : Reach cx s) (hd : Loosened cx s s2) (hc : Contains cx s c) (fuel : Nat)
    (hf : rootLevel s.root < fuel) (he : pack cx fuel s = .ok () s') (hs : Small E s') {s2' s3 : St E} (he2 : pack cx fuel s2 = .ok () s2')
    (hroot : s3.root = s2'.root) (hold : StoreLe E s.store s3.store) (hnew : StoreLe E s2'.store s3.store) (hco : Coherent E cx.sec s3) :
    Contains cx s3 c := by
  have h := hd.pack ok hr fuel hf (by unfold endState; rw [he]; exact hs)
  rw [he] at h
  obtain ⟨K', s2'', h1, h2, _⟩ := h
  rw [he2] at h1
  cases h1
  have he' : s' = endState (pack cx fuel) s := by unfold endState; rw [he]
  exact contains_elsewhere ok (he' ▸ hr.run (.pack fuel (.refl s) hf)) hs (C03_pack_preserves ok hr fuel hf he hs hc)
    (hroot.trans h2.root) (fun l b hb => (h2.new hfr l b hb).elim (hold l b) fun hb => hnew l b (h2.right l b hb)) hco

/-- C91: the leaves outside of the packed sealed subtrees have exactly the elements behind them: no leaf with other elements is read. -/
theorem C91_leaves (ok : cx.Ok) (hr : Reach cx s) (hs : Small E s) (sh : Shows cx s t) :
    t.content = contents (t.rootsOf i32max).2 ++ contents (leavesOf (t.loose i32max)) := by
  obtain ⟨t0, hi⟩ := ok.inv hr hs
  cases t0 with
  | none => have := hi.holds.root; rw [sh.root] at this; cases this
  | some t0 =>
    obtain rfl := sh.unique ok.env hi.holds.shows
    have hl := hi.level_lt
    rw [hi.holds.level] at hl
    exact loose_leaves t i32max (purgeOk_of_le hi.purge (Int.le_refl _) hl)

/-- C91: for a packed tree these are the blocks at the right edge, so packing it again reads at most one block for each level. -/
theorem C91_packed (ok : cx.Ok) (hr : Reach cx s) (hs : Small E s) (sh : Shows cx s t) (hp : ReportsPacked cx s) :
    t.loose i32max = t.edge ∧ (t.loose i32max).length ≤ rootLevel s.root + 1 := by
  obtain ⟨t0, hi⟩ := ok.inv hr hs
  cases t0 with
  | none => have := hi.holds.root; rw [sh.root] at this; cases this
  | some t0 =>
    obtain rfl := sh.unique ok.env hi.holds.shows
    have hl := hi.level_lt
    rw [hi.holds.level] at hl
    rw [hi.holds.packed ok.env] at hp
    have h1 := loose_packed hp i32max hl
    exact ⟨h1, by rw [h1]; exact C90_levels ok hr hs sh⟩

/-- C91: elements can be added without packing, and after that the builder again has everything outside of the packed sealed subtrees. -/
theorem C91_extendUnpacked (ok : cx.Ok) (hr : Reach cx s) (hd : Loosened cx s s2) (fuel : Nat) (xs : List (T.Key × V))
    (he : extendUnpacked cx fuel xs s = .ok () s') (hs : Small E s') :
    ∃ s2' bs, extendUnpacked cx fuel xs s2 = .ok () s2' ∧ s2'.root = s'.root ∧ s'.puts = s.puts ++ bs ∧ s2'.puts = s2.puts ++ bs ∧
      Loosened cx s' s2' := by
  have hx := (frame0_extendUnpacked ok.env fuel xs).ok he
  obtain ⟨t0, hi⟩ := ok.inv hr (hx.small hs)
  have h := extendUnpacked_fresh ok.env (hd.twin hi.holds.coherent) fuel xs
  rw [he] at h
  obtain ⟨K', s2', h1, hk, h2, h3⟩ := h
  obtain ⟨bs, h4, h5⟩ := h2.puts
  refine ⟨s2', bs, h1, h2.root, h4, h5, h2.root, h2.offset, h2.alike, h2.co2, fun t sh => ?_⟩
  have old : ∀ t0, Shows cx s t0 → ∀ n ∈ t0.loose i32max, ∀ l, n.index.link = some l → ∃ b, K' l b := by
    intro t0 sh0 n hn l hl
    obtain ⟨b, hb⟩ := stored_block (sh0.stored n (loose_nodes t0 _ n hn)) hl
    exact ⟨b, hk l b ⟨hb, by rw [hd.loose t0 sh0 n hn l hl]; exact hb⟩⟩
  rcases h3 hs with ⟨-, e⟩ | ⟨-, i, e, ha⟩ | ⟨a, i, more, l, d, x, e0, e, k1, k2, k3, k4, k5⟩
  · cases t0 with
    | none => have := hi.holds.root; rw [← e, sh.root] at this; cases this
    | some t0 =>
      have e1 : t = t0 := Stored.unique ok.env sh.stored (hi.holds.shows.stored.mono hx.store)
        (Option.some.inj (by rw [← sh.root, e, hi.holds.shows.root]))
      subst e1
      intro n hn l hl
      obtain ⟨b, hb⟩ := old t hi.holds.shows n hn l hl
      rw [h2.left _ _ hb, h2.right _ _ hb]
  · rw [sh.root] at e
    exact sameBlocks_loose h2.left h2.right t sh.stored (Option.some.inj e ▸ ha) _
  · cases t0 with
    | none => have := hi.holds.root; rw [e0] at this; cases this
    | some t0 =>
      have hsh := hi.holds.shows
      have e1 : a = t0.index := Option.some.inj (by rw [← e0, hsh.root])
      subst e1
      have hl := hi.level_lt
      rw [hi.holds.level] at hl
      exact sameBlocks_appended h2.left h2.right (Option.some.inj (by rw [← e, sh.root])) sh.stored k1 k2 k3 k4 k5
        (fun c hc hci => Stored.unique ok.env hc (hsh.stored.mono hx.store) hci) hl (old t0 hsh)

/-- C91: of a packed tree, the right edge is enough. -/
theorem Edged.loosened (ok : cx.Ok) (hr : Reach cx s) (hs : Small E s) (hp : ReportsPacked cx s) (hd : Edged cx s s2) : Loosened cx s s2 :=
  ⟨hd.root, hd.offset, hd.alike, hd.coherent, fun t sh => by rw [(C91_packed ok hr hs sh hp).1]; exact hd.edge t sh⟩

/-- C91: the right edge is a part of it, so such a builder can do whatever a builder can do that has the right edge (C90). -/
theorem Loosened.edged (hd : Loosened cx s s2) : Edged cx s s2 :=
  ⟨hd.root, hd.offset, hd.alike, hd.coherent, fun t sh n hn => hd.loose t sh n (edge_loose t _ n hn)⟩

/-- C91: wherever `extend` succeeds, packed tree or not, it succeeds with the blocks outside of the packed sealed subtrees, and after that the builder
again has everything outside of the packed sealed subtrees. -/
theorem C91_extend (ok : cx.Ok) (hr : Reach cx s) (hd : Loosened cx s s2) (fuel : Nat) (xs : List (T.Key × V))
    (he : extend cx fuel xs s = .ok () s') (hs : Small E s') :
    ∃ s2' bs, extend cx fuel xs s2 = .ok () s2' ∧ s2'.root = s'.root ∧ s'.puts = s.puts ++ bs ∧ s2'.puts = s2.puts ++ bs ∧ Loosened cx s' s2' := by
  have hx := (frame0_extend ok.env fuel xs).ok he
  have hs0 := hx.small hs
  obtain ⟨t0, hi⟩ := ok.inv hr hs0
  have h := extend_grown ok.env (hd.twin hi.holds.coherent) fuel xs (hd.edged.known ok hr hs0).2
  rw [he] at h
  obtain ⟨K', s2', h1, hk, h2, h3⟩ := h
  obtain ⟨bs, h4, h5⟩ := h2.puts
  refine ⟨s2', bs, h1, h2.root, h4, h5, h2.root, h2.offset, h2.alike, h2.co2, fun t sh => ?_⟩
  have old : ∀ t0, Shows cx s t0 → ∀ n ∈ t0.loose i32max, ∀ l, n.index.link = some l → ∃ b, K' l b := by
    intro t0 sh0 n hn l hl
    obtain ⟨b, hb⟩ := stored_block (sh0.stored n (loose_nodes t0 _ n hn)) hl
    exact ⟨b, hk l b ⟨hb, by rw [hd.loose t0 sh0 n hn l hl]; exact hb⟩⟩
  rcases h3 hs with e | ⟨-, i, e, ha⟩ | ⟨a, i, e0, e, hg⟩
  · cases t0 with
    | none => have := hi.holds.root; rw [← e, sh.root] at this; cases this
    | some t0 =>
      have e1 : t = t0 := Stored.unique ok.env sh.stored (hi.holds.shows.stored.mono hx.store)
        (Option.some.inj (by rw [← sh.root, e, hi.holds.shows.root]))
      subst e1
      intro n hn l hl
      obtain ⟨b, hb⟩ := old t hi.holds.shows n hn l hl
      rw [h2.left _ _ hb, h2.right _ _ hb]
  · rw [sh.root] at e
    exact sameBlocks_loose h2.left h2.right t sh.stored (Option.some.inj e ▸ ha) _
  · cases t0 with
    | none => have := hi.holds.root; rw [e0] at this; cases this
    | some t0 =>
      have hsh := hi.holds.shows
      have hw : WF E t0 := (hi.holds.good t0 rfl).wf
      have k := (hg.loose ok.env h2.left (hsh.stored.mono hx.store) hw sh.stored (Option.some.inj (by rw [← hsh.root, e0]))
        (Option.some.inj (by rw [← sh.root, e]))).2 i32max
      intro n hn l hl
      have hb : ∃ b, K' l b := (k n hn).elim (fun h => h l hl) fun h => old t0 hsh n h l hl
      obtain ⟨b, hb⟩ := hb
      rw [h2.left _ _ hb, h2.right _ _ hb]

theorem Works.small (ok : cx.Ok) {ws : List (Work T V)} (hw : Works cx ws s s') (hs : Small E s') : Small E s := by
  induction hw with
  | nil s => exact hs
  | @cons w ws s s1 s' _ h1 _ ih =>
    cases w with
    | extend fuel xs => exact ((frame0_extend ok.env fuel xs).ok h1).small (ih hs)
    | extendUnpacked fuel xs => exact ((frame0_extendUnpacked ok.env fuel xs).ok h1).small (ih hs)
    | pack fuel => exact ((frame0_pack ok.env fuel).ok h1).small (ih hs)

/-- C91: a writer with nothing but the blocks outside of the packed sealed subtrees can go on forever: whatever sequence of operations succeeds
with all blocks succeeds for it, with the same tree as result, and the same blocks are written. It never needs any other old block. -/
theorem C91_history (ok : cx.Ok) (hr : Reach cx s) (hd : Loosened cx s s2) {ws : List (Work T V)} (hw : Works cx ws s s') (hs : Small E s') :
    ∃ s2' bs, performAll cx ws s2 = .ok () s2' ∧ s2'.root = s'.root ∧ s'.puts = s.puts ++ bs ∧ s2'.puts = s2.puts ++ bs ∧
      Loosened cx s' s2' := by
  induction hw generalizing s2 with
  | nil s => exact ⟨s2, [], rfl, hd.root, by simp, by simp, hd⟩
  | @cons w ws s s1 s' ha h1 h2 ih =>
    have hs1 := h2.small ok hs
    have e1 : s1 = endState (w.run cx) s := by unfold endState; rw [h1]
    have hr1 : Reach cx s1 := by
      rw [e1]
      cases w with
      | extend fuel xs => exact hr.run (.extend fuel xs (.refl s) ha.1 ha.2)
      | extendUnpacked fuel xs => exact hr.run (.extendUnpacked fuel xs (.refl s) ha.1 ha.2)
      | pack fuel => exact hr.run (.pack fuel (.refl s) ha)
    have step : ∃ s21 bs, w.run cx s2 = .ok () s21 ∧ s21.root = s1.root ∧ s1.puts = s.puts ++ bs ∧ s21.puts = s2.puts ++ bs ∧ Loosened cx s1 s21 := by
      cases w with
      | extend fuel xs => exact C91_extend ok hr hd fuel xs h1 hs1
      | extendUnpacked fuel xs => exact C91_extendUnpacked ok hr hd fuel xs h1 hs1
      | pack fuel =>
        obtain ⟨s21, bs, g1, g2, g3, g4, g5⟩ := C91_pack ok hr hd fuel ha h1 hs1
        exact ⟨s21, bs, g1, g2, g3, g4, g5.loosened ok hr1 hs1 (C04_pack_packs ok hr fuel ha h1 hs1)⟩
    obtain ⟨s21, bs, g1, g2, g3, g4, g5⟩ := step
    obtain ⟨s2', bs', k1, k2, k3, k4, k5⟩ := ih hr1 g5 hs
    refine ⟨s2', bs ++ bs', ?_, k2, by rw [k3, g3, List.append_assoc], by rw [k4, g4, List.append_assoc], k5⟩
    show (w.run cx >>= fun _ => performAll cx ws) s2 = _
    rw [bind_apply, g1]
    exact k1

/-- The blocks after an operation with all blocks: the old ones and those of the builder that does not have all blocks. -/
theorem Loosened.blocks (ok : cx.Ok) (hfr : Frugal E) (hr : Reach cx s) (hd : Loosened cx s s2) {w : Work T V} (ha : w.Allowed s)
    {s1 s21 : St E} (h1 : w.run cx s = .ok () s1) (hs : Small E s1) (h2 : w.run cx s2 = .ok () s21) :
    StoreLe E s2.store s21.store ∧ ∀ l b, E.get s1.store l = .ok b → E.get s.store l = .ok b ∨ E.get s21.store l = .ok b := by
  have key : ∀ {K : Known T} {p2 : List Bytes}, Twin E cx.sec K ⟨s.puts, fun l b => E.get s.store l = .ok b⟩ p2 s1 s21 →
      ∀ l b, E.get s1.store l = .ok b → E.get s.store l = .ok b ∨ E.get s21.store l = .ok b :=
    fun h l b hb => (h.new hfr l b hb).imp id (h.right l b)
  cases w with
  | extend fuel xs =>
    have hs0 := ((frame0_extend ok.env fuel xs).ok h1).small hs
    have he := hd.edged
    obtain ⟨hco, hk⟩ := he.known ok hr hs0
    have h := extend_both ok.env (he.twin hco) fuel xs hk
    rw [show extend cx fuel xs s = _ from h1] at h
    obtain ⟨K', s', g1, g2, _⟩ := h
    rw [show extend cx fuel xs s2 = _ from h2] at g1
    cases g1
    exact ⟨((frame0_extend ok.env fuel xs).ok h2).store, key g2⟩
  | extendUnpacked fuel xs =>
    have hs0 := ((frame0_extendUnpacked ok.env fuel xs).ok h1).small hs
    obtain ⟨t, hi⟩ := ok.inv hr hs0
    have h := extendUnpacked_fresh ok.env (hd.twin hi.holds.coherent) fuel xs
    rw [show extendUnpacked cx fuel xs s = _ from h1] at h
    obtain ⟨K', s', g1, _, g2, _⟩ := h
    rw [show extendUnpacked cx fuel xs s2 = _ from h2] at g1
    cases g1
    exact ⟨((frame0_extendUnpacked ok.env fuel xs).ok h2).store, key g2⟩
  | pack fuel =>
    have h := hd.pack ok hr fuel ha (by unfold endState; rw [show Banyan.pack cx fuel s = _ from h1]; exact hs)
    rw [show Banyan.pack cx fuel s = _ from h1] at h
    obtain ⟨K', s', g1, g2, _⟩ := h
    rw [show Banyan.pack cx fuel s2 = _ from h2] at g1
    cases g1
    exact ⟨((frame0_pack ok.env fuel).ok h2).store, key g2⟩

/-- C91: wherever the blocks that were there at the start and those of such a writer come together, the whole tree can be read: it has the content that
it has if all operations are done with all blocks (C01 to C03). -/
theorem C91_history_joined (ok : cx.Ok) (hfr : Frugal E) (hr : Reach cx s) (hd : Loosened cx s s2) {ws : List (Work T V)} (hw : Works cx ws s s')
    (hs : Small E s') (hc : Contains cx s' c) {s2' s3 : St E} (he2 : performAll cx ws s2 = .ok () s2') (hroot : s3.root = s2'.root)
    (hold : StoreLe E s.store s3.store) (hnew : StoreLe E s2'.store s3.store) (hco : Coherent E cx.sec s3) : Contains cx s3 c := by
  have main : Reach cx s' ∧ s2'.root = s'.root ∧ StoreLe E s2.store s2'.store ∧
      ∀ l b, E.get s'.store l = .ok b → E.get s.store l = .ok b ∨ E.get s2'.store l = .ok b := by
    clear hold hc
    induction hw generalizing s2 with
    | nil s => cases he2; exact ⟨hr, hd.root, StoreLe.refl _, fun l b h => .inl h⟩
    | @cons w ws s s1 s' ha h1 h2 ih =>
      have hs1 := h2.small ok hs
      obtain ⟨s21, _, g1, _, _, _, g5⟩ := C91_history ok hr hd (.cons ha h1 (.nil s1)) hs1
      have g1' : w.run cx s2 = .ok () s21 := by
        have e : performAll cx [w] s2 = (w.run cx >>= fun _ => pure ()) s2 := rfl
        rw [e, bind_apply] at g1
        cases hx : w.run cx s2 with
        | ok a x => rw [hx] at g1; cases g1; rfl
        | error a x => rw [hx] at g1; cases g1
      have e : performAll cx (w :: ws) s2 = (w.run cx >>= fun _ => performAll cx ws) s2 := rfl
      rw [e, bind_apply, g1'] at he2
      have e1 : s1 = endState (w.run cx) s := by unfold endState; rw [h1]
      have hr1 : Reach cx s1 := by
        rw [e1]
        cases w with
        | extend fuel xs => exact hr.run (.extend fuel xs (.refl s) ha.1 ha.2)
        | extendUnpacked fuel xs => exact hr.run (.extendUnpacked fuel xs (.refl s) ha.1 ha.2)
        | pack fuel => exact hr.run (.pack fuel (.refl s) ha)
      obtain ⟨k0, k1, k2, k3⟩ := ih hr1 g5 hs he2
      obtain ⟨m1, m2⟩ := hd.blocks ok hfr hr ha h1 hs1 g1'
      exact ⟨k0, k1, m1.trans k2, fun l b hb => (k3 l b hb).elim (fun hb => (m2 l b hb).imp id (k2 l b)) .inr⟩
  obtain ⟨k0, k1, k2, k3⟩ := main
  exact contains_elsewhere ok k0 hs hc (hroot.trans k1) (fun l b hb => (k3 l b hb).elim (hold l b) (hnew l b)) hco

/-! ### a concrete case -/

/-- Whether the blocks outside of the packed sealed subtrees of a loaded tree are not lost. -/
def looseLeft (ns : List Nat) (s : St env) : Bool :=
  match loaded tiny s with
  | some t => (t.loose i32max).all fun n => match n.index.link with
    | some (l : Nat) => decide ((punch ns s.store).blocks[l]? = s.store.blocks[l]?)
    | none => true
  | none => false

theorem hole_loosened {s : St env} (hr : Reach (ctx tiny) s) (hs : Small env s) (ns : List Nat) (h : looseLeft ns s = true) :
    Loosened (ctx tiny) s (hole ns s) := by
  refine ⟨rfl, rfl, hole_alike ns s, hole_coherent tiny _ _, fun t sh => ?_⟩
  unfold looseLeft at h
  cases ht : loaded tiny s with
  | none => rw [ht] at h; cases h
  | some t' =>
    obtain rfl := sh.unique tiny_ok.env (shows_of_loaded tiny_ok hr hs ht)
    rw [ht] at h
    intro n hn l hl
    have h2 := List.all_eq_true.1 h n hn
    rw [hl] at h2
    have h3 : ∀ (a b : Store) (l : Nat), a.blocks[l]? = b.blocks[l]? → a.get l = b.get l := by
      intro a b l h
      unfold Store.get
      rw [h]
    exact h3 _ _ l (of_decide_eq_true h2)

/-- Ten elements, not packed, without the leaves with the first six of them and the branches above these. -/
def loose10 : St env := hole [0, 1, 2, 3] unpacked10

theorem loose10_loosened : Loosened (ctx tiny) unpacked10 loose10 :=
  hole_loosened unpacked10_reach unpacked10_small _ (by decide +kernel)

/-- Ten elements, packed. -/
def packed10 : St env := endState (pack (ctx tiny) 10) unpacked10

/-- C91: ten elements are packed where four blocks are lost, with the same result as if they were there, and then five are appended. -/
example : ∃ s1 s2, pack (ctx tiny) 10 loose10 = .ok () s1 ∧ s1.root = packed10.root ∧
    extend (ctx tiny) 10 (seq 10 5) s1 = .ok () s2 ∧ s2.root = (endState (extend (ctx tiny) 10 (seq 10 5)) packed10).root := by
  have key : ∀ {s s2 s' s'' : St env}, Reach (ctx tiny) s → Loosened (ctx tiny) s s2 → rootLevel s.root < 10 →
      pack (ctx tiny) 10 s = .ok () s' → Small env s' → extend (ctx tiny) 10 (seq 10 5) s' = .ok () s'' →
      ∃ s1 s2', pack (ctx tiny) 10 s2 = .ok () s1 ∧ s1.root = s'.root ∧ extend (ctx tiny) 10 (seq 10 5) s1 = .ok () s2' ∧ s2'.root = s''.root := by
    intro s s2 s' s'' hr hd hl he hs he2
    obtain ⟨s1, _, h1, h2, _, _, h3⟩ := C91_pack tiny_ok hr hd 10 hl he hs
    have hr' : Reach (ctx tiny) s' := by
      have e : s' = endState (pack (ctx tiny) 10) s := by unfold endState; rw [he]
      exact e ▸ hr.run (.pack 10 (.refl s) hl)
    obtain ⟨s2', _, g1, g2, _⟩ := C90_extend tiny_ok hr' hs h3 10 (seq 10 5) he2
    exact ⟨s1, s2', h1, h2, g1, g2⟩
  exact key unpacked10_reach loose10_loosened (by decide +kernel) (s' := packed10) (ok_of_succeeds (by decide +kernel))
    (small_of (by decide +kernel)) (ok_of_succeeds (by decide +kernel))

/-- The tree was not packed before. -/
example : valueOf (Tree.isPacked 100 (snapshot (ctx tiny) unpacked10)) unpacked10 = some false := by decide +kernel

/-- C91: where four of eleven blocks are lost, four elements are appended to the unpacked tree, with the same result as if they were there. The tree is
still not packed then. And then it is packed. -/
example : ∃ s1 s2, extend (ctx tiny) 10 (seq 10 4) loose10 = .ok () s1 ∧ s1.root = (endState (extend (ctx tiny) 10 (seq 10 4)) unpacked10).root ∧
    pack (ctx tiny) 10 s1 = .ok () s2 ∧ rootCount s2.root = 14 := by
  have key : ∀ {s s2 s' s'' : St env}, Reach (ctx tiny) s → Loosened (ctx tiny) s s2 → rootLevel s.root < 10 → rootCount s.root + 4 ≤ maxElements →
      extend (ctx tiny) 10 (seq 10 4) s = .ok () s' → Small env s' → rootLevel s'.root < 10 → pack (ctx tiny) 10 s' = .ok () s'' → Small env s'' →
      ∃ s1 s2', extend (ctx tiny) 10 (seq 10 4) s2 = .ok () s1 ∧ s1.root = s'.root ∧ pack (ctx tiny) 10 s1 = .ok () s2' ∧ s2'.root = s''.root := by
    intro s s2 s' s'' hr hd hl hc he hs hl' he2 hs2
    obtain ⟨s1, _, h1, h2, _, _, h3⟩ := C91_extend tiny_ok hr hd 10 (seq 10 4) he hs
    have hr' : Reach (ctx tiny) s' := by
      have e : s' = endState (extend (ctx tiny) 10 (seq 10 4)) s := by unfold endState; rw [he]
      exact e ▸ hr.run (.extend 10 _ (.refl s) hl hc)
    obtain ⟨s2', _, g1, g2, _⟩ := C91_pack tiny_ok hr' h3 10 hl' he2 hs2
    exact ⟨s1, s2', h1, h2, g1, g2⟩
  obtain ⟨s1, s2, h1, h2, h3, h4⟩ := key (s' := endState (extend (ctx tiny) 10 (seq 10 4)) unpacked10)
    (s'' := endState (pack (ctx tiny) 10) (endState (extend (ctx tiny) 10 (seq 10 4)) unpacked10)) unpacked10_reach loose10_loosened (by decide +kernel)
    (by decide +kernel) (ok_of_succeeds (by decide +kernel)) (small_of (by decide +kernel)) (by decide +kernel) (ok_of_succeeds (by decide +kernel))
    (small_of (by decide +kernel))
  exact ⟨s1, s2, h1, h2, h3, by rw [h4]; decide +kernel⟩

example : let s := endState (extend (ctx tiny) 10 (seq 10 4)) unpacked10
    valueOf (Tree.isPacked 100 (snapshot (ctx tiny) s)) s = some false := by decide +kernel

/-- C91: together with the lost blocks these are the ten elements. -/
example : ∃ s1, pack (ctx tiny) 10 loose10 = .ok () s1 ∧ Contains (ctx tiny) (rejoin unpacked10 s1) ((seq 0 10).map some) := by
  have key : ∀ {s s2 s' s2' : St env} {c : List (Option (Nat × Nat))}, Reach (ctx tiny) s → Loosened (ctx tiny) s s2 → Contains (ctx tiny) s c →
      rootLevel s.root < 10 → pack (ctx tiny) 10 s = .ok () s' → Small env s' → pack (ctx tiny) 10 s2 = .ok () s2' →
      within s.store (rejoin s s2').store = true → within s2'.store (rejoin s s2').store = true → Contains (ctx tiny) (rejoin s s2') c := by
    intro s s2 s' s2' c hr hd hc hf he hs he2 h1 h2
    exact C91_pack_joined tiny_ok env_frugal hr hd hc 10 hf he hs he2 rfl (within_le h1) (within_le h2) (rejoin_coherent _ _)
  exact ⟨endState (pack (ctx tiny) 10) loose10, ok_of_succeeds (by decide +kernel),
    key unpacked10_reach loose10_loosened unpacked10_contains (by decide +kernel) (s' := packed10) (ok_of_succeeds (by decide +kernel))
      (small_of (by decide +kernel)) (ok_of_succeeds (by decide +kernel)) (by decide +kernel) (by decide +kernel)⟩

/-- C91: starting with four of eleven blocks lost, three elements are added without packing, the tree is packed, five are appended, two are
added without packing, and the tree is packed again. The tree has all twenty elements. -/
example : let ws : List (Work types Nat) := [.extendUnpacked 10 (seq 10 3), .pack 10, .extend 10 (seq 13 5), .extendUnpacked 10 (seq 18 2), .pack 10]
    ∃ s1, performAll (ctx tiny) ws loose10 = .ok () s1 ∧ s1.root = (endState (performAll (ctx tiny) ws) unpacked10).root ∧ rootCount s1.root = 20 := by
  intro ws
  have key : ∀ {s s2 a b c d e : St env}, Reach (ctx tiny) s → Loosened (ctx tiny) s s2 →
      extendUnpacked (ctx tiny) 10 (seq 10 3) s = .ok () a → pack (ctx tiny) 10 a = .ok () b → extend (ctx tiny) 10 (seq 13 5) b = .ok () c →
      extendUnpacked (ctx tiny) 10 (seq 18 2) c = .ok () d → pack (ctx tiny) 10 d = .ok () e →
      rootLevel s.root < 10 ∧ rootCount s.root + 3 ≤ maxElements → rootLevel a.root < 10 → rootLevel b.root < 10 ∧ rootCount b.root + 5 ≤ maxElements →
      rootLevel c.root < 10 ∧ rootCount c.root + 2 ≤ maxElements → rootLevel d.root < 10 → Small env e →
      ∃ s1, performAll (ctx tiny) ws s2 = .ok () s1 ∧ s1.root = e.root ∧ e = endState (performAll (ctx tiny) ws) s := by
    intro s s2 a b c d e hr hd h1 h2 h3 h4 h5 k1 k2 k3 k4 k5 he
    obtain ⟨s1, _, g1, g2, _⟩ := C91_history tiny_ok hr hd (ws := ws)
      (.cons k1 h1 (.cons k2 h2 (.cons k3 h3 (.cons k4 h4 (.cons k5 h5 (.nil e)))))) he
    refine ⟨s1, g1, g2, ?_⟩
    have : performAll (ctx tiny) ws s = .ok () e := by
      simp only [ws, performAll, Work.run, bind_apply, h1, h2, h3, h4, h5]
      rfl
    unfold endState
    rw [this]
  let a := endState (extendUnpacked (ctx tiny) 10 (seq 10 3)) unpacked10
  let b := endState (pack (ctx tiny) 10) a
  let c := endState (extend (ctx tiny) 10 (seq 13 5)) b
  let d := endState (extendUnpacked (ctx tiny) 10 (seq 18 2)) c
  obtain ⟨s1, g1, g2, g3⟩ := key (a := a) (b := b) (c := c) (d := d) (e := endState (pack (ctx tiny) 10) d) unpacked10_reach loose10_loosened
    (ok_of_succeeds (by decide +kernel)) (ok_of_succeeds (by decide +kernel)) (ok_of_succeeds (by decide +kernel)) (ok_of_succeeds (by decide +kernel))
    (ok_of_succeeds (by decide +kernel)) (by decide +kernel) (by decide +kernel) (by decide +kernel) (by decide +kernel) (by decide +kernel)
    (small_of (by decide +kernel))
  exact ⟨s1, g1, g3 ▸ g2, by rw [g2]; decide +kernel⟩

/-- Each of the other blocks is needed: without it, packing fails. -/
theorem C91_needed : ∀ n ∈ [4, 5, 6, 7, 8, 9, 10], errorOf (pack (ctx tiny) 10) (hole [n] unpacked10) = some (.fail "not there") := by
  decide +kernel

end Banyan
