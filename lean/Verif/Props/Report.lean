import Verif.Proofs.Report
import Verif.Props.Repair
import Verif.Props.Shape
/-
The report of `repair`: C77.
-/
set_option autoImplicit false
namespace Banyan

open PTree Concrete

variable {T : TreeTypes} {V : Type} {E : Env T V} {cx : Ctx E} {s d s' : St E} {report : List (RepairMsg T)}

/-- C77: the report lists exactly the topmost nodes whose blocks cannot be read, in the order of the tree, each one with its
link. A warning follows exactly if the node is unsealed, or if an unsealed node that is not above it comes before it. The
blocks that `repair` writes are assumed to be new ones: none of them is one of the lost blocks (this holds for links that
are hashes, since every block begins with its own cipher offset). -/
theorem C77_exact (ok : cx.Ok) (hr : Reach cx s) (hd : Damaged cx s d) (fuel : Nat) (hf : rootLevel s.root < fuel)
    (he : repair cx fuel d = .ok report s') (hs : Small E s') {t : PTree T V} (ht : Shows cx s t) (lost : T.Link → Bool)
    (hlost : ∀ x ∈ t.nodes, ∀ l, x.index.link = some l → (lost l = true ↔ ∀ b, E.get d.store l ≠ .ok b))
    (hnew : ∀ x ∈ t.nodes, ∀ l b, x.index.link = some l → E.get s'.store l = .ok b → ∃ b', E.get d.store l = .ok b') :
    report = expectedReport lost [] (t.found lost) := by
  have hx := (frame0_repair (cx := cx) ok.env fuel).ok he
  obtain ⟨u, hi⟩ := ok.inv hr (hd.small (hx.small hs))
  obtain rfl := hi.shows ok.env ht
  have hroot : d.root = some t.index := by rw [hd.root, ht.root]
  rw [repair_eq hroot] at he
  cases h0 : repair0 cx fuel t.index [] i32max d with
  | error e s1 => rw [h0] at he; cases he
  | ok r s1 =>
    rw [h0] at he
    cases he
    have hav : ∀ τ, PutsTo E d.store τ → PutsTo E τ s1.store → ∀ x ∈ t.nodes, ∀ lk, x.index.link = some lk →
        (lost lk = true ↔ ∀ b, E.get τ lk ≠ .ok b) := by
      intro τ h1 h2 x hx lk hlk
      rw [hlost x hx lk hlk]
      constructor
      · intro h b hb
        obtain ⟨b', hb'⟩ := hnew x hx lk b hlk (h2.le ok.env lk b hb)
        exact h b' hb'
      · intro h b hb
        exact h b (h1.le ok.env lk b hb)
    obtain ⟨k1, _⟩ := repair0_report hd.same fuel t [] i32max d s1 r ht.stored hav .refl .refl h0
    rw [k1, List.nil_append]
    have hlev := hi.level
    have hcnt := hi.count
    rw [ht.root] at hlev
    have hm : maxElements = 2147483645 := rfl
    have h32 : i32max = 2147483647 := rfl
    have hlev : t.index.level ≤ (optContent (some t)).length + 1 := hlev
    refine walkMsgs_expected lost i32max [] _ t.index.level ?_ ?_
    · intro x hx
      obtain ⟨n, hn, rfl⟩ := found_mem lost t x hx
      exact nodes_level (hi.holds.good t rfl).counts n hn
    · intro n hn
      constructor
      · intro h; omega
      · rintro ⟨y, hy, _⟩; simp at hy

/-- C77: the report for a packed tree has no warnings about an unpacked part. -/
theorem C77_packed (ok : cx.Ok) (hr : Reach cx s) (hp : ReportsPacked cx s) (hd : Damaged cx s d) (fuel : Nat) (hf : rootLevel s.root < fuel)
    (he : repair cx fuel d = .ok report s') (hs : Small E s') {t : PTree T V} (ht : Shows cx s t)
    (hnew : ∀ x ∈ t.nodes, ∀ l b, x.index.link = some l → E.get s'.store l = .ok b → ∃ b', E.get d.store l = .ok b') :
    NoUnpacked report := by
  have hx := (frame0_repair (cx := cx) ok.env fuel).ok he
  obtain ⟨u, hi⟩ := ok.inv hr (hd.small (hx.small hs))
  obtain rfl := hi.shows ok.env ht
  rw [hi.holds.packed ok.env] at hp
  have hg := hi.holds.good t rfl
  classical
  rw [C77_exact ok hr hd fuel hf he hs ht (fun l => decide (∀ b, E.get d.store l ≠ .ok b)) (by simp) hnew]
  exact packed_noUnpacked hp hg.wf hg.counts [] (by simp)

/-! ### examples -/

/-- A node with a link has a block. -/
theorem Shows.block {t : PTree T V} (ht : Shows cx s t) : ∀ x ∈ t.nodes, ∀ l, x.index.link = some l → ∃ b, E.get s.store l = .ok b := by
  intro x hx l hl
  have h0 := ht.stored x hx
  have key : ∃ b, getBlock E s.store l = .ok b := by
    cases x with
    | purgedLeaf i => cases (show i.link = none from h0).symm.trans hl
    | purgedBranch i => cases (show i.link = none from h0).symm.trans hl
    | leaf i vs =>
      obtain ⟨l', z, r, h1, h2, h3⟩ := h0
      cases h1.symm.trans hl
      unfold loadLeafFromLink at h2
      cases hb : getBlock E s.store l with
      | error e => rw [hb] at h2; cases h2
      | ok b => exact ⟨b, rfl⟩
    | branch i cs =>
      obtain ⟨l', r, h1, h2⟩ := h0
      cases h1.symm.trans hl
      unfold loadBranchFromLink at h2
      cases hb : getBlock E s.store l with
      | error e => rw [hb] at h2; cases h2
      | ok b => exact ⟨b, rfl⟩
  obtain ⟨b, hb⟩ := key
  exact ⟨b, getBlock_eq.mp hb⟩

/-- The concrete store never overwrites a lost block. -/
theorem hole_new {ns : List Nat} {s s' : St env} {fuel : Nat} {r : List (RepairMsg types)} {t : PTree types Nat}
    (ht : Shows (ctx tiny) s t) (he : repair (ctx tiny) fuel (hole ns s) = .ok r s') :
    ∀ x ∈ t.nodes, ∀ l b, x.index.link = some l → env.get s'.store l = .ok b → ∃ b', env.get (hole ns s).store l = .ok b' := by
  intro x hx l b hl hb
  obtain ⟨b0, h0⟩ := ht.block x hx l hl
  have hroot : (hole ns s).root = some t.index := ht.root
  rw [repair_eq hroot] at he
  cases h1 : repair0 (ctx tiny) fuel t.index [] i32max (hole ns s) with
  | error e s1 => rw [h1] at he; cases he
  | ok r1 s1 =>
    rw [h1] at he
    cases he
    obtain ⟨more, hm⟩ := puts_blocks ((OnlyPuts.repair0 _ _ _ _).ok h1).1
    have hb' : (Store.blocks (show Store from s1.store))[(show Nat from l)]? = some (some b) := get_some.mp hb
    have h0' : (Store.blocks (show Store from s.store))[(show Nat from l)]? = some (some b0) := get_some.mp h0
    have hlen : (show Nat from l) < (Store.blocks (show Store from (hole ns s).store)).length := by
      show _ < (punch ns s.store).blocks.length
      unfold punch
      simp only
      rw [punch_length]
      exact (List.getElem?_eq_some_iff.mp h0').1
    rw [hm, List.getElem?_append_left hlen] at hb'
    exact ⟨b, get_some.mpr hb'⟩

/-- Three blocks of the tree of ten elements are lost: a branch in the packed part, the unsealed leaf at its end, and a leaf
that was added without packing. -/
theorem lost247 : repair (ctx tiny) 10 (hole [2, 4, 7] unpacked10) = .ok [.forgetBranch (some (2 : Nat)), .forgetLeaf (some (4 : Nat)),
    .warnUnsealedLeaf, .forgetLeaf (some (7 : Nat)), .warnUnpackedLeaf] (repaired [2, 4, 7] unpacked10) :=
  repaired_ok (by decide +kernel)

theorem isOk_false {ε α : Type} {x : Except ε α} : x.isOk = false ↔ ∀ b, x ≠ .ok b := by
  cases x <;> simp [Except.isOk, Except.toBool]

/-- Some blocks are given up. -/
def among (ns : List Nat) (l : types.Link) : Bool := decide ((show Nat from l) ∈ ns)

/-- Whether these blocks are exactly the ones that are lost. -/
def lostCheck (ns : List Nat) (σ : env.σ) : Option (PTree types Nat) → Bool
  | some t =>
    t.nodes.all (fun x => match x.index.link with
      | some l => among ns l == !(env.get σ l).isOk
      | none => true)
  | none => false

theorem lostCheck_spec {ns : List Nat} {σ : env.σ} {t : PTree types Nat} (h : lostCheck ns σ (some t) = true) :
    ∀ x ∈ t.nodes, ∀ l, x.index.link = some l → (among ns l = true ↔ ∀ b, env.get σ l ≠ .ok b) := by
  intro x hx l hl
  have h2 := List.all_eq_true.mp h x hx
  rw [hl] at h2
  rw [← isOk_false, eq_of_beq h2, Bool.not_eq_true']

example : ∃ t : PTree types Nat, Shows (ctx tiny) unpacked10 t ∧ expectedReport (among [2, 4, 7]) [] (t.found (among [2, 4, 7])) =
    [.forgetBranch (some (2 : Nat)), .forgetLeaf (some (4 : Nat)), .warnUnsealedLeaf, .forgetLeaf (some (7 : Nat)), .warnUnpackedLeaf] := by
  have h1 : lostCheck [2, 4, 7] (hole [2, 4, 7] unpacked10).store (loaded tiny unpacked10) = true := by decide +kernel
  cases ht : loaded tiny unpacked10 with
  | none => rw [ht] at h1; cases h1
  | some t =>
    rw [ht] at h1
    have st := shows_of_loaded tiny_ok unpacked10_reach unpacked10_small ht
    exact ⟨t, st, (C77_exact (cx := ctx tiny) (s := unpacked10) (d := hole [2, 4, 7] unpacked10) tiny_ok unpacked10_reach
      (hole_damaged tiny [2, 4, 7] unpacked10) 10 (by decide +kernel) lost247 (small_of (by decide +kernel)) st (among [2, 4, 7])
      (lostCheck_spec h1) (hole_new st lost247)).symm⟩

/-- Two blocks of the packed tree of seven elements are lost: a branch and the unsealed leaf at the end. -/
theorem lost24 : repair (ctx tiny) 10 (hole [2, 4] packed7) = .ok [.forgetBranch (some (2 : Nat)), .forgetLeaf (some (4 : Nat)),
    .warnUnsealedLeaf] (repaired [2, 4] packed7) := repaired_ok (by decide +kernel)

example : NoUnpacked [.forgetBranch (some (2 : Nat)), .forgetLeaf (some (4 : Nat)), (.warnUnsealedLeaf : RepairMsg types)] := by
  have h1 : (loaded tiny packed7).isSome = true := by decide +kernel
  cases ht : loaded tiny packed7 with
  | none => rw [ht] at h1; cases h1
  | some t =>
    have st := shows_of_loaded tiny_ok packed7_reach packed7_small ht
    exact C77_packed (cx := ctx tiny) (s := packed7) (d := hole [2, 4] packed7) tiny_ok packed7_reach packed7_packed
      (hole_damaged tiny [2, 4] packed7) 10 (by decide +kernel) lost24 (small_of (by decide +kernel)) st (hole_new st lost24)

end Banyan
