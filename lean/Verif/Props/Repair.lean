import Verif.Proofs.NodeInvs
import Verif.Props.Pack
import Verif.Props.Read
import Verif.Props.Append
import Verif.Props.Cache
import Verif.Concrete.Hole
/-
Repair: C19, C20, C27, C58, C61.
-/
set_option autoImplicit false
namespace Banyan

open PTree Concrete

variable {T : TreeTypes} {V : Type} {E : Env T V} {cx : Ctx E} {s d s' : St E} {c : List (Option (T.Key × V))} {report : List (RepairMsg T)}

theorem Damaged.small (hd : Damaged cx s d) (h : Small E d) : Small E s := by
  unfold Small at *
  rwa [← hd.written]

/-- Both cases of `repair_ok`, seen from outside, for some invariant of the nodes. -/
theorem repair_cases_inv (ok : cx.Ok) {I : NodeInv cx} (hI : I.Rewrites) {t : Option (PTree T V)} (hi : Inv I s t) (hd : Damaged cx s d)
    (fuel : Nat) (hf : rootLevel s.root < fuel) (he : repair cx fuel d = .ok report s') (hs : Small E s') :
    (s.root = none ∧ report = [] ∧ s' = d) ∨ ∃ t t', Shows cx s t ∧ Good I s.store t ∧ s'.root = some t'.index ∧
      Mended I s'.store t' ∧ Repaired E d.store t t' report ∧ Sane E cx.sec s' := by
  rcases repair_ok ok.env ok.types ok.cfg hI hi.holds hd hf he hs with ⟨rfl, rfl, rfl⟩ | ⟨t0, t', rfl, k1, k2, k3, k4, k5⟩
  · exact .inl ⟨hi.holds.root, rfl, rfl⟩
  · exact .inr ⟨t0, t', hi.holds.shows, hi.holds.good t0 rfl, k1, k2, k3, hd.sane k4 k5⟩

/-- Both cases of `repair_ok`, seen from outside. -/
theorem repair_cases (ok : cx.Ok) (hr : Reach cx s) (hd : Damaged cx s d) (fuel : Nat) (hf : rootLevel s.root < fuel)
    (he : repair cx fuel d = .ok report s') (hs : Small E s') :
    (s.root = none ∧ report = [] ∧ s' = d) ∨ ∃ t t', Shows cx s t ∧ Good (NodeInv.trivial cx) s.store t ∧ s'.root = some t'.index ∧
      Mended (NodeInv.trivial cx) s'.store t' ∧ Repaired E d.store t t' report ∧ Sane E cx.sec s' := by
  have hx := (frame0_repair (cx := cx) ok.env fuel).ok he
  obtain ⟨t, hi⟩ := ok.inv hr (hd.small (hx.small hs))
  exact repair_cases_inv ok (NodeInv.trivial_rewrites cx) hi hd fuel hf he hs

/-! ### C19 -/

/-- C19 for stores that lose blocks but never return wrong ones: after a successful `repair` the whole tree can be read,
every position holds what it held before the damage or nothing, and if all blocks needed to read a position are there,
the position keeps its element. The branch cache may be warm, and may hold branches whose blocks are lost.

Missing for the full claim: stores that return wrong bytes (`C19_refuted`). -/
theorem C19_readable_partial (ok : cx.Ok) (hr : Reach cx s) (hd : Damaged cx s d) (fuel : Nat) (hf : rootLevel s.root < fuel)
    (he : repair cx fuel d = .ok report s') (hs : Small E s') (hc : Contains cx s c) :
    ∃ c', Contains cx s' c' ∧ c'.length = c.length ∧
      (∀ n, Yields (fun fuel t => Tree.get fuel t n) (snapshot cx s') s' (c'[n]?.join)) ∧
      (∀ n : Nat, c'[n]? = c[n]? ∨ c'[n]? = some none) ∧
      (∀ t, Shows cx s t → ∀ n : Nat, (∀ l ∈ t.pathTo n, ∃ b, E.get d.store l = .ok b) → c'[n]? = c[n]?) := by
  have hx := (frame0_repair (cx := cx) ok.env fuel).ok he
  obtain ⟨t, hi⟩ := ok.inv hr (hd.small (hx.small hs))
  rw [hi.holds.contains ok.env ok.types] at hc
  subst hc
  rcases repair_cases ok hr hd fuel hf he hs with ⟨k1, rfl, rfl⟩ | ⟨t0, t', k1, k2, k3, k4, k5, k6⟩
  · have ht : t = none := by
      have := hi.holds.root
      rw [k1] at this
      cases t with
      | none => rfl
      | some t => cases this
    subst ht
    have hroot : s'.root = none := by rw [hd.root, k1]
    refine ⟨[], ?_, rfl, ?_, fun _ => .inl rfl, fun _ _ _ _ => rfl⟩
    · intro fuel _
      unfold Tree.collect Tree.collectFrom snapshot
      rw [hroot]
      exact ⟨s', rfl⟩
    · intro n fuel _
      unfold Tree.get snapshot
      rw [hroot]
      exact ⟨s', rfl⟩
  · obtain ⟨u, rfl⟩ : ∃ u, t = some u := by
      cases t with
      | none => have := k1.root; rw [hi.holds.root] at this; cases this
      | some u => exact ⟨u, rfl⟩
    obtain rfl := k1.unique ok.env hi.holds.shows
    have hlen : t'.content.length = t0.content.length := by
      rw [content_length ok.types k2.counts, content_length ok.types k4.counts, unlink_count k5.unlink]
    refine ⟨t'.content, ?_, hlen, ?_, ?_, ?_⟩
    · intro fuel hf
      rw [snapshot_level, k3] at hf
      unfold Tree.collect Tree.collectFrom snapshot
      rw [k3]
      obtain ⟨γ, _, h2⟩ := collect0_readsP ok.env ok.types (sane_serves ok.env cx.sec) fuel t' 0 [] s' k4.stored k4.counts k6 hf
      exact ⟨_, by simpa using h2⟩
    · intro n fuel hf
      rw [snapshot_level, k3] at hf
      unfold Tree.get snapshot
      rw [k3]
      obtain ⟨γ, _, h2⟩ := get0_readsP ok.env ok.types (sane_serves ok.env cx.sec) fuel t' n s' k4.stored k4.counts k6 hf
      exact ⟨_, h2⟩
    · intro n
      rcases k5.pos n with h | h
      · exact .inl h
      · exact .inr h.1
    · intro t ht n hp
      obtain rfl := ht.unique ok.env hi.holds.shows
      rcases k5.pos n with h | ⟨_, l, hl, hfg⟩
      · exact h
      · obtain ⟨b, hb⟩ := hp l hl
        exact absurd hb ((k5.bad l hfg).2 b)

/-- C28 for `repair`: whatever blocks are lost, the count stays the same. -/
theorem C28_repair_count (ok : cx.Ok) (hr : Reach cx s) (hd : Damaged cx s d) (fuel : Nat) (hf : rootLevel s.root < fuel)
    (he : repair cx fuel d = .ok report s') (hs : Small E s') : rootCount s'.root = rootCount s.root := by
  rcases repair_cases ok hr hd fuel hf he hs with ⟨k1, _, rfl⟩ | ⟨t0, t', k1, _, k3, _, k5, _⟩
  · rw [hd.root]
  · rw [k1.root, k3]
    exact unlink_count k5.unlink

/-! ### C20 -/

/-- C20: repairing an intact tree reports nothing, writes nothing and changes nothing at all. -/
theorem C20_intact (ok : cx.Ok) (hr : Reach cx s) (hs : Small E s) (fuel : Nat) (hf : rootLevel s.root < fuel) :
    repair cx fuel s = .ok [] s := by
  obtain ⟨t, hi⟩ := ok.inv hr hs
  cases t with
  | none =>
    have : s.root = none := hi.holds.root
    unfold repair
    rw [bind_apply]
    simp only [getIndex, this]
    rfl
  | some t =>
    have hroot : s.root = some t.index := hi.holds.root
    rw [hi.holds.level] at hf
    rw [repair_eq hroot]
    obtain ⟨l', h0⟩ := repair0_intact fuel t [] i32max s (hi.holds.good t rfl).stored (hi.holds.good t rfl).counts hf
    rw [h0]
    show EStateM.Result.ok [] { s with root := some t.index } = _
    rw [← hroot]

/-- C20: also if other blocks than those of the tree are lost. -/
theorem C20_all_blocks_available (ok : cx.Ok) (hr : Reach cx s) (hs : Small E s) (hd : Damaged cx s d) (fuel : Nat) (hf : rootLevel s.root < fuel)
    {t : PTree T V} (ht : Shows cx s t) (ha : ∀ x ∈ t.nodes, ∀ l, x.index.link = some l → ∃ b, E.get d.store l = .ok b) :
    repair cx fuel d = .ok [] d := by
  have hg := hr.wf ok hs ht
  have hroot : d.root = some t.index := by rw [hd.root, ht.root]
  have hblk : ∀ x ∈ t.nodes, ∀ l, x.index.link = some l → getBlock E d.store l = getBlock E s.store l ∨ ∃ e, getBlock E s.store l = .error e := by
    intro x hx l hl
    obtain ⟨b', hb'⟩ := ha x hx l hl
    cases hb : getBlock E s.store l with
    | error e => exact .inr ⟨e, rfl⟩
    | ok b =>
      have := hd.same _ .refl l b b' (getBlock_eq.mp hb) hb'
      subst this
      exact .inl (by rw [getBlock_eq.mpr hb'])
  have hst : Stored E cx.sec d.store t := by
    intro x hx
    have h0 := ht.stored x hx
    cases x with
    | purgedLeaf i => exact h0
    | purgedBranch i => exact h0
    | leaf i vs =>
      obtain ⟨l, z, r, h1, h2, h3⟩ := h0
      refine ⟨l, z, r, h1, ?_, h3⟩
      unfold loadLeafFromLink at h2 ⊢
      rcases hblk _ hx l h1 with h | ⟨e, h⟩
      · rw [h]; exact h2
      · rw [h] at h2; cases h2
    | branch i cs =>
      obtain ⟨l, r, h1, h2⟩ := h0
      refine ⟨l, r, h1, ?_⟩
      unfold loadBranchFromLink at h2 ⊢
      rcases hblk _ hx l h1 with h | ⟨e, h⟩
      · rw [h]; exact h2
      · rw [h] at h2; cases h2
  have hf' : t.index.level < fuel := by rw [ht.root] at hf; exact hf
  rw [repair_eq hroot]
  obtain ⟨l', h0⟩ := repair0_intact fuel t [] i32max d hst hg.counts hf'
  rw [h0]
  show EStateM.Result.ok [] { d with root := some t.index } = _
  rw [← hroot]

/-- C20, in any state whatsoever: if nothing is reported then nothing was written and nothing was changed. -/
theorem C20_silent (fuel : Nat) (he : repair cx fuel s = .ok [] s') : s' = s := repair_silent he

/-- C20: whatever the report says was given up is a block of the tree that cannot be read; and if anything is reported
then something was given up. -/
theorem C20_report (ok : cx.Ok) (hr : Reach cx s) (hd : Damaged cx s d) (fuel : Nat) (hf : rootLevel s.root < fuel)
    (he : repair cx fuel d = .ok report s') (hs : Small E s') {t : PTree T V} (ht : Shows cx s t) :
    (∀ l, Forgotten report l → (∃ x ∈ t.nodes, x.index.link = some l) ∧ ∀ b, E.get d.store l ≠ .ok b) ∧
    (report ≠ [] → ∃ l, Forgotten report l) ∧
    (report = [] ↔ ∀ x ∈ t.nodes, ∀ l, x.index.link = some l → ∃ b, E.get d.store l = .ok b) := by
  have hs0 := hd.small (((frame0_repair (cx := cx) ok.env fuel).ok he).small hs)
  rcases repair_cases ok hr hd fuel hf he hs with ⟨k1, _, _⟩ | ⟨t0, t', k1, k2, k3, k4, k5, k6⟩
  · rw [ht.root] at k1; cases k1
  · obtain rfl := k1.unique ok.env ht
    refine ⟨k5.bad, k5.named, ?_, ?_⟩
    · intro hrep x hx l hl
      have hsil := k5.silent hrep
      subst hsil
      subst hrep
      have hsd := repair_silent he
      subst hsd
      have h0 := k4.stored x hx
      have key : ∃ b, getBlock E s'.store l = .ok b := by
        cases x with
        | purgedLeaf i => cases (show i.link = none from h0).symm.trans hl
        | purgedBranch i => cases (show i.link = none from h0).symm.trans hl
        | leaf i vs =>
          obtain ⟨l', z, r, h1, h2, h3⟩ := h0
          cases h1.symm.trans hl
          unfold loadLeafFromLink at h2
          cases hb : getBlock E s'.store l with
          | error e => rw [hb] at h2; cases h2
          | ok b => exact ⟨b, rfl⟩
        | branch i cs =>
          obtain ⟨l', r, h1, h2⟩ := h0
          cases h1.symm.trans hl
          unfold loadBranchFromLink at h2
          cases hb : getBlock E s'.store l with
          | error e => rw [hb] at h2; cases h2
          | ok b => exact ⟨b, rfl⟩
      obtain ⟨b, hb⟩ := key
      exact ⟨b, getBlock_eq.mp hb⟩
    · intro ha
      have := C20_all_blocks_available ok hr hs0 hd fuel hf ht ha
      rw [this] at he
      cases he
      rfl

/-! ### C27 -/

/-- C27 after a repair: the invariant checker finds nothing, whatever was lost. -/
theorem C27_repaired (ok : cx.Ok) (hr : Steady cx s) (hd : Damaged cx s d) (fuel : Nat) (hf : rootLevel s.root < fuel)
    (he : repair cx fuel d = .ok report s') (hs : Small E s') (fuel' : Nat) (hf' : rootLevel s'.root < fuel') :
    ∃ s2, checkInvariants cx fuel' s' = .ok [] s2 := by
  have hc : checkInvariants cx fuel' s' = (match s'.root with
    | some root => (do
        let (_, msgs) ← checkInvariants0 cx.sec cx.cfg fuel' root i32max []
        pure msgs : M E (List InvMsg)) s'
    | none => .ok [] s') := by
    unfold checkInvariants
    rw [bind_apply]
    unfold getIndex
    simp only
    cases s'.root <;> rfl
  rw [hc]
  obtain ⟨t, hi⟩ := hr.inv ok.env ok.types ok.cfg withinInv_rewrites (hd.small (((frame0_repair (cx := cx) ok.env fuel).ok he).small hs))
  rcases repair_cases_inv ok withinInv_rewrites hi hd fuel hf he hs with ⟨k1, _, rfl⟩ | ⟨t0, t', k1, k2, k3, k4, k5, k6⟩
  · rw [hd.root, k1]
    exact ⟨_, rfl⟩
  · rw [k3] at hf' ⊢
    have hk : Kept E cx.cfg t' := by
      refine PTree.All.imp ?_ k4
      intro n hn
      cases n with
      | leaf i vs => exact hn.2.1
      | branch i cs => exact ⟨hn.2.1, hn.2.2.2⟩
      | purgedLeaf => trivial
      | purgedBranch => trivial
    obtain ⟨l', c', _, h2⟩ := checkInvariants0_readsP ok.env ok.types (sane_serves ok.env cx.sec) fuel' t' i32max [] s' k4.stored hk k6 hf'
    simp only
    rw [bind_apply, h2]
    exact ⟨_, rfl⟩

/-! ### C61 -/

/-- C61: `repair` fails only for a cause outside of the tree, whatever was lost; in particular it does not panic. -/
theorem C61_repair_never_aborts (ok : cx.Ok) (hr : Reach cx s) (hd : Damaged cx s d) (fuel : Nat) (hf : rootLevel s.root < fuel)
    {e : Err} (he : repair cx fuel d = .error e s') (hs : Small E s') : Allowed E cx.cfg (fun _ => False) e := by
  obtain ⟨t, hi⟩ := ok.inv hr (hd.small (((frame0_repair (cx := cx) ok.env fuel).err he).small hs))
  exact repair_err ok.env ok.types ok.cfg (NodeInv.trivial_rewrites cx) hi.holds hd hf he hs

/-! ### C58 -/

/-- C58 for trees that were packed before the damage, if the report does not warn about an unsealed node and the branch
cache does not hold branches that are lost (as after reopening the store): the repaired tree is packed, `extend` and
`pack` do what they should and fail only for a cause outside of the tree (or if a value of the tree is larger than a
limit that was changed since it was added).

Missing for the full claim: trees that were not packed, and lost unsealed nodes. For these the claim is false
(`C58_refuted_extend`, `C58_refuted_pack`). -/
theorem C58_usable_partial (ok : cx.Ok) (hr : Reach cx s) (hp : ReportsPacked cx s) (hd : Damaged cx s d) (hco : Coherent E cx.sec d)
    (fuel : Nat) (hf : rootLevel s.root < fuel) (he : repair cx fuel d = .ok report s') (hq : Quiet report) (hs : Small E s') :
    ReportsPacked cx s' ∧
    (∀ fuel' xs s2, rootLevel s'.root < fuel' → rootCount s'.root + xs.length ≤ maxElements → Contains cx s' c →
      extend cx fuel' xs s' = .ok () s2 → Small E s2 → Contains cx s2 (c ++ xs.map some)) ∧
    (∀ fuel' xs e s2, rootLevel s'.root < fuel' → rootCount s'.root + xs.length ≤ maxElements →
      extend cx fuel' xs s' = .error e s2 → Small E s2 → Allowed E cx.cfg (fun v => ∃ k, (k, v) ∈ xs) e) ∧
    (∀ fuel' s2, rootLevel s'.root < fuel' → Contains cx s' c → pack cx fuel' s' = .ok () s2 → Small E s2 → Contains cx s2 c) ∧
    (∀ fuel' e s2, rootLevel s'.root < fuel' → Contains cx s' c → pack cx fuel' s' = .error e s2 → Small E s2 →
      Allowed E cx.cfg (fun v => ∃ k, some (k, v) ∈ c) e) := by
  have hr' : Reach cx s' := .repair fuel report hr hp hd hco hf he hq
  have hp' : ReportsPacked cx s' := by
    obtain ⟨t, hi⟩ := ok.inv hr' hs
    rw [hi.holds.packed ok.env]
    have hx := (frame0_repair (cx := cx) ok.env fuel).ok he
    obtain ⟨u, hu⟩ := ok.inv hr (hd.small (hx.small hs))
    rw [hu.holds.packed ok.env] at hp
    rcases repair_ok ok.env ok.types ok.cfg (NodeInv.trivial_rewrites cx) hu.holds hd hf he hs with ⟨rfl, _, rfl⟩ | ⟨t0, t', rfl, k1, k2, k3, k4, k5⟩
    · cases t with
      | none => trivial
      | some t =>
        have := hi.holds.root
        rw [hd.root, hu.holds.root] at this
        cases this
    · cases t with
      | none => trivial
      | some t =>
        obtain rfl := hi.holds.shows.unique ok.env ⟨k1, k2.stored⟩
        exact k3.packed hp
  exact ⟨hp', fun fuel' xs s2 h1 h2 h3 h4 h5 => C01_extend_appends ok hr' fuel' xs h1 h2 h4 h5 h3,
    fun fuel' xs e s2 h1 h2 h3 h4 => C06_extend_never_aborts_partial ok hr' fuel' xs h1 h2 hp' h3 h4,
    fun fuel' s2 h1 h2 h3 h4 => C03_pack_preserves ok hr' fuel' h1 h3 h4 h2,
    fun fuel' e s2 h1 h2 h3 h4 => C18_pack_reconfigured ok hr' fuel' h1 h3 h4 h2⟩

/-- The state after the repair of any tree, packed or not, if no unsealed node was lost. -/
theorem repaired_holds (ok : cx.Ok) (hr : Reach cx s) (hd : Damaged cx s d) (hco : Coherent E cx.sec d) (fuel : Nat)
    (hf : rootLevel s.root < fuel) (he : repair cx fuel d = .ok report s') (hq : Quiet report) (hs : Small E s') :
    ∃ t, HoldsI (NodeInv.trivial cx) s' t ∧ rootLevel s'.root ≤ (optContent t).length + 1 ∧ (optContent t).length ≤ maxElements := by
  have hx := (frame0_repair (cx := cx) ok.env fuel).ok he
  obtain ⟨t, hi⟩ := ok.inv hr (hd.small (hx.small hs))
  rcases repair_ok ok.env ok.types ok.cfg (NodeInv.trivial_rewrites cx) hi.holds hd hf he hs with ⟨rfl, rfl, rfl⟩ | ⟨t0, t', rfl, k1, k2, k3, k4, k5⟩
  · exact ⟨none, ⟨by rw [hd.root, hi.holds.root], hco, by simp⟩, by rw [hd.root]; exact hi.level, Nat.zero_le _⟩
  · have hg : Good (NodeInv.trivial cx) s'.store t' := k2.good (k3.quiet hq (hi.holds.good t0 rfl).wf.sealedPurges)
    have hlen : (optContent (some t')).length = (optContent (some t0)).length := by
      show (content _).length = (content _).length
      rw [content_length ok.types (hi.holds.good t0 rfl).counts, content_length ok.types hg.counts, unlink_count k3.unlink]
    refine ⟨some t', ⟨by rw [k1]; rfl, hx.coherent hco, ?_⟩, ?_, by rw [hlen]; exact hi.count⟩
    · intro t2 ht2
      cases ht2
      exact hg
    · rw [hlen, k1]
      have := hi.level
      rw [hi.holds.root] at this
      have hl : t'.index.level = t0.index.level := unlink_level k3.unlink
      show t'.index.level ≤ _
      rw [hl]
      exact this

/-- C58 for any tree, packed or not, if no unsealed node was lost: `extend` and `extend_unpacked` of the repaired tree
append, and `extend_unpacked` fails only for a cause outside of the tree.

Missing for the full claim: `extend` can panic on trees that are not packed (`C06_refuted`). -/
theorem C58_unpacked_extend_partial (ok : cx.Ok) (hr : Reach cx s) (hd : Damaged cx s d) (hco : Coherent E cx.sec d)
    (fuel : Nat) (hf : rootLevel s.root < fuel) (he : repair cx fuel d = .ok report s') (hq : Quiet report) (hs : Small E s')
    (hc : Contains cx s' c) (fuel' : Nat) (xs : List (T.Key × V)) (hf' : rootLevel s'.root < fuel')
    (hn : rootCount s'.root + xs.length ≤ maxElements) :
    (∀ s2, extend cx fuel' xs s' = .ok () s2 → Small E s2 → Contains cx s2 (c ++ xs.map some)) ∧
    (∀ s2, extendUnpacked cx fuel' xs s' = .ok () s2 → Small E s2 → Contains cx s2 (c ++ xs.map some)) ∧
    (∀ e s2, extendUnpacked cx fuel' xs s' = .error e s2 → Small E s2 → Allowed E cx.cfg (fun v => ∃ k, (k, v) ∈ xs) e) := by
  obtain ⟨t, hh, hl, hcnt⟩ := repaired_holds ok hr hd hco fuel hf he hq hs
  have h3 := rootCount_eq ok.types hh
  have hm : maxElements = 2147483645 := rfl
  have hu : u32max = 4294967295 := rfl
  rw [hh.contains ok.env ok.types] at hc
  refine ⟨fun s2 h1 h2 => ?_, fun s2 h1 h2 => ?_, fun e s2 h1 h2 => ?_⟩
  · obtain ⟨t', k1, k2, _⟩ := (extend_spec (I := NodeInv.trivial cx) (vals := fun _ => True) (R := fun _ => True)
      ok.env ok.types ok.cfg (fun _ _ => trivial) fuel' xs t s' hh (fun _ _ => trivial) hf' (by omega)
      (Or.inr fun _ => trivial)).ok h1 h2
    rw [k1.contains ok.env ok.types, k2, hc]
  · obtain ⟨t', k1, k2, _⟩ := (extendUnpacked_spec (I := NodeInv.trivial cx) (vals := fun _ => True) (R := fun _ => True)
      ok.env ok.types ok.cfg (fun _ _ => trivial) fuel' xs t s' hh (fun _ _ => trivial) (by omega)).ok h1 h2
    rw [k1.contains ok.env ok.types, k2, hc]
  · exact (extendUnpacked_spec (I := NodeInv.trivial cx) (vals := fun v => ∃ k, (k, v) ∈ xs) ok.env ok.types ok.cfg (fun _ h => h)
      fuel' xs t s' hh (fun kv h => ⟨kv.1, h⟩) (by omega)).err h1 h2

/-- C58 for any tree, packed or not, if no unsealed node was lost: `pack` of the repaired tree keeps the number of
elements, and makes a packed tree. From some position on it keeps all elements, and none of them is lost; the elements
before are elements of the old tree, in order. It fails only for a cause outside of the tree, or because of a value that
is larger than the limit, or with the message "found purged data", and the latter only if elements are lost.

Missing for the full claim: the first elements can be other ones than before (`C58_refuted_pack`). -/
theorem C58_unpacked_pack_partial (ok : cx.Ok) (hr : Reach cx s) (hd : Damaged cx s d) (hco : Coherent E cx.sec d)
    (fuel : Nat) (hf : rootLevel s.root < fuel) (he : repair cx fuel d = .ok report s') (hq : Quiet report) (hs : Small E s')
    (hc : Contains cx s' c) (fuel' : Nat) (hf' : rootLevel s'.root < fuel') :
    (∀ s2, pack cx fuel' s' = .ok () s2 → Small E s2 → ReportsPacked cx s2 ∧ ∃ first last, Contains cx s2 (first ++ last) ∧
      first.length + last.length = c.length ∧ first.Sublist c ∧ last <:+ c ∧ none ∉ last) ∧
    (∀ e s2, pack cx fuel' s' = .error e s2 → Small E s2 → Allowed E cx.cfg (fun v => ∃ k, some (k, v) ∈ c) e ∨
      (e = .fail "found purged data" ∧ none ∈ c)) := by
  obtain ⟨t, hh, hl, hcnt⟩ := repaired_holds ok hr hd hco fuel hf he hq hs
  have hm : maxElements = 2147483645 := rfl
  have hu : u32max = 4294967295 := rfl
  rw [hh.contains ok.env ok.types] at hc
  subst hc
  have hsp := pack_any_spec (I := NodeInv.trivial cx) ok.env ok.types ok.cfg fuel' t s' hh hf' (by omega)
  refine ⟨fun s2 h1 h2 => ?_, fun e s2 h1 h2 => ?_⟩
  · obtain ⟨t', k1, k2, k3, k4⟩ := hsp.ok h1 h2
    refine ⟨(k1.packed ok.env).mpr k2, _, _, (k1.contains ok.env ok.types).mpr k3.symm, ?_, optRoots_sublist t, List.drop_suffix _ _, k4⟩
    have := (optRoots_sublist t).length_le
    rw [List.length_drop]
    omega
  · rcases hsp.err h1 h2 with h | ⟨h, h'⟩
    · exact .inl h
    · exact .inr ⟨h, List.mem_of_mem_drop h'⟩

/-- C58: as long as the configuration is never changed, the values of a repaired tree are never larger than the limit, so
this cannot be the reason why `pack` fails. -/
theorem C58_fits (ok : cx.Ok) (hr : Steady cx s) (hd : Damaged cx s d) (fuel : Nat) (hf : rootLevel s.root < fuel)
    (he : repair cx fuel d = .ok report s') (hs : Small E s') (hc : Contains cx s' c) {e : Err}
    (ha : Allowed E cx.cfg (fun v => ∃ k, some (k, v) ∈ c) e) : Allowed E cx.cfg (fun _ => False) e := by
  have hs0 := hd.small (((frame0_repair (cx := cx) ok.env fuel).ok he).small hs)
  obtain ⟨c0, hc0⟩ := reach_readable ok (hr.reach ok.cfg) hs0
  obtain ⟨c', h1, _, _, h2, _⟩ := C19_readable_partial ok (hr.reach ok.cfg) hd fuel hf he hs hc0
  obtain rfl := h1.unique hc
  refine ha.none fun v ⟨k, hk⟩ => ?_
  obtain ⟨n, hn⟩ := List.getElem?_of_mem hk
  have h3 := h2 n
  rw [hn] at h3
  rcases h3 with h3 | h3
  · exact hr.fits ok hs0 hc0 (List.mem_of_getElem? h3.symm)
  · cases h3

/-! ### Examples and refutations -/

instance : DecidableEq types.Link := inferInstanceAs (DecidableEq Nat)

deriving instance DecidableEq for RepairMsg

/-- The state after the repair of a state that lost some blocks. -/
def repaired (ns : List Nat) (s : St env) : St env := endState (repair (ctx tiny) 10) (hole ns s)

theorem repaired_ok {ns : List Nat} {s : St env} {r : List (RepairMsg types)} (h : valueOf (repair (ctx tiny) 10) (hole ns s) = some r) :
    repair (ctx tiny) 10 (hole ns s) = .ok r (repaired ns s) := value_of h

/-- The first branch of the seven elements is lost (`C19`, `C20`, `C27`, `C58`): four elements are given up. -/
theorem lost2 : repair (ctx tiny) 10 (hole [2] packed7) = .ok [.forgetBranch (some (2 : Nat))] (repaired [2] packed7) :=
  repaired_ok (by decide +kernel)

example : ∃ c', Contains (ctx tiny) (repaired [2] packed7) c' ∧ c'.length = 7 ∧ (∀ n : Nat, c'[n]? = ((seq 0 7).map some)[n]? ∨ c'[n]? = some none) := by
  obtain ⟨c', h1, h2, _, h3, _⟩ := C19_readable_partial tiny_ok packed7_reach (hole_damaged tiny [2] packed7) 10 (by decide +kernel) lost2
    (small_of (by decide +kernel)) packed7_contains
  exact ⟨c', h1, h2, h3⟩

example : elements tiny (repaired [2] packed7) = some ([none, none, none, none] ++ (seq 4 3).map some) := by decide +kernel

example : repair (ctx tiny) 10 packed7 = .ok [] packed7 := C20_intact tiny_ok packed7_reach packed7_small 10 (by decide +kernel)

example {t : PTree types Nat} (ht : Shows (ctx tiny) packed7 t) : ∃ x ∈ t.nodes, x.index.link = some (2 : Nat) :=
  ((C20_report tiny_ok packed7_reach (hole_damaged tiny [2] packed7) 10 (by decide +kernel) lost2 (small_of (by decide +kernel)) ht).1 _
    (.inl (by simp))).1

example : ∃ s2, checkInvariants (ctx tiny) 10 (repaired [2] packed7) = .ok [] s2 :=
  C27_repaired tiny_ok packed7_steady (hole_damaged tiny [2] packed7) 10 (by decide +kernel) lost2 (small_of (by decide +kernel)) 10 (by decide +kernel)

/-- The store accepts no more blocks: `repair` fails, for this reason. -/
example : Allowed env tiny (fun _ => False) (.fail "full") :=
  C61_repair_never_aborts (s := withRoom 0 packed7) tiny_ok (reach_withRoom packed7_reach 0 (packed7_reach.coherent env_lawful))
    (hole_damaged tiny [2] (withRoom 0 packed7)) 10 (by decide +kernel)
    (error_of (by decide +kernel)) (small_of (by decide +kernel))

example : ReportsPacked (ctx tiny) (repaired [2] packed7) :=
  (C58_usable_partial (c := []) tiny_ok packed7_reach packed7_packed (hole_damaged tiny [2] packed7) (hole_coherent tiny [2] packed7)
    10 (by decide +kernel) lost2 (by constructor <;> simp) (small_of (by decide +kernel))).1

/-- C58 is false: if the block of the last, unsealed leaf of a packed tree is lost then `extend` panics on the repaired
tree. (The report warns about this.) -/
theorem C58_refuted_extend : ∃ (s d s' : St env) (m : String), Reach (ctx tiny) s ∧ ReportsPacked (ctx tiny) s ∧
    Damaged (ctx tiny) s d ∧ Small env s' ∧ repair (ctx tiny) 10 d = .ok [.forgetLeaf (some (4 : Nat)), .warnUnsealedLeaf] s' ∧
    errorOf (extend (ctx tiny) 10 (seq 7 2)) s' = some (.panic m) :=
  ⟨packed7, hole [4] packed7, repaired [4] packed7, _, packed7_reach, packed7_packed, hole_damaged tiny [4] packed7,
    small_of (by decide +kernel), repaired_ok (by decide +kernel),
    show errorOf (extend (ctx tiny) 10 (seq 7 2)) (repaired [4] packed7) =
      some (.panic "assertion failed: node.level() == level, node.sealed(), node.level() <= level") by decide +kernel⟩

/-- Two elements, packed, then four and then six more without packing. -/
def unpacked12 : St env :=
  endState (extendUnpacked (ctx tiny) 10 (seq 6 6)) (endState (extendUnpacked (ctx tiny) 10 (seq 2 4))
    (endState (pack (ctx tiny) 10) (endState (extend (ctx tiny) 10 (seq 0 2)) (start 100))))

theorem unpacked12_reach : Reach (ctx tiny) unpacked12 :=
  reach_extendUnpacked (reach_extendUnpacked (reach_pack (reach_extend (start_reach tiny 100) 10 (seq 0 2) (by decide +kernel)) 10
    (by decide +kernel)) 10 (seq 2 4) (by decide +kernel)) 10 (seq 6 6) (by decide +kernel)

/-- C58 is false: there is a tree that is not packed, such that after the loss of one sealed branch the report of `repair`
does not contain any warning, and `pack` of the repaired tree succeeds but moves elements to other positions, and
duplicates some. -/
theorem C58_refuted_pack : ∃ s d s' s2 : St env, Reach (ctx tiny) s ∧ Damaged (ctx tiny) s d ∧ Small env s2 ∧
    repair (ctx tiny) 10 d = .ok [.forgetBranch (some (4 : Nat))] s' ∧ pack (ctx tiny) 10 s' = .ok () s2 ∧
    elements tiny s' = some ((seq 0 2).map some ++ [none, none, none, none] ++ (seq 6 6).map some) ∧
    elements tiny s2 = some ((seq 0 2 ++ seq 6 6 ++ seq 8 4).map some) :=
  ⟨unpacked12, hole [4] unpacked12, repaired [4] unpacked12, endState (pack (ctx tiny) 10) (repaired [4] unpacked12),
    unpacked12_reach, hole_damaged tiny [4] unpacked12, small_of (by decide +kernel), repaired_ok (by decide +kernel),
    ok_of_succeeds (by decide +kernel), by decide +kernel, by decide +kernel⟩

theorem lost4 : repair (ctx tiny) 10 (hole [4] unpacked12) = .ok [.forgetBranch (some (4 : Nat))] (repaired [4] unpacked12) :=
  repaired_ok (by decide +kernel)

theorem lost8 : repair (ctx tiny) 10 (hole [8] unpacked12) = .ok [.forgetBranch (some (8 : Nat))] (repaired [8] unpacked12) :=
  repaired_ok (by decide +kernel)

/-- The theorems about repaired trees that are not packed, in the state of the counterexample. -/
example {c : List (Option (Nat × Nat))} (hc : Contains (ctx tiny) (repaired [4] unpacked12) c) :
    Contains (ctx tiny) (endState (extendUnpacked (ctx tiny) 10 (seq 12 3)) (repaired [4] unpacked12)) (c ++ (seq 12 3).map some) :=
  (C58_unpacked_extend_partial tiny_ok unpacked12_reach (hole_damaged tiny [4] unpacked12) (hole_coherent tiny [4] unpacked12) 10
    (by decide +kernel) lost4 (by constructor <;> simp) (small_of (by decide +kernel)) hc 10 (seq 12 3) (by decide +kernel)
    (by decide +kernel)).2.1 _ (ok_of_succeeds (by decide +kernel)) (small_of (by decide +kernel))

example {c : List (Option (Nat × Nat))} (hc : Contains (ctx tiny) (repaired [4] unpacked12) c) :
    ReportsPacked (ctx tiny) (endState (pack (ctx tiny) 10) (repaired [4] unpacked12)) :=
  ((C58_unpacked_pack_partial tiny_ok unpacked12_reach (hole_damaged tiny [4] unpacked12) (hole_coherent tiny [4] unpacked12) 10
    (by decide +kernel) lost4 (by constructor <;> simp) (small_of (by decide +kernel)) hc 10 (by decide +kernel)).1 _
    (ok_of_succeeds (by decide +kernel)) (small_of (by decide +kernel))).1

/-- Packing fails because of lost elements, although no unsealed node was lost. -/
theorem C58_refuted_purged : ∃ s d s' : St env, Reach (ctx tiny) s ∧ Damaged (ctx tiny) s d ∧ Small env s' ∧
    repair (ctx tiny) 10 d = .ok [.forgetBranch (some (8 : Nat))] s' ∧
    errorOf (pack (ctx tiny) 10) s' = some (.fail "found purged data") :=
  ⟨unpacked12, hole [8] unpacked12, repaired [8] unpacked12, unpacked12_reach, hole_damaged tiny [8] unpacked12,
    small_of (by decide +kernel), lost8, by decide +kernel⟩

/-- Some block is cut off. -/
def cut (n k : Nat) (σ : Store) : Store := { σ with blocks := σ.blocks.modify n (Option.map (List.take k)) }

/-- C19 is false for stores that return wrong bytes: `repair` only checks that the block of a leaf is a valid envelope,
so it does not notice that the content is broken, and the tree cannot be read. -/
theorem C19_refuted : ∃ s : St env, Reach (ctx tiny) s ∧ Small env s ∧
    valueOf (repair (ctx tiny) 10) { s with store := cut 0 5 s.store, cache := [] } = some [] ∧
    errorOf (Tree.collect 10 (snapshot (ctx tiny) s)) (endState (repair (ctx tiny) 10) { s with store := cut 0 5 s.store, cache := [] }) =
      some (.fail "invalid") :=
  ⟨packed7, packed7_reach, packed7_small, by decide +kernel, by decide +kernel⟩

end Banyan
