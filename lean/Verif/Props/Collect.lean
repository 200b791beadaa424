import Verif.Props.PackEdge
import Verif.Props.Partial
import Verif.Props.Nodes
import Verif.Props.Histories
/-
Garbage collection: C93.
-/
set_option autoImplicit false
namespace Banyan

open PTree Concrete

variable {T : TreeTypes} {V : Type} {E : Env T V} {cx : Ctx E} {s s' : St E} {t : PTree T V} {c : List (Option (T.Key × V))} {X : Type}

/-- The store `σ'` has come out of `σ` by a garbage collection that follows the visible links from the root: everything that can be found
is still there. All other blocks may be gone. -/
def Collected (E : Env T V) (root : Option (Index T)) (σ σ' : E.σ) : Prop :=
  ∀ r, rootLink root = some r → ∀ l, Found E σ r l → E.get σ' l = E.get σ l

/-- A tree whose root is purged has no blocks. -/
theorem no_links (sh : Shows cx s t) (hroot : rootLink s.root = none) {n : PTree T V} (hn : n ∈ t.nodes) : n.index.link = none := by
  have hl : t.index.link = none := by
    unfold rootLink at hroot
    rw [sh.root] at hroot
    exact hroot
  have hst := sh.stored t (self_mem_nodes t)
  cases t with
  | leaf i vs => obtain ⟨l, _, _, h, _⟩ := hst; rw [show i.link = none from hl] at h; cases h
  | branch i cs => obtain ⟨l, _, h, _⟩ := hst; rw [show i.link = none from hl] at h; cases h
  | purgedLeaf i => simp only [nodes, List.mem_singleton] at hn; subst hn; exact hl
  | purgedBranch i => simp only [nodes, List.mem_singleton] at hn; subst hn; exact hl

/-- What a garbage collector that follows the visible links keeps contains the blocks of the tree. -/
theorem Collected.keepsTree (ok : cx.Ok) (hl : E.ScrapesIdx) (hr : Reach cx s) (hs : Small E s) {σ : E.σ}
    (h : Collected E s.root s.store σ) : KeepsTree cx.sec s σ := by
  intro t h1 h2 n hn l hlink
  cases hroot : rootLink s.root with
  | none => rw [no_links ⟨h1, h2⟩ hroot hn] at hlink; cases hlink
  | some r => exact h r hroot l (C40_all_found ok hl hr hs ⟨h1, h2⟩ hroot hn hlink)

/-- C93: a builder can be used after a garbage collection as after everything else that can happen to it. Every theorem about the states a
builder can get into holds for it. -/
theorem C93_reach (ok : cx.Ok) (hl : E.ScrapesIdx) (hr : Reach cx s) (hs : Small E s) {σ : E.σ} {γ : E.γ} (h : Collected E s.root s.store σ)
    (hco : Coherent E cx.sec { s with store := σ, cache := γ }) : Reach cx { s with store := σ, cache := γ } :=
  hr.collect σ γ (h.keepsTree ok hl hr hs) hco

theorem Reach.keeps (ok : cx.Ok) (hr : Reach cx s) (hs : Small E s) {σ : E.σ} {γ : E.γ} (h : KeepsTree cx.sec s σ)
    (hco : Coherent E cx.sec { s with store := σ, cache := γ }) :
    ∃ t, HoldsI (NodeInv.trivial cx) s t ∧ HoldsI (NodeInv.trivial cx) { s with store := σ, cache := γ } t := by
  obtain ⟨t, hi⟩ := ok.inv hr hs
  refine ⟨t, hi.holds, hi.holds.root, hco, fun t' ht' => ?_⟩
  have hg := hi.holds.good t' ht'
  exact hg.congr (fun _ _ _ => trivial) (h t' (by rw [hi.holds.root, ht']; rfl) hg.stored)

/-- C93: a garbage collection does not change the content of a tree. -/
theorem C93_contains (ok : cx.Ok) (hl : E.ScrapesIdx) (hr : Reach cx s) (hs : Small E s) {σ : E.σ} {γ : E.γ} (h : Collected E s.root s.store σ)
    (hco : Coherent E cx.sec { s with store := σ, cache := γ }) :
    Contains cx { s with store := σ, cache := γ } c ↔ Contains cx s c := by
  obtain ⟨t, h1, h2⟩ := hr.keeps ok hs (h.keepsTree ok hl hr hs) hco
  rw [h1.contains ok.env ok.types, h2.contains ok.env ok.types]

/-- C93: the filtered iteration over a tree delivers the same chunks after a garbage collection, for every query and in both directions. -/
theorem C93_chunks (ok : cx.Ok) (hl : E.ScrapesIdx) (hr : Reach cx s) (hs : Small E s) (sh : Shows cx s t) {σ : E.σ} {γ : E.γ}
    (h : Collected E s.root s.store σ) (hco : Coherent E cx.sec { s with store := σ, cache := γ }) (q : Query T) (mode : Mode)
    (mkExtra : Index T → X) :
    ∃ chunks, Delivers (fun between n fuel t => Tree.chunks q mode mkExtra between n fuel t) cx.sec (snapshot cx s) s chunks ∧
      Delivers (fun between n fuel t => Tree.chunks q mode mkExtra between n fuel t) cx.sec (snapshot cx s) { s with store := σ, cache := γ } chunks :=
  C66_chunks ok hr hs sh q mode mkExtra
    (fun n hn => h.keepsTree ok hl hr hs t sh.root sh.stored n (needs_nodes q t 0 n hn)) hco

/-- C93: the iteration over the indexes of a tree delivers the same indexes after a garbage collection, and the tree is packed if it was packed
before. -/
theorem C93_indexes (ok : cx.Ok) (hl : E.ScrapesIdx) (hr : Reach cx s) (hs : Small E s) {σ : E.σ} {γ : E.γ} (h : Collected E s.root s.store σ)
    (hco : Coherent E cx.sec { s with store := σ, cache := γ }) (q : Query T) (mode : Mode) :
    (∃ indexes, Enumerates (fun between n fuel t => Tree.indexes q mode between n fuel t) cx.sec (snapshot cx s) s indexes ∧
      Enumerates (fun between n fuel t => Tree.indexes q mode between n fuel t) cx.sec (snapshot cx s) { s with store := σ, cache := γ } indexes) ∧
    (ReportsPacked cx { s with store := σ, cache := γ } ↔ ReportsPacked cx s) := by
  obtain ⟨t, h1, h2⟩ := hr.keeps ok hs (h.keepsTree ok hl hr hs) hco
  exact ⟨⟨_, h1.snap.indexes ok.env ok.types mode, h2.snap.indexes ok.env ok.types mode⟩, by rw [h1.packed ok.env, h2.packed ok.env]⟩

/-- C93: after a garbage collection the builder does exactly what it would have done without it. Appending and packing in any order give the
same roots and the same new blocks, and the content afterwards is the same. -/
theorem C93_works (ok : cx.Ok) (hl : E.ScrapesIdx) (hr : Reach cx s) {σ : E.σ} {γ : E.γ} (h : Collected E s.root s.store σ)
    (hal : Alike E s.store σ) (hco : Coherent E cx.sec { s with store := σ, cache := γ }) {ws : List (Work T V)} (hw : Works cx ws s s')
    (hs : Small E s') :
    ∃ s2' bs, performAll cx ws { s with store := σ, cache := γ } = .ok () s2' ∧ s2'.root = s'.root ∧ s'.puts = s.puts ++ bs ∧
      s2'.puts = s.puts ++ bs := by
  have hs0 := hw.small ok hs
  obtain ⟨s2', bs, h1, h2, h3, h4, _⟩ := C91_history ok hr (s2 := { s with store := σ, cache := γ })
    ⟨rfl, rfl, hal, hco, fun t sh n hn => h.keepsTree ok hl hr hs0 t sh.root sh.stored n (loose_nodes t _ n hn)⟩ hw hs
  exact ⟨s2', bs, h1, h2, h3, h4⟩

/-- C93: a snapshot that was taken before stays readable if the garbage collection keeps what is found from its root, whatever the builder
has done since then. -/
theorem C93_snapshot (ok : cx.Ok) (hl : E.ScrapesIdx) (hr : Reach cx s) (hrun : Run cx s s') (hs : Small E s') (hc : Contains cx s c) {σ : E.σ}
    {γ : E.γ} (h : Collected E s.root s'.store σ) (hco : Coherent E cx.sec { s' with root := s.root, store := σ, cache := γ }) :
    Contains cx { s' with root := s.root, store := σ, cache := γ } c :=
  (C93_contains ok hl (hr.run (.rollback (.refl s) hrun)) (s := { s' with root := s.root }) hs h hco).mpr
    (contains_elsewhere ok hr ((hrun.ext0 ok.env).small hs) hc rfl (hrun.ext0 ok.env).store
      ((hrun.ext0 ok.env).coherent (hr.coherent ok.env)))

/-! ### what is found -/

/-- The indices of nodes contain no links but the one of their block. -/
def OnlyOwnLink (E : Env T V) : Prop :=
  ∀ i ls, E.itemLinks (E.encIdx i) = .ok ls → ∀ x ∈ ls, ∃ l, i.link = some l ∧ x = E.cid l

/-- The block can be found behind a link in one of the values. -/
def BehindValue (E : Env T V) (σ : E.σ) (vs : List V) (l : T.Link) : Prop :=
  ∃ v ∈ vs, ∃ ls, E.itemLinks (E.encV v) = .ok ls ∧ ∃ l1, E.cid l1 ∈ ls ∧ Found E σ l1 l

/-- C93: nothing is kept in vain. What can be found from the root by following the visible links is the block of a node of the tree, or it is
behind a link in a value of the tree. -/
theorem C93_found (ok : cx.Ok) (ho : OnlyOwnLink E) (hinj : Function.Injective E.cid) (hr : Reach cx s) (hs : Small E s) (sh : Shows cx s t)
    {r l : T.Link} (hroot : rootLink s.root = some r) (hf : Found E s.store r l) :
    (∃ n ∈ t.nodes, n.index.link = some l) ∨ ∃ i vs, .leaf i vs ∈ t.nodes ∧ BehindValue E s.store vs l := by
  have hroot' : t.index.link = some r := by
    unfold rootLink at hroot
    rw [sh.root] at hroot
    exact hroot
  induction hf with
  | root => exact .inl ⟨t, self_mem_nodes t, hroot'⟩
  | @step l l' o links d hf he hc ih =>
    rcases ih with ⟨n, hn, hl⟩ | ⟨i, vs, hn, v, hv, ls, h1, l1, h2, h3⟩
    · cases n with
      | leaf i vs =>
        obtain ⟨l0, o', links', d', h1, h2, h3⟩ := C40_leaf_exact ok hr hs sh hn
        obtain rfl : l0 = l := Option.some.inj (h1.symm.trans hl)
        rw [he] at h2
        cases h2
        obtain ⟨v, hv, ls, h4, h5⟩ := (h3 _).mp hc
        exact .inr ⟨i, vs, hn, v, hv, ls, h4, l', h5, .root⟩
      | branch i cs =>
        obtain ⟨l0, o', links', d', h1, h2, h3⟩ := C40_branch_exact ok hr hs sh hn
        obtain rfl : l0 = l := Option.some.inj (h1.symm.trans hl)
        rw [he] at h2
        cases h2
        obtain ⟨c, hc', ls, h4, h5⟩ := (h3 _).mp hc
        obtain ⟨lc, h6, h7⟩ := ho _ _ h4 _ h5
        exact .inl ⟨c, nodes_trans hn (by simp only [nodes, List.mem_cons]; exact Or.inr (mem_nodesL.mpr ⟨c, hc', self_mem_nodes c⟩)), by rw [h6, hinj h7]⟩
      | purgedLeaf i =>
        have : i.link = none := sh.stored _ hn
        rw [show i.link = some l from hl] at this; cases this
      | purgedBranch i =>
        have : i.link = none := sh.stored _ hn
        rw [show i.link = some l from hl] at this; cases this
    · exact .inr ⟨i, vs, hn, v, hv, ls, h1, l1, h2, .step h3 he hc⟩

/-- C93: if there are no links in the values then exactly the blocks of the nodes of the tree are found. So after purging, the blocks that have
been replaced and those of the purged nodes can be deleted. -/
theorem C93_found_iff (ok : cx.Ok) (hl : E.ScrapesIdx) (ho : OnlyOwnLink E) (hinj : Function.Injective E.cid)
    (hv : ∀ v ls, E.itemLinks (E.encV v) = .ok ls → ls = []) (hr : Reach cx s) (hs : Small E s) (sh : Shows cx s t) {r l : T.Link}
    (hroot : rootLink s.root = some r) : Found E s.store r l ↔ ∃ n ∈ t.nodes, n.index.link = some l := by
  constructor
  · intro hf
    rcases C93_found ok ho hinj hr hs sh hroot hf with h | ⟨i, vs, _, v, _, ls, h1, l1, h2, _⟩
    · exact h
    · rw [hv v ls h1] at h2; cases h2
  · rintro ⟨n, hn, h⟩
    exact C40_all_found ok hl hr hs sh hroot hn h

/-! ### examples -/

theorem env_itemLinks (i : Index types) : env.itemLinks (env.encIdx i) = (match (show Option Nat from i.link) with
    | some l => .ok [natCid l]
    | none => .ok []) := by
  show itemLinks (encIdx i) = _
  unfold itemLinks encIdx
  have := unframe_frame (1 :: encNats (idxNats i)) []
  rw [List.append_nil] at this
  rw [this]
  simp only
  rw [payloadIdx_enc]
  rfl

theorem env_onlyOwnLink : OnlyOwnLink env := by
  intro i ls h x hx
  rw [env_itemLinks] at h
  cases hl : (show Option Nat from i.link) with
  | none => rw [hl] at h; cases h; cases hx
  | some l =>
    rw [hl] at h
    cases h
    exact ⟨l, hl, List.mem_singleton.mp hx⟩

theorem natCid_injective : Function.Injective natCid := by
  intro a b h
  have h1 : natCidBytes a = natCidBytes b := congrArg Subtype.val h
  unfold natCidBytes at h1
  have h2 := (List.cons.inj h1).2
  have h3 : unvar (varint a ++ [0, 0]) = unvar (varint b ++ [0, 0]) := congrArg unvar h2
  rw [unvar_varint, unvar_varint] at h3
  exact (Prod.mk.inj (Option.some.inj h3)).1

theorem env_noLinks (v : Nat) (ls : List Cid) (h : env.itemLinks (env.encV v) = .ok ls) : ls = [] := by
  have h0 : env.itemLinks (env.encV v) = .ok [] := by
    show itemLinks (frame (0 :: varint v)) = _
    unfold itemLinks
    have := unframe_frame (0 :: varint v) []
    rw [List.append_nil] at this
    rw [this]
    rfl
  rw [h0] at h
  cases h
  rfl

theorem found_tiny {s : St env} {t : PTree types Nat} (hr : Reach (ctx tiny) s) (hs : Small env s) (sh : Shows (ctx tiny) s t)
    {r l : Nat} (hroot : rootLink s.root = some r) : Found env s.store r l ↔ ∃ n ∈ t.nodes, n.index.link = some l :=
  C93_found_iff tiny_ok env_scrapesIdx env_onlyOwnLink natCid_injective env_noLinks hr hs sh hroot

theorem collected_tiny {s : St env} {t : PTree types Nat} (hr : Reach (ctx tiny) s) (hs : Small env s) (sh : Shows (ctx tiny) s t) {ns : List Nat}
    (h : avoids ns t.nodes = true) : Collected env s.root s.store (hole ns s).store := by
  intro r hroot l hf
  obtain ⟨n, hn, hl⟩ := (found_tiny hr hs sh hroot).mp hf
  exact sameBlocks_of ns s t.nodes h n hn l hl

/-- Of the thirteen blocks five are not needed any more after the first four of ten elements have been purged. -/
theorem retained10_dead : ((loaded tiny retained10).map fun t => avoids [0, 1, 2, 6, 10] t.nodes) = some true := by decide +kernel

theorem retained10_collected : ∃ t, Shows (ctx tiny) retained10 t ∧ avoids [0, 1, 2, 6, 10] t.nodes = true ∧
    Collected env retained10.root retained10.store (hole [0, 1, 2, 6, 10] retained10).store := by
  have hx := retained10_dead
  cases ht : loaded tiny retained10 with
  | none => rw [ht] at hx; cases hx
  | some t =>
    rw [ht] at hx
    have h1 := Option.some.inj hx
    have sh := shows_of_loaded tiny_ok retained10_reach retained10_small ht
    exact ⟨t, sh, h1, collected_tiny retained10_reach retained10_small sh h1⟩

/-- C93: after they have been deleted, the tree has the same elements, and the builder can get into this state. -/
example : Contains (ctx tiny) (hole [0, 1, 2, 6, 10] retained10) (List.replicate 4 none ++ (seq 4 6).map some) ∧
    Reach (ctx tiny) (hole [0, 1, 2, 6, 10] retained10) := by
  obtain ⟨_, _, _, hc⟩ := retained10_collected
  exact ⟨(C93_contains tiny_ok env_scrapesIdx retained10_reach retained10_small hc (hole_coherent tiny _ _)).mpr retained10_contains,
    C93_reach tiny_ok env_scrapesIdx retained10_reach retained10_small hc (hole_coherent tiny _ _)⟩

/-- C93: the iteration over the indexes delivers the same, for example backward. -/
example : ∃ indexes, Enumerates (fun between n fuel t => Tree.indexes allQuery .backward between n fuel t) (ctx tiny).sec
    (snapshot (ctx tiny) retained10) (hole [0, 1, 2, 6, 10] retained10) indexes := by
  obtain ⟨_, _, _, hc⟩ := retained10_collected
  obtain ⟨⟨indexes, _, h⟩, _⟩ := C93_indexes tiny_ok env_scrapesIdx retained10_reach retained10_small hc (hole_coherent tiny _ _) allQuery .backward
  exact ⟨indexes, h⟩

/-- C93: the blocks of the purged leaves (0, 1) and branch (2) and the replaced branches (6, 10) cannot be found any more; the others are found. -/
example : ∀ l ∈ ([0, 1, 2, 6, 10] : List Nat), ¬ Found env retained10.store (show Nat from 12) l := by
  obtain ⟨t, sh, h1, _⟩ := retained10_collected
  have key : ∀ {s : St env} {r : Nat}, Reach (ctx tiny) s → Small env s → Shows (ctx tiny) s t → rootLink s.root = some r →
      ∀ l ∈ ([0, 1, 2, 6, 10] : List Nat), ¬ Found env s.store r l := by
    intro s r hr hs sh hroot l hl hf
    obtain ⟨n, hn, hlink⟩ := (found_tiny hr hs sh hroot).mp hf
    have h2 := List.all_eq_true.mp h1 n hn
    rw [show (show Option Nat from n.index.link) = some l from hlink] at h2
    exact not_mem_of h2 hl
  have hroot : (show Option Nat from rootLink retained10.root) = some 12 := by decide +kernel
  exact key retained10_reach retained10_small sh hroot

/-- C93: then three elements are appended, with the same result as before the garbage collection. -/
example : ∃ s1, performAll (ctx tiny) [.extend 10 (seq 10 3)] (hole [0, 1, 2, 6, 10] retained10) = .ok () s1 ∧
    s1.root = (endState (extend (ctx tiny) 10 (seq 10 3)) retained10).root ∧ rootCount s1.root = 13 := by
  obtain ⟨_, _, _, hc⟩ := retained10_collected
  have key : ∀ {s s' : St env}, Reach (ctx tiny) s → Collected env s.root s.store (hole [0, 1, 2, 6, 10] s).store →
      rootLevel s.root < 10 ∧ rootCount s.root + (seq 10 3).length ≤ maxElements → extend (ctx tiny) 10 (seq 10 3) s = .ok () s' → Small env s' →
      ∃ s1, performAll (ctx tiny) [.extend 10 (seq 10 3)] (hole [0, 1, 2, 6, 10] s) = .ok () s1 ∧ s1.root = s'.root := by
    intro s s' hr hc h1 h2 hs
    obtain ⟨s1, _, g1, g2, _⟩ := C93_works tiny_ok env_scrapesIdx hr hc (hole_alike _ _) (hole_coherent tiny _ _) (ws := [.extend 10 (seq 10 3)]) (.cons h1 h2 (.nil s')) hs
    exact ⟨s1, g1, g2⟩
  obtain ⟨s1, h1, h2⟩ := key (s' := endState (extend (ctx tiny) 10 (seq 10 3)) retained10) retained10_reach hc (by decide +kernel)
    (ok_of_succeeds (by decide +kernel)) (small_of (by decide +kernel))
  exact ⟨s1, h1, h2, by rw [h2]; decide +kernel⟩

/-- C93: the snapshot from before purging can still be read after the two blocks that only the purged tree needs have been deleted. -/
example : Contains (ctx tiny) { hole [11, 12] retained10 with root := unpacked10.root } ((seq 0 10).map some) := by
  have hrun : Run (ctx tiny) unpacked10 retained10 := .retain 10 (keyRange 5 5) (.refl _) (by decide +kernel)
  have hx : ((loaded tiny { retained10 with root := unpacked10.root }).map fun t => avoids [11, 12] t.nodes) = some true := by decide +kernel
  have key : ∀ {s s' : St env} {c : List (Option (Nat × Nat))}, Reach (ctx tiny) s → Run (ctx tiny) s s' → Small env s' → Contains (ctx tiny) s c →
      ((loaded tiny { s' with root := s.root }).map fun t => avoids [11, 12] t.nodes) = some true →
      Contains (ctx tiny) { hole [11, 12] s' with root := s.root } c := by
    intro s s' c hr hrun hs hc hx
    cases ht : loaded tiny { s' with root := s.root } with
    | none => rw [ht] at hx; cases hx
    | some t =>
      rw [ht] at hx
      have hr' : Reach (ctx tiny) { s' with root := s.root } := hr.run (.rollback (.refl s) hrun)
      have sh := shows_of_loaded tiny_ok hr' hs ht
      have hcol : Collected env s.root s'.store (hole [11, 12] s').store := collected_tiny hr' hs sh (Option.some.inj hx)
      exact C93_snapshot tiny_ok env_scrapesIdx hr hrun hs hc hcol (hole_coherent tiny [11, 12] { s' with root := s.root })
  exact key unpacked10_reach hrun retained10_small unpacked10_contains hx

end Banyan
