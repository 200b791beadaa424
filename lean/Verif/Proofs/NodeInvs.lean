import Verif.Spec.Nodes
import Verif.Proofs.Unique
import Verif.Proofs.Snap
/-
Instances of node invariants.
-/
set_option autoImplicit false
namespace Banyan

open PTree

variable {T : TreeTypes} {V : Type} {E : Env T V} {cx : Ctx E} {I : NodeInv cx} {s : St E}

theorem Shows.unique (h : E.Lawful) {t t' : PTree T V} (h1 : Shows cx s t) (h2 : Shows cx s t') : t = t' := by
  have hr := h1.root
  rw [h2.root] at hr
  exact Stored.unique h h1.stored h2.stored (Option.some.inj hr).symm

theorem HoldsI.shows {t : PTree T V} (hh : HoldsI I s (some t)) : Shows cx s t :=
  ⟨hh.root, (hh.good t rfl).stored⟩

theorem Inv.shows (h : E.Lawful) {t0 : Option (PTree T V)} {t : PTree T V} (hi : Inv I s t0) (hs : Shows cx s t) : t0 = some t := by
  cases t0 with
  | none =>
    have := hi.holds.root
    rw [hs.root] at this
    cases this
  | some t0 => rw [hs.unique h hi.holds.shows]

theorem Inv.good (h : E.Lawful) {t0 : Option (PTree T V)} {t : PTree T V} (hi : Inv I s t0) (hs : Shows cx s t) : Good I s.store t :=
  hi.holds.good t (hi.shows h hs)

/-- Every reachable tree that is not empty can be loaded. -/
theorem Reach.shows (ok : cx.Ok) (hr : Reach cx s) (hs : Small E s) (hn : s.root ≠ none) : ∃ t : PTree T V, Shows cx s t := by
  obtain ⟨t, hi⟩ := ok.inv hr hs
  cases t with
  | none => exact absurd hi.holds.root hn
  | some t => exact ⟨t, hi.holds.shows⟩

theorem Reach.good (ok : cx.Ok) (F : ∀ c, NodeInv (⟨c, cx.sec⟩ : Ctx E)) (hF : ∀ c c', (F c).J = (F c').J)
    (hI : ∀ c, (F c).Rewrites) (hr : Reach cx s) (hs : Small E s) {t : PTree T V} (ht : Shows cx s t) :
    Good (F cx.cfg) s.store t := by
  obtain ⟨t0, hi⟩ := hr.inv ok.env ok.types ok.cfg F hF hI hs
  exact hi.good ok.env ht

theorem Reach.wf (ok : cx.Ok) (hr : Reach cx s) (hs : Small E s) {t : PTree T V} (ht : Shows cx s t) :
    Good (NodeInv.trivial cx) s.store t := by
  obtain ⟨t0, hi⟩ := ok.inv hr hs
  exact hi.good ok.env ht

theorem Steady.good (ok : cx.Ok) (hI : I.Rewrites) (hr : Steady cx s) (hs : Small E s) {t : PTree T V} (ht : Shows cx s t) :
    Good I s.store t := by
  obtain ⟨t0, hi⟩ := hr.inv ok.env ok.types ok.cfg hI hs
  exact hi.good ok.env ht

theorem Appended.inv (h : E.Lawful) (ht : T.Lawful) (hv : cx.cfg.Valid) (F : ∀ cx : Ctx E, NodeInv cx)
    (hF : ∀ c c' sec, (F ⟨c, sec⟩).J = (F ⟨c', sec⟩).J) (hI : ∀ cx, (F cx).Reloads) (hr : Appended cx s)
    (hs : Small E s) : ∃ t, Inv (F cx) s t := by
  induction hr with
  | fresh s h1 h2 =>
    exact ⟨none, ⟨by rw [h1]; rfl, h2, by simp⟩, trivial, by rw [h1]; exact Nat.zero_le _, Nat.zero_le _, trivial⟩
  | extend fuel xs _ hf hn ih =>
    obtain ⟨t, hi⟩ := ih hv ((frame0_extend h fuel xs _).1.small hs)
    exact hi.extend h ht hv fuel xs hf hn hs
  | extendUnpacked fuel xs _ hf hn ih =>
    obtain ⟨t, hi⟩ := ih hv ((frame0_extendUnpacked h fuel xs _).1.small hs)
    exact hi.extendUnpacked h ht hv fuel xs hn hs
  | pack fuel _ hf ih =>
    obtain ⟨t, hi⟩ := ih hv ((frame0_pack h fuel _).1.small hs)
    exact hi.pack h ht hv fuel hf hs
  | rollback _ h2 ih =>
    have hx := h2.ext0 h
    obtain ⟨t, hi⟩ := ih hv (hx.small hs)
    refine ⟨t, ⟨hi.holds.root, hx.coherent hi.holds.coherent, fun t' ht' => (hi.holds.good t' ht').mono hx.store⟩, hi.purge, hi.level, hi.count, hi.minRoot⟩
  | world σ γ _ h1 h2 ih =>
    obtain ⟨t, hi⟩ := ih hv hs
    exact ⟨t, ⟨hi.holds.root, h2, fun t' ht' => (hi.holds.good t' ht').mono h1⟩, hi.purge, hi.level, hi.count, hi.minRoot⟩
  | @load cx cfg' s i l h0 h1 h2 h3 ih =>
    have hw : (endState (loadStreamBuilder cx l) s).written = s.written := by
      unfold endState loadStreamBuilder
      split <;> (rename_i hx; split at hx <;> cases hx <;> rfl)
    obtain ⟨t, hi⟩ := ih h0 (by unfold Small at *; rw [← hw]; exact hs)
    obtain ⟨s', t', k1, k2, _⟩ := load_inv hv ht (hI cx) (hi.reconfigure (hF _ _ _)) h2 h3
    exact ⟨t', by unfold endState; rw [k1]; exact k2⟩

/-- What can be reached without `retain` can be reached. -/
theorem Appended.reach (hr : Appended cx s) : Reach cx s := by
  induction hr with
  | fresh s h1 h2 => exact .fresh s h1 h2
  | extend fuel xs _ hf hn ih => exact .run ih (.extend fuel xs (.refl _) hf hn)
  | extendUnpacked fuel xs _ hf hn ih => exact .run ih (.extendUnpacked fuel xs (.refl _) hf hn)
  | pack fuel _ hf ih => exact .run ih (.pack fuel (.refl _) hf)
  | rollback _ h2 ih => exact .run ih (.rollback (.refl _) h2)
  | world σ γ _ h1 h2 ih => exact .run ih (.world σ γ (.refl _) h1 h2)
  | load i l h0 _ h2 h3 ih => exact .load h0 i l ih h2 h3

/-! ### links -/

theorem envelope_mono {a b : E.σ} (h : StoreLe E a b) {l : T.Link} {x : Nat × List Cid × Bytes} (hx : envelope E a l = some x) :
    envelope E b l = some x := by
  unfold envelope at *
  cases hg : E.get a l with
  | error m => rw [hg] at hx; cases hx
  | ok y => rw [h l y hg]; rw [hg] at hx; exact hx

theorem envelope_get (h : E.Lawful) {σ : E.σ} {l : T.Link} {x : Nat × List Cid × Bytes} (hx : E.get σ l = .ok (E.encNode x)) :
    envelope E σ l = some x := by
  unfold envelope
  rw [hx]
  simp only [h.decNode_encNode]

theorem envelope_congr {σ τ : E.σ} {l : T.Link} (h : E.get τ l = E.get σ l) : envelope E τ l = envelope E σ l := by
  unfold envelope
  rw [h]

/-- The link section of the block of a node contains exactly the links of its values or children. -/
def linksInv (h : E.Lawful) (cx : Ctx E) : NodeInv cx where
  J σ
    | .leaf i vs => ∃ l o links d, i.link = some l ∧ envelope E σ l = some (o, links, d) ∧
        LinksOf E (vs.map E.encV) links
    | .branch i cs => ∃ l o links d, i.link = some l ∧ envelope E σ l = some (o, links, d) ∧
        LinksOf E ((cs.map index).map E.encIdx) links
    | _ => True
  mono := by
    intro a b t hle hj
    cases t with
    | leaf i vs =>
      obtain ⟨l, o, links, d, h1, h2, h3⟩ := hj
      exact ⟨l, o, links, d, h1, envelope_mono hle h2, h3⟩
    | branch i cs =>
      obtain ⟨l, o, links, d, h1, h2, h3⟩ := hj
      exact ⟨l, o, links, d, h1, envelope_mono hle h2, h3⟩
    | _ => trivial
  leaf := by
    intro σ i vs hm _
    obtain ⟨l, o, links, ws, h1, _, h2, _, _, _, _, _, h3, _⟩ := hm
    exact ⟨l, o, links, _, h1, envelope_get h h2, h3⟩
  branch := by
    intro σ i cs hm _ _
    obtain ⟨l, o, links, h1, _, h2, _, h3, _⟩ := hm
    exact ⟨l, o, links, _, h1, envelope_get h h2, h3⟩

theorem linksInv_rewrites (h : E.Lawful) : (linksInv h cx).Rewrites where
  purgeLeaf := fun _ => trivial
  purgeBranch := fun _ => trivial
  same := by
    intro σ i cs cs' ⟨l, o, links, d, h1, h2, h3⟩ he
    exact ⟨l, o, links, d, h1, h2, by rw [he]; exact h3⟩
  rewrite := by
    intro σ i cs cs' l _ _ ⟨o, links, _, h2, _, h3⟩
    exact ⟨l, o, links, _, rfl, envelope_get h h2, h3⟩
  reload := by
    intro σ i cs l bytes hj _ _
    exact hj
  damage := by
    intro σ τ n hj hs
    cases n with
    | leaf i vs =>
      obtain ⟨l, o, links, d, h1, h2, h3⟩ := hj
      exact ⟨l, o, links, d, h1, by rw [envelope_congr (hs l h1)]; exact h2, h3⟩
    | branch i cs =>
      obtain ⟨l, o, links, d, h1, h2, h3⟩ := hj
      exact ⟨l, o, links, d, h1, by rw [envelope_congr (hs l h1)]; exact h2, h3⟩
    | _ => trivial

/-! ### limits of leaves -/

/-- A leaf respects the limits. -/
def limitsInv (h : E.Lawful) (cx : Ctx E) : NodeInv cx where
  J σ
    | .leaf i vs => ∃ l o links d, i.link = some l ∧ envelope E σ l = some (o, links, d) ∧
        (i.isSealed = false → d.length < cx.cfg.targetLeafSize ∧ vs.length < cx.cfg.maxLeafCount ∧
          (encVals E vs).length < cx.cfg.maxUncompressedLeafSize) ∧
        (i.isSealed = true → cx.cfg.targetLeafSize ≤ d.length ∨ cx.cfg.maxLeafCount ≤ vs.length ∨
          ∃ v, (E.encV v).length ≤ cx.cfg.maxUncompressedLeafSize ∧
            cx.cfg.maxUncompressedLeafSize ≤ (encVals E vs).length + (E.encV v).length)
    | _ => True
  mono := by
    intro a b t hle hj
    cases t with
    | leaf i vs =>
      obtain ⟨l, o, links, d, h1, h2, h3⟩ := hj
      exact ⟨l, o, links, d, h1, envelope_mono hle h2, h3⟩
    | _ => trivial
  leaf := by
    intro σ i vs hm _
    obtain ⟨l, o, links, ws, h1, _, h2, _, _, _, _, _, _, h3, h4⟩ := hm
    refine ⟨l, o, links, _, h1, envelope_get h h2, ?_⟩
    rw [applyKeystream_length]
    exact ⟨h3, h4⟩
  branch := fun _ _ _ => trivial

theorem limitsInv_rewrites (h : E.Lawful) : (limitsInv h cx).Rewrites :=
  ⟨fun _ => trivial, fun _ => trivial, fun _ _ => trivial, fun _ _ _ => trivial, fun _ _ _ => trivial, by
    intro σ τ n hj hs
    cases n with
    | leaf i vs =>
      obtain ⟨l, o, links, d, h1, h2, h3⟩ := hj
      exact ⟨l, o, links, d, h1, by rw [envelope_congr (hs l h1)]; exact h2, h3⟩
    | _ => trivial⟩

/-- A node respects the limits of the configuration of the builder. -/
def withinInv (cx : Ctx E) : NodeInv cx where
  J _ n := WithinAt E cx.cfg n
  mono := fun _ h => h
  leaf := fun _ h => h.elim id fun ⟨_, h⟩ => h
  branch := by
    intro σ i cs hm _ hl
    refine ⟨?_, ?_⟩
    · rcases hl with hl | ⟨i0, cs0, h1, h2, h3⟩
      · exact hl
      · rw [← h1, ← h2]; exact h3.1
    · obtain ⟨_, _, _, _, _, _, _, _, _, _, _, _, _, _, _, h⟩ := hm
      exact h

theorem withinInv_rewrites : (withinInv cx).Rewrites :=
  ⟨fun _ => trivial, fun _ => trivial, by
    intro σ i cs cs' h he
    refine ⟨?_, ?_⟩
    · have := congrArg List.length he
      simp only [List.length_map] at this
      rw [this]
      exact h.1
    · rw [he]; exact h.2, by
    intro σ i cs cs' l h he _
    refine ⟨?_, ?_⟩
    · have := congrArg List.length he
      simp only [List.length_map] at this
      show cs'.length ≤ _
      rw [this]
      exact h.1
    · rw [branchSealed_unlink cx.cfg i.level he]; exact h.2, fun h _ _ => ⟨h.1, rfl⟩, fun h _ => h⟩

theorem Steady.within (ok : cx.Ok) (hr : Steady cx s) (hs : Small E s) {t : PTree T V} (ht : Shows cx s t) : Within E cx.cfg t :=
  PTree.All.imp (fun _ h => h.2.2) (hr.good ok withinInv_rewrites hs ht)

/-- If the configuration is never changed, then no value is larger than its limit. -/
theorem Steady.fits (ok : cx.Ok) (hr : Steady cx s) (hs : Small E s) {c : List (Option (T.Key × V))} (hc : Contains cx s c)
    {k : T.Key} {v : V} (hk : some (k, v) ∈ c) : (E.encV v).length ≤ cx.cfg.maxUncompressedLeafSize := by
  obtain ⟨t, hi⟩ := hr.inv ok.env ok.types ok.cfg withinInv_rewrites hs
  rw [hi.holds.contains ok.env ok.types] at hc
  subst hc
  cases t with
  | none => simp [optContent] at hk
  | some t => exact Within.fits (PTree.All.imp (fun _ h => h.2.2) (hi.holds.good t rfl)) hk

theorem Allowed.none {cfg : Config} {vals : V → Prop} {e : Err} (h : Allowed E cfg vals e)
    (hv : ∀ v, vals v → (E.encV v).length ≤ cfg.maxUncompressedLeafSize) : Allowed E cfg (fun _ => False) e := by
  cases h with
  | offsets => exact .offsets
  | put s d m h => exact .put s d m h
  | scrapeVal v m h => exact .scrapeVal v m h
  | scrapeIdx i m h => exact .scrapeIdx i m h
  | tooLarge v m h1 h2 => exact absurd (hv v h1) (by omega)

/-! ### sizes -/

/-- The sizes recorded in a node. There are no purged nodes. -/
def sizesInv (h : E.Lawful) (cx : Ctx E) : NodeInv cx where
  J σ
    | .leaf i vs => i.valueBytes = leafSize E σ (.leaf i vs) ∧ ∃ l x, i.link = some l ∧ envelope E σ l = some x
    | .branch i cs => i.valueBytes = (cs.map fun c => c.index.valueBytes).sum ∧
        ∃ l b, i.link = some l ∧ E.get σ l = .ok b ∧ i.keyBytes = (cs.map fun c => c.index.keyBytes).sum + b.length
    | _ => False
  mono := by
    intro a b t hle hj
    cases t with
    | leaf i vs =>
      obtain ⟨h0, l, x, h1, h2⟩ := hj
      refine ⟨?_, l, x, h1, envelope_mono hle h2⟩
      rw [h0]
      simp only [leafSize, h1, Option.bind_some, h2, envelope_mono hle h2]
    | branch i cs =>
      obtain ⟨h0, l, x, h1, h2, h3⟩ := hj
      exact ⟨h0, l, x, h1, hle _ _ h2, h3⟩
    | _ => exact hj
  leaf := by
    intro σ i vs hm _
    obtain ⟨l, o, links, ws, h1, _, h2, _, h3, _⟩ := hm
    have h4 := envelope_get h h2
    refine ⟨?_, l, _, h1, h4⟩
    simp only [leafSize, h1, Option.bind_some, h4, h3, applyKeystream_length]
  branch := by
    intro σ i cs hm _ _
    obtain ⟨l, o, links, h1, _, h2, _, _, _, _, _, _, _, h3, h4, _⟩ := hm
    exact ⟨h3, l, _, h1, h2, h4⟩

theorem sizesInv_reloads (h : E.Lawful) : (sizesInv h cx).Reloads := by
  intro σ i cs l bytes ⟨h1, _⟩ hl hb
  exact ⟨h1, l, bytes, hl, hb, rfl⟩

end Banyan
