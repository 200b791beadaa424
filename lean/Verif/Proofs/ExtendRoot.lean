import Verif.Proofs.ExtendTree
import Verif.Proofs.BuilderFrame
/-
The operations `extend` and `extend_unpacked` of a builder.
-/
namespace Banyan

variable {T : TreeTypes} {V : Type} {E : Env T V} {cx : Ctx E} {I : NodeInv cx}

/-- The builder in state `s` has the tree `t`. -/
structure HoldsI (I : NodeInv cx) (s : St E) (t : Option (PTree T V)) : Prop where
  root : s.root = t.map PTree.index
  coherent : Coherent E cx.sec s
  good : ∀ t', t = some t' → Good I s.store t'

/-- Packedness of an optional tree. -/
def OptPacked : Option (PTree T V) → Prop
  | none => True
  | some t => Packed t

def OptMinRoot : Option (PTree T V) → Prop
  | none => True
  | some t => MinRoot t

def OptStraight : Option (PTree T V) → Prop
  | none => True
  | some t => Straight t ∧ MinRoot t ∧ 1 ≤ t.index.level

/-- All purged nodes of an optional tree are inside of its roots. -/
def OptPurgeOk : Option (PTree T V) → Prop
  | none => True
  | some t => t.PurgeOk (t.index.level : Int)

def OptKeeps : Option (PTree T V) → Option (PTree T V) → Prop
  | none, _ => True
  | some t, some t' => Keeps t t'
  | some _, none => False

theorem OptKeeps.refl (t : Option (PTree T V)) : OptKeeps t t := by
  cases t with
  | none => trivial
  | some t => exact Keeps.refl t

theorem OptKeeps.trans {a b c : Option (PTree T V)} (h1 : OptKeeps a b) (h2 : OptKeeps b c) : OptKeeps a c := by
  cases a with
  | none => trivial
  | some a =>
    cases b with
    | none => exact h1.elim
    | some b =>
      cases c with
      | none => exact h2.elim
      | some c => exact Keeps.trans h1 h2

theorem HoldsI.mono {s s' : St E} {t : Option (PTree T V)} (h : HoldsI I s t) (hx : Ext0 cx s s')
    (hr : s'.root = s.root) : HoldsI I s' t :=
  ⟨by rw [hr, h.root], hx.coherent h.coherent, fun t' ht => (h.good t' ht).mono hx.store⟩

theorem HoldsI.level {s : St E} {t : PTree T V} (h : HoldsI I s (some t)) : rootLevel s.root = t.index.level := by
  rw [h.root]; rfl

theorem extend_spec (h : E.Lawful) (ht : T.Lawful) (hv : cx.cfg.Valid) {vals : V → Prop} {R : Err → Prop}
    (hR : ∀ e, Allowed E cx.cfg vals e → R e) (fuel : Nat) (xs : List (T.Key × V)) (t : Option (PTree T V))
    (s : St E) (hh : HoldsI I s t) (hvals : ∀ kv ∈ xs, vals kv.2) (hfuel : rootLevel s.root < fuel)
    (hlevel : max 1 (rootLevel s.root) + xs.length < u32max) (hpan : OptPacked t ∨ ∀ m, R (.panic m)) :
    Post (extend cx fuel xs) s (fun _ s' => ∃ t', HoldsI I s' t' ∧ optContent t' = optContent t ++ xs.map some ∧
      (OptPacked t → OptPacked t') ∧ (OptStraight t → OptStraight t') ∧ OptKeeps t t' ∧ (OptPurgeOk t → OptPurgeOk t') ∧
      rootLevel s'.root ≤ max 1 (rootLevel s.root) + xs.length ∧ (OptMinRoot t → OptMinRoot t')) R := by
  unfold extend
  by_cases hx : xs = []
  · subst hx
    exact Post.pure fun _ => ⟨t, hh, by simp, id, id, OptKeeps.refl t, id, by omega, id⟩
  · rw [if_neg (by simpa using hx)]
    refine Post.getIndexBind ?_
    rw [hh.root]
    unfold extendAbove
    have hu : u32max = 4294967295 := rfl
    cases t with
    | none =>
      have hrl : rootLevel s.root = 0 := by rw [hh.root]; rfl
      refine Post.bind0 (frame_extendAboveWith h (frame_extend0 h fuel) _ _ _).frame0 (fun _ => frame0_setIndex _)
        (extendAboveWith_none (I := I) h ht hv hR u32max xs hx hvals s) ?_
      rintro ⟨i, rest⟩ s' hext _ ⟨t', taken, g1, g2, g3, g4, g5, g6, g7, g8, g9, g10, g11, g12⟩
      simp only at g1 g2 g9
      subst g1
      have hl : taken.length ≤ xs.length := by rw [g2]; simp
      have hrest : rest = [] := by
        rcases g9 with g9 | ⟨_, g9⟩
        · exact g9
        · omega
      subst hrest
      show Small E _ → _
      intro _
      refine ⟨some t', ⟨rfl, hext.coherent hh.coherent, fun t2 h2 => ?_⟩, ?_, fun _ => g5, fun _ => ⟨g6, g7, by omega⟩, trivial,
        fun _ => (noPurge_of_content g3.wf g4).purgeOk _, ?_, fun _ => g7⟩
      · cases h2; exact g3
      · simp only [List.append_nil] at g2
        simp [optContent, g4, g2]
      · show t'.index.level ≤ _
        omega
    | some t =>
      have hrl : rootLevel s.root = t.index.level := hh.level
      rw [hrl] at hlevel hfuel
      refine Post.bind0 (frame_extendAboveWith h (frame_extend0 h fuel) _ _ _).frame0 (fun _ => frame0_setIndex _)
        (extendAboveWith_some (I := I) h ht hv hR (frame_extend0 h fuel) u32max t xs hx hvals (by omega) s
          (extend0_spec h ht hv hR fuel t xs hvals hfuel hpan s (hh.good t rfl) hh.coherent)) ?_
      rintro ⟨i, rest⟩ s' hext _ ⟨t', taken, g1, g2, g3, g4, g5, g6, g7⟩
      simp only at g1 g2 g5
      subst g1
      have hl : taken.length ≤ xs.length := by rw [g2]; simp
      have hrest : rest = [] := by
        rcases g5 with g5 | ⟨_, g5⟩
        · exact g5
        · omega
      subst hrest
      show Small E _ → _
      intro _
      refine ⟨some t', ⟨rfl, hext.coherent hh.coherent, fun t2 h2 => ?_⟩, ?_, g3.packed, fun hs => ⟨g3.straight hs.1, g3.minRoot hs.2.1, by omega⟩,
        g3.keeps, fun hp => purgeOk_of_le (g3.purge (t'.index.level : Int) (purgeOk_of_le hp (by omega) (by have := g3.level; omega))) (by omega) (by omega), ?_, g3.minRoot⟩
      · cases h2; exact g3.good
      · simp only [List.append_nil] at g2
        simp [optContent, g3.content, g2]
      · show t'.index.level ≤ max 1 t.index.level + xs.length
        omega

theorem extendUnpacked_spec (h : E.Lawful) (ht : T.Lawful) (hv : cx.cfg.Valid) {vals : V → Prop} {R : Err → Prop}
    (hR : ∀ e, Allowed E cx.cfg vals e → R e) (fuel : Nat) (xs : List (T.Key × V)) (t : Option (PTree T V))
    (s : St E) (hh : HoldsI I s t) (hvals : ∀ kv ∈ xs, vals kv.2)
    (hlevel : 1 + xs.length < u32max) :
    Post (extendUnpacked cx fuel xs) s (fun _ s' => ∃ t', HoldsI I s' t' ∧ optContent t' = optContent t ++ xs.map some ∧
      OptKeeps t t' ∧ (OptPurgeOk t → OptPurgeOk t') ∧ rootLevel s'.root ≤ max (rootLevel s.root) (1 + xs.length) + 1 ∧
      (t = none → rootLevel s'.root ≤ 1 + xs.length) ∧ (OptMinRoot t → OptMinRoot t') ∧ (xs ≠ [] → 1 ≤ rootLevel s'.root)) R := by
  unfold extendUnpacked
  refine Post.getIndexBind ?_
  rw [hh.root]
  by_cases hx : xs = []
  · subst hx
    have : extendUnpacked0 cx fuel (t.map PTree.index) [] = pure (t.map PTree.index) := rfl
    rw [this, pure_bind]
    show Small E _ → _
    intro _
    exact ⟨t, ⟨rfl, hh.coherent, hh.good⟩, by simp, OptKeeps.refl t, id, by rw [← hh.root]; simp only; omega,
      fun ht => by subst ht; show rootLevel (none : Option (Index T)) ≤ _; simp [rootLevel], id, fun h => absurd rfl h⟩
  · have hu : u32max = 4294967295 := rfl
    unfold extendUnpacked0
    rw [if_neg (by simpa using hx)]
    unfold extendAbove
    rw [bind_assoc]
    have hfr : ∀ (a : Index T × List (T.Key × V)), Frame0 cx ((match t.map PTree.index with
        | some x => do
          let x ← extendBranch cx [x, a.1] (max x.level a.1.level + 1) a.2 .unpacked
          pure (some (.branch x.1))
        | none => pure (some a.1) : M E (Option (Index T))) >>= setIndex) := by
      intro a
      refine Frame0.bind ?_ fun _ => frame0_setIndex _
      cases t with
      | none => exact (Frame.pure _).frame0
      | some t => exact (Frame.bind (frame_extendBranch h _ _ _ _) fun _ => Frame.pure _).frame0
    refine Post.bind0 (frame_extendAboveWith h (frame_extend0 h fuel) _ _ _).frame0 hfr
      (extendAboveWith_none (I := I) h ht hv hR u32max xs hx hvals s) ?_
    rintro ⟨i, rest⟩ s' hext _ ⟨b, taken, g1, g2, g3, g4, g5, g6, g7, g8, g9, g10, g11, g12⟩
    simp only at g1 g2 g9
    subst g1
    have hl : taken.length ≤ xs.length := by rw [g2]; simp
    have hrest : rest = [] := by
      rcases g9 with g9 | ⟨_, g9⟩
      · exact g9
      · omega
    subst hrest
    simp only [List.append_nil] at g2
    subst g2
    have hb : 1 ≤ b.index.level := by rcases g10 with g10 | g10 <;> omega
    cases t with
    | none =>
      have hrl : rootLevel s.root = 0 := by rw [hh.root]; rfl
      show Small E _ → _
      intro _
      refine ⟨some b, ⟨rfl, hext.coherent hh.coherent, fun t2 h2 => by cases h2; exact g3⟩, ?_, trivial,
        fun _ => (noPurge_of_content g3.wf g4).purgeOk _, ?_, fun _ => ?_, fun _ => g7, fun _ => hb⟩
      · simp [optContent, g4]
      · show b.index.level ≤ _
        omega
      · show b.index.level ≤ _
        omega
    | some a =>
      have hrl : rootLevel s.root = a.index.level := hh.level
      simp only [Option.map_some]
      generalize hlv : max a.index.level b.index.level = lv
      rw [extendBranch_succ, bind_assoc]
      have hsp := extendBranchWith_spec (I := I) (vals := vals) h hv hR (fillNode_spec (I := I) h ht hv hR lv)
          (frame_fillNode h lv) [a, b] [] (by simp) .unpacked
          (by
            intro c hc
            simp only [List.mem_cons, List.not_mem_nil, or_false] at hc
            rcases hc with rfl | rfl <;> omega)
          (Or.inr (by
            by_cases hab : a.index.level ≤ b.index.level
            · exact ⟨b, by simp, by omega⟩
            · exact ⟨a, by simp, by omega⟩)) (Or.inl (by simp))
          (by simp) (by simp) (by simp) s'
          (by
            intro c hc
            simp only [List.mem_cons, List.not_mem_nil, or_false] at hc
            rcases hc with rfl | rfl
            · exact (hh.good _ rfl).mono hext.store
            · exact g3)
          (Or.inl (by
            unfold Config.maxBranches
            rw [if_neg (by omega)]
            simpa using hv.summary))
      refine Post.bind0 (frame_extendBranchWith h (frame_fillNode h _) _ _ _ _).frame0
        (fun _ => Frame0.bind (Frame.pure _).frame0 fun _ => frame0_setIndex _) hsp ?_
      rintro ⟨i, rest⟩ s2 hx2 _ ⟨new, taken', k1, k2, k3, k4, k5, k6, k7, _⟩
      simp only at k2 k3 k4 k5
      have k4' : taken' = [] := (List.append_eq_nil_iff.mp k4.symm).1
      subst k4'
      have hnew : new = [] := List.eq_nil_of_length_eq_zero (by simpa using k6)
      subst hnew
      simp only [List.append_nil] at k3
      rw [pure_bind]
      show Small E _ → _
      intro _
      refine ⟨some (.branch i [a, b]), ⟨rfl, hx2.coherent (hext.coherent hh.coherent), fun t2 h2 => by cases h2; exact k3⟩, ?_, ?_, ?_, ?_, by simp, (fun _ _ => by simp), fun _ => ?_⟩
      · simp [optContent, PTree.content, PTree.contents, g4]
      · exact Keeps.child (by simp)
      · intro hp
        refine Or.inr ⟨purgeOk_of_le hp (by omega) ?_, (noPurge_of_content g3.wf g4).purgeOk _, trivial⟩
        show (a.index.level : Int) ≤ min (i.level : Int) ((i.level : Int) - 1)
        omega
      · show i.level ≤ max a.index.level (1 + xs.length) + 1
        omega
      · show 1 ≤ i.level
        omega

end Banyan
