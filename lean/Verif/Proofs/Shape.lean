import Verif.Spec.Shape
import Verif.Proofs.NodeInvs
/-
The shape of trees, and their parts.
-/
set_option autoImplicit false
namespace Banyan

open PTree

variable {T : TreeTypes} {V : Type} {E : Env T V} {cx : Ctx E} {I : NodeInv cx}

/-! ### cuts -/

theorem CutL.single_cut {c : PTree T V} {rs : List (PTree T V)} (h : Cut c rs) : CutL [c] rs := by
  have := CutL.cons c [] rs [] h .nil
  simpa using this

/-- Levels go down from the root. -/
def Descends (t : PTree T V) : Prop := t.All fun
  | .branch i cs => cs ≠ [] ∧ ∀ c ∈ cs, c.index.level < i.level
  | _ => True

theorem WF.descends {t : PTree T V} (h : WF E t) : Descends t := by
  refine PTree.All.imp ?_ h
  intro n hn
  cases n with
  | branch i cs => exact ⟨hn.1, hn.2.1⟩
  | leaf => trivial
  | purgedLeaf => trivial
  | purgedBranch => trivial

/-- What is known about a cut, by induction over the tree: its parts are nodes which are not above the tree, there is at least one,
and the parts at the start that are sealed and sorted are inside of the roots found by `rootsOf`. -/
structure CutSpec (t : PTree T V) (L : List (PTree T V)) : Prop where
  ne : L ≠ []
  mem : ∀ r ∈ L, r ∈ t.nodes ∧ r.index.level ≤ t.index.level
  inside : ∀ rs more (l : Int), L = rs ++ more → (∀ r ∈ rs, r.index.isSealed = true) → rs.Pairwise (fun a b => b.index.level ≤ a.index.level) →
    (∀ r ∈ rs, (r.index.level : Int) ≤ l) → ∀ r ∈ rs, ∃ g ∈ (rootsOf t l).2, r ∈ g.nodes
  state : ∀ (l x : Int), (∀ r ∈ L, r.index.isSealed = true) → L.Pairwise (fun a b => b.index.level ≤ a.index.level) →
    (∀ r ∈ L, (r.index.level : Int) ≤ l) → (∀ r ∈ L, x ≤ (r.index.level : Int)) → x ≤ (rootsOf t l).1

structure CutLSpec (cs : List (PTree T V)) (L : List (PTree T V)) : Prop where
  ne : cs ≠ [] → L ≠ []
  mem : ∀ r ∈ L, ∃ c ∈ cs, r ∈ c.nodes ∧ r.index.level ≤ c.index.level
  inside : ∀ rs more (l : Int), L = rs ++ more → (∀ r ∈ rs, r.index.isSealed = true) → rs.Pairwise (fun a b => b.index.level ≤ a.index.level) →
    (∀ r ∈ rs, (r.index.level : Int) ≤ l) → ∀ r ∈ rs, ∃ g ∈ (rootsOfL cs l).2, r ∈ g.nodes
  state : ∀ (l x : Int), (∀ r ∈ L, r.index.isSealed = true) → L.Pairwise (fun a b => b.index.level ≤ a.index.level) →
    (∀ r ∈ L, (r.index.level : Int) ≤ l) → (∀ r ∈ L, x ≤ (r.index.level : Int)) → x ≤ l → x ≤ (rootsOfL cs l).1

theorem CutLSpec.cons {c : PTree T V} {cs L L' : List (PTree T V)} (h1 : CutSpec c L) (h2 : CutLSpec cs L') : CutLSpec (c :: cs) (L ++ L') := by
  -- the level that is left after the first child
  have key : ∀ (l : Int) (rs' : List (PTree T V)), (∀ r ∈ L ++ rs', r.index.isSealed = true) →
      (L ++ rs').Pairwise (fun a b => b.index.level ≤ a.index.level) → (∀ r ∈ L ++ rs', (r.index.level : Int) ≤ l) →
      ∀ r ∈ rs', (r.index.level : Int) ≤ (rootsOf c l).1 := by
    intro l rs' hs hp hl r hr
    refine h1.state l _ (fun x hx => hs x (by simp [hx])) (List.pairwise_append.mp hp).1 (fun x hx => hl x (by simp [hx])) ?_
    intro x hx
    have := (List.pairwise_append.mp hp).2.2 x hx r hr
    omega
  refine ⟨fun _ h => h1.ne (List.append_eq_nil_iff.mp h).1, ?_, ?_, ?_⟩
  · intro r hr
    rcases List.mem_append.mp hr with hr | hr
    · exact ⟨c, by simp, h1.mem r hr⟩
    · obtain ⟨c', h3, h4⟩ := h2.mem r hr
      exact ⟨c', by simp [h3], h4⟩
  · intro rs more l he hs hp hl r hr
    simp only [rootsOfL]
    rcases List.append_eq_append_iff.mp he with ⟨a, ha, hb⟩ | ⟨a, ha, hb⟩
    · -- the part reaches into the other children
      subst ha
      rcases List.mem_append.mp hr with hr | hr
      · obtain ⟨g, hg, hm⟩ := h1.inside L [] l (by simp) (fun x hx => hs x (by simp [hx])) (List.pairwise_append.mp hp).1 (fun x hx => hl x (by simp [hx])) r hr
        exact ⟨g, by simp [hg], hm⟩
      · obtain ⟨g, hg, hm⟩ := h2.inside a more (rootsOf c l).1 hb (fun x hx => hs x (by simp [hx])) (List.pairwise_append.mp hp).2.1
          (key l a hs hp hl) r hr
        exact ⟨g, by simp [hg], hm⟩
    · obtain ⟨g, hg, hm⟩ := h1.inside rs a l ha hs hp hl r hr
      exact ⟨g, by simp [hg], hm⟩
  · intro l x hs hp hl hx hxl
    simp only [rootsOfL]
    refine h2.state _ x (fun r hr => hs r (by simp [hr])) (List.pairwise_append.mp hp).2.1 (key l L' hs hp hl) (fun r hr => hx r (by simp [hr])) ?_
    exact h1.state l x (fun r hr => hs r (by simp [hr])) (List.pairwise_append.mp hp).1 (fun r hr => hl r (by simp [hr])) (fun r hr => hx r (by simp [hr]))

theorem CutSpec.whole (t : PTree T V) : CutSpec t [t] := by
  refine ⟨by simp, ?_, ?_, ?_⟩
  · intro r hr
    obtain rfl : r = t := by simpa using hr
    exact ⟨self_mem_nodes _, Nat.le_refl _⟩
  · intro rs more l he hs hp hl r hr
    have hrt : r = t := by
      have : r ∈ [t] := by rw [he]; simp [hr]
      simpa using this
    subst hrt
    rw [rootsOf_closed (hs r hr) (hl r hr)]
    exact ⟨r, by simp, self_mem_nodes _⟩
  · intro l x hs _ hl hx
    rw [rootsOf_closed (hs t (by simp)) (hl t (by simp))]
    exact hx t (by simp)

theorem cut_spec (t : PTree T V) (hd : Descends t) (L : List (PTree T V)) (h : Cut t L) : CutSpec t L := by
  induction t using PTree.induct generalizing L with
  | leaf => cases h; exact .whole _
  | purgedLeaf => cases h; exact .whole _
  | purgedBranch => cases h; exact .whole _
  | branch i cs ih =>
    cases h with
    | whole => exact .whole _
    | split _ _ _ hL =>
      have hcs : CutLSpec cs L := by
        have hdc : ∀ c ∈ cs, Descends c := fun c hc => PTree.All.child hd hc
        clear hd
        revert L
        induction cs with
        | nil =>
          intro L hL
          cases hL
          refine ⟨by simp, by simp, ?_, fun l x _ _ _ _ hx => hx⟩
          intro rs more l he _ _ _ r hr
          have : r ∈ ([] : List (PTree T V)) := by rw [he]; simp [hr]
          cases this
        | cons c cs ihc =>
          intro L hL
          cases hL with
          | cons _ _ rs rs' h1 h2 =>
            exact .cons (ih c (by simp) (hdc c (by simp)) rs h1)
              (ihc (fun c' hc' => ih c' (by simp [hc'])) (fun c' hc' => hdc c' (by simp [hc'])) rs' h2)
      obtain ⟨hne, hlt⟩ := PTree.All.root hd
      refine ⟨hcs.ne hne, ?_, ?_, ?_⟩
      · intro r hr
        obtain ⟨c, hc, h1, h2⟩ := hcs.mem r hr
        have := hlt c hc
        exact ⟨mem_nodes_branch.mpr (.inr ⟨c, hc, h1⟩), by show _ ≤ i.level; omega⟩
      · intro rs more l he hs hp hl r hr
        have hlv : ∀ r ∈ rs, (r.index.level : Int) ≤ (i.level : Int) - 1 := by
          intro r hr
          obtain ⟨c, hc, h1, h2⟩ := hcs.mem r (by rw [he]; simp [hr])
          have := hlt c hc
          omega
        simp only [rootsOf]
        split
        · obtain ⟨c, hc, h1, h2⟩ := hcs.mem r (by rw [he]; simp [hr])
          exact ⟨.branch i cs, by simp, mem_nodes_branch.mpr (.inr ⟨c, hc, h1⟩)⟩
        · exact hcs.inside rs more _ he hs hp (fun r hr => by have := hl r hr; have := hlv r hr; omega) r hr
      · intro l x hs hp hl hx
        have hlv : ∀ r ∈ L, (r.index.level : Int) ≤ (i.level : Int) - 1 := by
          intro r hr
          obtain ⟨c, hc, h1, h2⟩ := hcs.mem r hr
          have := hlt c hc
          omega
        obtain ⟨r0, hr0⟩ := List.exists_mem_of_ne_nil _ (hcs.ne hne)
        have h1 := hlv r0 hr0
        have h2 := hx r0 hr0
        have h3 := hl r0 hr0
        simp only [rootsOf]
        split
        · simp only; omega
        · exact hcs.state _ x hs hp (fun r hr => by have := hl r hr; have := hlv r hr; omega) hx (by omega)

/-- The packed part of a tree is inside of the roots that are kept by `pack`. -/
theorem PackedPart.inside {t : PTree T V} {rs : List (PTree T V)} (hp : PackedPart t rs) (hd : Descends t) (l : Int) (hl : (t.index.level : Int) ≤ l) :
    ∀ r ∈ rs, ∃ g ∈ (rootsOf t l).2, r ∈ g.nodes := by
  obtain ⟨more, hc⟩ := hp.start
  have hs := cut_spec t hd _ hc
  exact hs.inside rs more l rfl hp.sealed hp.sorted fun r hr => by
    have := (hs.mem r (by simp [hr])).2
    omega

/-! ### shapes -/

theorem shapes_eq (cs : List (PTree T V)) : shapes cs = cs.map PTree.shape := by
  induction cs with
  | nil => rfl
  | cons c cs ih => simp [shapes, ih]

/-- Leaves are sealed if and only if they have the maximal number of elements. -/
def CountLeaves (cfg : Config) (t : PTree T V) : Prop := t.All fun
  | .leaf i _ => i.isSealed = (T.keys.len i.keys == cfg.maxLeafCount)
  | _ => True

theorem Packed.parts {i : BranchIndex T} {cs : List (PTree T V)} (hp : Packed (.branch i cs)) (hne : cs ≠ [])
    (hs : i.isSealed = true → ∀ c ∈ cs, c.index.isSealed = true) :
    ∃ init last, cs = init ++ [last] ∧ (∀ c ∈ init, c.index.isSealed = true) ∧ Packed last := by
  cases hp with
  | closed _ _ h =>
    refine ⟨cs.dropLast, cs.getLast hne, (List.dropLast_concat_getLast hne).symm, fun c hc => hs h c ((List.dropLast_sublist cs).subset hc), ?_⟩
    exact closed_packed (hs h _ (List.getLast_mem hne))
  | unclosed _ init last h1 _ h3 => exact ⟨init, last, rfl, fun c hc => (h1 c hc).1, h3⟩

theorem sum_const {α : Type} (l : List α) (f : α → Nat) (n : Nat) (h : ∀ c ∈ l, f c = n) : (l.map f).sum = l.length * n := by
  induction l with
  | nil => simp
  | cons a l ih =>
    rw [List.map_cons, List.sum_cons, h a (by simp), ih (fun c hc => h c (by simp [hc])), List.length_cons, Nat.add_mul, Nat.one_mul, Nat.add_comm]

theorem map_const_replicate {α β : Type} (l : List α) (f : α → β) (b : β) (h : ∀ c ∈ l, f c = b) : l.map f = List.replicate l.length b := by
  induction l with
  | nil => rfl
  | cons a l ih => rw [List.map_cons, h a (by simp), ih (fun c hc => h c (by simp [hc]))]; rfl

theorem shape_spec {cfg : Config} {t : PTree T V} (hw : WF E t) (hwi : Within E cfg t) (hn : NoPurge t) (hc : CountLeaves cfg t) (hst : Straight t) (hp : Packed t) :
    0 < t.index.count ∧ t.index.count ≤ cfg.capacity t.index.level ∧ (t.index.isSealed = true ↔ t.index.count = cfg.capacity t.index.level) ∧
    t.shape = cfg.fullShape t.index.level t.index.count := by
  induction t using PTree.induct with
  | purgedLeaf => exact absurd (PTree.All.root hn) (by simp)
  | purgedBranch => exact absurd (PTree.All.root hn) (by simp)
  | leaf i vs =>
    obtain ⟨h1, h2, _⟩ := PTree.All.root hw
    obtain ⟨h3, _⟩ := PTree.All.root hwi
    have h4 : i.isSealed = (T.keys.len i.keys == cfg.maxLeafCount) := PTree.All.root hc
    show 0 < T.keys.len i.keys ∧ T.keys.len i.keys ≤ cfg.maxLeafCount ∧ (i.isSealed = true ↔ T.keys.len i.keys = cfg.maxLeafCount) ∧
      Shape.leaf (T.keys.len i.keys) i.isSealed = .leaf (T.keys.len i.keys) (T.keys.len i.keys == cfg.maxLeafCount)
    refine ⟨by rw [h1]; exact List.length_pos_iff.mpr h2, by omega, by rw [h4]; simp, by rw [h4]⟩
  | branch i cs ih =>
    obtain ⟨h1, h3, ⟨c0, hc0, h4⟩, h5, _, _, _⟩ := PTree.All.root hw
    obtain ⟨h2, h8⟩ := PTree.All.root hwi
    have hsl : ∀ c ∈ cs, c.index.level + 1 = i.level := PTree.All.root hst
    obtain ⟨l, hl⟩ : ∃ l, i.level = l + 1 := ⟨c0.index.level, h4.symm⟩
    rw [hl] at h8
    have hlv : ∀ c ∈ cs, c.index.level = l := fun c hc => by have := hsl c hc; omega
    have hsealed : i.isSealed = true → ∀ c ∈ cs, c.index.isSealed = true := by
      intro hs c hc
      rw [h8, branchSealed_iff] at hs
      exact (hs.1 c.index (List.mem_map_of_mem hc)).1
    obtain ⟨init, last, rfl, hi, hpl⟩ := hp.parts h1 hsealed
    have hall : ∀ c ∈ init ++ [last], Packed c → 0 < c.index.count ∧ c.index.count ≤ cfg.capacity l ∧
        (c.index.isSealed = true ↔ c.index.count = cfg.capacity l) ∧ c.shape = cfg.fullShape l c.index.count := by
      intro c hc' hpc
      have := ih c hc' (PTree.All.child hw hc') (PTree.All.child hwi hc') (PTree.All.child hn hc') (PTree.All.child hc hc') (PTree.All.child hst hc') hpc
      rwa [hlv c hc'] at this
    have hinit : ∀ c ∈ init, c.index.count = cfg.capacity l ∧ c.shape = cfg.fullShape l (cfg.capacity l) := by
      intro c hc'
      have := hall c (by simp [hc']) (closed_packed (hi c hc'))
      have h9 := this.2.2.1.mp (hi c hc')
      exact ⟨h9, by rw [this.2.2.2, h9]⟩
    obtain ⟨k1, k2, k3, k4⟩ := hall last (by simp) hpl
    have hcount : i.count = init.length * cfg.capacity l + last.index.count := by
      rw [h5, List.map_append, List.sum_append, sum_const init _ _ (fun c hc => (hinit c hc).1)]
      simp
    have hmb : cfg.maxBranches (l + 1) = if l = 0 then cfg.maxKeyBranches else cfg.maxSummaryBranches := by
      unfold Config.maxBranches
      by_cases h0 : l = 0 <;> simp [h0]
    have hcap : cfg.capacity (l + 1) = cfg.maxBranches (l + 1) * cfg.capacity l := by rw [hmb]; rfl
    rw [hl] at h2
    have hlen : init.length + 1 ≤ cfg.maxBranches (l + 1) := by simpa using h2
    have hle : (init.length + 1) * cfg.capacity l ≤ cfg.capacity (l + 1) := by
      rw [hcap]; exact Nat.mul_le_mul_right _ hlen
    rw [Nat.add_mul, Nat.one_mul] at hle
    have hcapl : 0 < cfg.capacity l := by omega
    have hseal : i.isSealed = true ↔ i.count = cfg.capacity (l + 1) := by
      rw [h8, branchSealed_iff, hcap, hcount]
      constructor
      · rintro ⟨s1, s3⟩
        have s4 : last.index.count = cfg.capacity l := k3.mp (s1 _ (List.mem_map_of_mem (by simp))).1
        have s5 : init.length + 1 = cfg.maxBranches (l + 1) := by
          have : cfg.maxBranches (l + 1) ≤ init.length + 1 := by simpa using s3
          omega
        rw [s4, ← s5, Nat.add_mul, Nat.one_mul]
      · intro he
        have s5 : init.length + 1 = cfg.maxBranches (l + 1) := by
          by_cases hlt : init.length + 1 < cfg.maxBranches (l + 1)
          · exfalso
            have : (init.length + 1 + 1) * cfg.capacity l ≤ cfg.maxBranches (l + 1) * cfg.capacity l := Nat.mul_le_mul_right _ hlt
            rw [Nat.add_mul, Nat.add_mul, Nat.one_mul] at this
            omega
          · omega
        have s4 : last.index.count = cfg.capacity l := by
          rw [← s5, Nat.add_mul, Nat.one_mul] at he
          omega
        refine ⟨?_, by simp [s5]⟩
        intro x hx
        obtain ⟨c, hc', rfl⟩ := List.mem_map.mp hx
        refine ⟨?_, hlv c hc'⟩
        rcases List.mem_append.mp hc' with hc' | hc'
        · exact hi c hc'
        · obtain rfl : c = last := by simpa using hc'
          exact k3.mpr s4
    show 0 < i.count ∧ i.count ≤ cfg.capacity i.level ∧ (i.isSealed = true ↔ i.count = cfg.capacity i.level) ∧
      Shape.branch i.level i.count i.isSealed (shapes (init ++ [last])) = cfg.fullShape i.level i.count
    rw [hl]
    refine ⟨by omega, by omega, hseal, ?_⟩
    have hss : i.isSealed = (i.count == cfg.capacity (l + 1)) := by
      rw [Bool.eq_iff_iff, hseal]; simp
    rw [hss, shapes_eq, List.map_append, map_const_replicate init _ _ (fun c hc => (hinit c hc).2)]
    simp only [Config.fullShape, List.map_cons, List.map_nil, Shape.branch.injEq, true_and]
    rw [k4]
    by_cases hfull : last.index.count = cfg.capacity l
    · have e1 : i.count / cfg.capacity l = init.length + 1 := by
        rw [hcount, hfull, show init.length * cfg.capacity l + cfg.capacity l = (init.length + 1) * cfg.capacity l by rw [Nat.add_mul, Nat.one_mul]]
        exact Nat.mul_div_cancel _ hcapl
      have e2 : i.count % cfg.capacity l = 0 := by
        rw [hcount, hfull, show init.length * cfg.capacity l + cfg.capacity l = (init.length + 1) * cfg.capacity l by rw [Nat.add_mul, Nat.one_mul]]
        exact Nat.mul_mod_left _ _
      rw [e1, e2, if_pos rfl, hfull, List.replicate_succ']
      simp
    · have e1 : i.count / cfg.capacity l = init.length := by
        rw [hcount, Nat.add_comm, Nat.add_mul_div_right _ _ hcapl, Nat.div_eq_of_lt (by omega)]
        omega
      have e2 : i.count % cfg.capacity l = last.index.count := by
        rw [hcount, Nat.add_comm, Nat.add_mul_mod_self_right, Nat.mod_eq_of_lt (by omega)]
      rw [e1, e2, if_neg (by omega)]

/-! ### shapes and leaves -/

def Shape.total : Shape → Nat
  | .leaf n _ => n
  | .branch _ n _ _ => n
def Shape.shut : Shape → Bool
  | .leaf _ b => b
  | .branch _ _ b _ => b
def Shape.height : Shape → Nat
  | .leaf _ _ => 0
  | .branch l _ _ _ => l

theorem shape_total (t : PTree T V) : t.shape.total = t.index.count := by cases t <;> rfl
theorem shape_shut (t : PTree T V) : t.shape.shut = t.index.isSealed := by cases t <;> rfl
theorem shape_height (t : PTree T V) : t.shape.height = t.index.level := by cases t <;> rfl

theorem leafSizesL_eq (cs : List (PTree T V)) : leafSizesL cs = (cs.map leafSizes).flatten := by
  induction cs with
  | nil => rfl
  | cons c cs ih => simp [leafSizesL, ih]

theorem length_flatten_const {α : Type} (ls : List (List α)) (n : Nat) (h : ∀ l ∈ ls, l.length = n) : ls.flatten.length = ls.length * n := by
  rw [List.length_flatten, ← List.map_id ls, List.map_map]
  rw [show (List.map id ls).length = ls.length by simp]
  exact sum_const ls _ n h

theorem flatten_const_inj {α : Type} {n : Nat} : (ls ls' : List (List α)) → (∀ l ∈ ls, l.length = n) → (∀ l ∈ ls', l.length = n) →
    ls.length = ls'.length → {r r' : List α} → ls.flatten ++ r = ls'.flatten ++ r' → ls = ls' ∧ r = r'
  | [], [], _, _, _, _, _, h => ⟨rfl, h⟩
  | [], _ :: _, _, _, h, _, _, _ => by simp at h
  | _ :: _, [], _, _, h, _, _, _ => by simp at h
  | l :: ls, l' :: ls', h1, h2, h3, r, r', h => by
    simp only [List.flatten_cons, List.append_assoc] at h
    obtain ⟨h4, h5⟩ := List.append_inj h (by rw [h1 l (by simp), h2 l' (by simp)])
    obtain ⟨h6, h7⟩ := flatten_const_inj ls ls' (fun x hx => h1 x (by simp [hx])) (fun x hx => h2 x (by simp [hx])) (by simpa using h3) h5
    exact ⟨by rw [h4, h6], h7⟩

theorem fullLeaves_succ (cfg : Config) (l : Nat) : cfg.fullLeaves (l + 1) = cfg.maxBranches (l + 1) * cfg.fullLeaves l := by
  unfold Config.maxBranches
  by_cases h0 : l = 0 <;> simp [h0, Config.fullLeaves]

/-- A node of a tree built by `extend`. -/
structure Regular (E : Env T V) (cfg : Config) (t : PTree T V) : Prop where
  wf : WF E t
  within : Within E cfg t
  whole : NoPurge t
  straight : Straight t
  packed : Packed t

theorem Regular.parts {cfg : Config} {i : BranchIndex T} {cs : List (PTree T V)} (h : Regular E cfg (.branch i cs)) :
    ∃ l init last, i.level = l + 1 ∧ cs = init ++ [last] ∧ (∀ c ∈ init, c.index.isSealed = true) ∧ (∀ c ∈ cs, Regular E cfg c ∧ c.index.level = l) ∧
      cs.length ≤ cfg.maxBranches (l + 1) ∧ i.isSealed = cfg.branchSealed (cs.map index) (l + 1) ∧ i.count = (cs.map fun c => c.index.count).sum := by
  obtain ⟨h1, h3, ⟨c0, hc0, h4⟩, h5, _, _, _⟩ := PTree.All.root h.wf
  obtain ⟨h2, h8⟩ := PTree.All.root h.within
  have hsl : ∀ c ∈ cs, c.index.level + 1 = i.level := PTree.All.root h.straight
  obtain ⟨l, hl⟩ : ∃ l, i.level = l + 1 := ⟨c0.index.level, h4.symm⟩
  rw [hl] at h8 h2
  have hsealed : i.isSealed = true → ∀ c ∈ cs, c.index.isSealed = true := by
    intro hs c hc
    rw [h8, branchSealed_iff] at hs
    exact (hs.1 c.index (List.mem_map_of_mem hc)).1
  obtain ⟨init, last, rfl, hi, hpl⟩ := h.packed.parts h1 hsealed
  refine ⟨l, init, last, hl, rfl, hi, fun c hc => ⟨⟨PTree.All.child h.wf hc, PTree.All.child h.within hc, PTree.All.child h.whole hc,
    PTree.All.child h.straight hc, ?_⟩, by have := hsl c hc; omega⟩, h2, h8, h5⟩
  rcases List.mem_append.mp hc with hc | hc
  · exact closed_packed (hi c hc)
  · obtain rfl : c = last := by simpa using hc
    exact hpl

theorem Regular.leaves {cfg : Config} {t : PTree T V} (h : Regular E cfg t) :
    0 < t.leafSizes.length ∧ t.leafSizes.length ≤ cfg.fullLeaves t.index.level ∧
      (t.index.isSealed = true → t.leafSizes.length = cfg.fullLeaves t.index.level) := by
  induction t using PTree.induct with
  | purgedLeaf => exact absurd (PTree.All.root h.whole) (by simp)
  | purgedBranch => exact absurd (PTree.All.root h.whole) (by simp)
  | leaf i vs => exact ⟨Nat.one_pos, Nat.le_refl 1, fun _ => rfl⟩
  | branch i cs ih =>
    obtain ⟨l, init, last, hl, rfl, hi, hc, h2, h8, _⟩ := h.parts
    have hall : ∀ c ∈ init ++ [last], 0 < c.leafSizes.length ∧ c.leafSizes.length ≤ cfg.fullLeaves l ∧
        (c.index.isSealed = true → c.leafSizes.length = cfg.fullLeaves l) := fun c hc' => by
      have := ih c hc' (hc c hc').1
      rwa [(hc c hc').2] at this
    have hin : (init.map leafSizes).flatten.length = init.length * cfg.fullLeaves l := by
      rw [length_flatten_const _ (cfg.fullLeaves l), List.length_map]
      intro x hx
      obtain ⟨c, hc', rfl⟩ := List.mem_map.mp hx
      exact (hall c (by simp [hc'])).2.2 (hi c hc')
    have hlen : (leafSizes (.branch i (init ++ [last]))).length = init.length * cfg.fullLeaves l + last.leafSizes.length := by
      show (leafSizesL (init ++ [last])).length = _
      rw [leafSizesL_eq, List.map_append, List.flatten_append, List.length_append, hin]
      simp
    obtain ⟨k1, k2, k3⟩ := hall last (by simp)
    have h2' : init.length + 1 ≤ cfg.maxBranches (l + 1) := by simpa using h2
    have hle : (init.length + 1) * cfg.fullLeaves l ≤ cfg.fullLeaves (l + 1) := by rw [fullLeaves_succ]; exact Nat.mul_le_mul_right _ h2'
    rw [Nat.add_mul, Nat.one_mul] at hle
    rw [hlen]
    show _ ∧ _ ≤ cfg.fullLeaves i.level ∧ (i.isSealed = true → _ = cfg.fullLeaves i.level)
    rw [hl]
    refine ⟨by omega, by omega, fun hs => ?_⟩
    rw [h8, branchSealed_iff] at hs
    rw [k3 (hs.1 _ (List.mem_map_of_mem (by simp))).1, fullLeaves_succ]
    have s5 : init.length + 1 = cfg.maxBranches (l + 1) := by
      have : cfg.maxBranches (l + 1) ≤ init.length + 1 := by simpa using hs.2
      omega
    rw [← s5, Nat.add_mul, Nat.one_mul]

/-- The leaves determine the shape. -/
theorem Regular.same {V' : Type} {E' : Env T V'} {cfg : Config} {t : PTree T V} (h : Regular E cfg t) {t' : PTree T V'} (h' : Regular E' cfg t')
    (hlv : t'.index.level = t.index.level) (he : t'.leafSizes = t.leafSizes) : t'.shape = t.shape := by
  induction t using PTree.induct generalizing t' with
  | purgedLeaf => exact absurd (PTree.All.root h.whole) (by simp)
  | purgedBranch => exact absurd (PTree.All.root h.whole) (by simp)
  | leaf i vs =>
    cases t' with
    | leaf i' vs' => simpa [leafSizes, shape] using he
    | branch i' cs' =>
      obtain ⟨l, _, _, hl, _⟩ := h'.parts
      have : i'.level = 0 := hlv
      omega
    | purgedLeaf => exact absurd (PTree.All.root h'.whole) (by simp)
    | purgedBranch => exact absurd (PTree.All.root h'.whole) (by simp)
  | branch i cs ih =>
    cases t' with
    | purgedLeaf => exact absurd (PTree.All.root h'.whole) (by simp)
    | purgedBranch => exact absurd (PTree.All.root h'.whole) (by simp)
    | leaf i' vs' =>
      obtain ⟨l, _, _, hl, _⟩ := h.parts
      have : 0 = i.level := hlv
      omega
    | branch i' cs' =>
      obtain ⟨l, init, last, hl, rfl, hi, hc, h2, h8, h9⟩ := h.parts
      obtain ⟨l', init', last', hl', rfl, hi', hc', h2', h8', h9'⟩ := h'.parts
      obtain rfl : l' = l := by have : i'.level = i.level := hlv; omega
      have hall := fun c (hm : c ∈ init ++ [last]) => (hc c hm).1.leaves
      have hall' := fun c (hm : c ∈ init' ++ [last']) => (hc' c hm).1.leaves
      have hin : ∀ x ∈ init.map leafSizes, x.length = cfg.fullLeaves l' := by
        intro x hx
        obtain ⟨c, hm, rfl⟩ := List.mem_map.mp hx
        rw [(hall c (by simp [hm])).2.2 (hi c hm), (hc c (by simp [hm])).2]
      have hin' : ∀ x ∈ init'.map leafSizes, x.length = cfg.fullLeaves l' := by
        intro x hx
        obtain ⟨c, hm, rfl⟩ := List.mem_map.mp hx
        rw [(hall' c (by simp [hm])).2.2 (hi' c hm), (hc' c (by simp [hm])).2]
      obtain ⟨k1, k2, _⟩ := hall last (by simp)
      obtain ⟨k1', k2', _⟩ := hall' last' (by simp)
      rw [(hc last (by simp)).2] at k2
      rw [(hc' last' (by simp)).2] at k2'
      have he' : (init'.map leafSizes).flatten ++ last'.leafSizes = (init.map leafSizes).flatten ++ last.leafSizes := by
        have he : leafSizesL (init' ++ [last']) = leafSizesL (init ++ [last]) := he
        simpa [leafSizesL_eq] using he
      have hlen := congrArg List.length he'
      rw [List.length_append, List.length_append, length_flatten_const _ _ hin, length_flatten_const _ _ hin', List.length_map, List.length_map] at hlen
      have hcnt : init'.length = init.length := by
        rcases Nat.lt_trichotomy init'.length init.length with hlt | hlt | hlt
        · have := Nat.mul_le_mul_right (cfg.fullLeaves l') hlt
          rw [Nat.succ_mul] at this
          omega
        · exact hlt
        · have := Nat.mul_le_mul_right (cfg.fullLeaves l') hlt
          rw [Nat.succ_mul] at this
          omega
      obtain ⟨e1, e2⟩ := flatten_const_inj _ _ hin' hin (by simpa using hcnt) he'
      have hsh : ∀ (cs : List (PTree T V)) (cs' : List (PTree T V')), (∀ c ∈ cs, c ∈ init ++ [last]) → (∀ c ∈ cs', c ∈ init' ++ [last']) →
          cs'.map leafSizes = cs.map leafSizes → cs'.map PTree.shape = cs.map PTree.shape := by
        intro cs
        induction cs with
        | nil => intro cs' _ _ e; cases cs' with
          | nil => rfl
          | cons c' cs' => simp at e
        | cons c cs ihc =>
          intro cs' m1 m2 e
          cases cs' with
          | nil => simp at e
          | cons c' cs' =>
            simp only [List.map_cons, List.cons.injEq] at e ⊢
            have m3 := m1 c (by simp)
            have m4 := m2 c' (by simp)
            exact ⟨ih c m3 (hc c m3).1 (hc' c' m4).1 ((hc' c' m4).2.trans (hc c m3).2.symm) e.1,
              ihc cs' (fun x hx => m1 x (by simp [hx])) (fun x hx => m2 x (by simp [hx])) e.2⟩
      have hs := hsh (init ++ [last]) (init' ++ [last']) (fun _ h => h) (fun _ h => h) (by simp [e1, e2])
      have hcount : i'.count = i.count := by
        have key := congrArg (fun l => (l.map Shape.total).sum) hs
        simp only [List.map_map] at key
        rw [h9, h9']
        rw [show (fun c : PTree T V => c.index.count) = Shape.total ∘ PTree.shape from funext fun c => (shape_total c).symm,
          show (fun c : PTree T V' => c.index.count) = Shape.total ∘ PTree.shape from funext fun c => (shape_total c).symm]
        exact key
      have hseal : i'.isSealed = i.isSealed := by
        have gen : ∀ {W : Type} (cs : List (PTree T W)), cfg.branchSealed (cs.map index) (l' + 1) = true ↔
            (∀ x ∈ cs.map PTree.shape, x.shut = true ∧ x.height + 1 = l' + 1) ∧ cfg.maxBranches (l' + 1) ≤ (cs.map PTree.shape).length := by
          intro W cs
          rw [branchSealed_iff, List.length_map, List.length_map]
          constructor
          · rintro ⟨a, b⟩
            refine ⟨fun x hx => ?_, b⟩
            obtain ⟨c, hm, rfl⟩ := List.mem_map.mp hx
            have := a c.index (List.mem_map_of_mem hm)
            rw [shape_shut, shape_height]
            exact ⟨this.1, by have := this.2; omega⟩
          · rintro ⟨a, b⟩
            refine ⟨fun x hx => ?_, b⟩
            obtain ⟨c, hm, rfl⟩ := List.mem_map.mp hx
            have := a c.shape (List.mem_map_of_mem hm)
            rw [shape_shut, shape_height] at this
            exact ⟨this.1, by have := this.2; omega⟩
        rw [h8, h8', Bool.eq_iff_iff, gen, gen, hs]
      show Shape.branch i'.level i'.count i'.isSealed (shapes (init' ++ [last'])) = .branch i.level i.count i.isSealed (shapes (init ++ [last]))
      rw [shapes_eq, shapes_eq, hs, hcount, hseal, hl, hl']

/-! ### trees built by `extend` -/

theorem Extended.steady {s : St E} {n : Nat} (h : Extended cx s n) : Steady cx s := by
  induction h with
  | fresh s h1 h2 => exact .fresh s h1 h2
  | @extend s s' n fuel xs _ hf hn he ih =>
    have : s' = endState (Banyan.extend cx fuel xs) s := by unfold endState; rw [he]
    rw [this]
    exact Steady.run ih (.extend fuel xs (.refl _) hf hn)
  | @failed s s' n fuel xs e _ hf hn he ih =>
    have : s' = endState (Banyan.extend cx fuel xs) s := by unfold endState; rw [he]
    rw [this]
    exact .run ih (.extend fuel xs (.refl _) hf hn)
  | world σ γ _ h1 h2 ih => exact .run ih (.world σ γ (.refl _) h1 h2)

theorem Extended.reach {s : St E} {n : Nat} (hv : cx.cfg.Valid) (h : Extended cx s n) : Reach cx s := h.steady.reach hv

theorem Extended.spec (ok : cx.Ok) {s : St E} {n : Nat} (h : Extended cx s n) (hs : Small E s) :
    ∃ (t : Option (PTree T V)) (xs : List (T.Key × V)), HoldsI (NodeInv.trivial cx) s t ∧ OptPacked t ∧ OptStraight t ∧ optContent t = xs.map some ∧ xs.length = n := by
  induction h with
  | fresh s h1 h2 => exact ⟨none, [], ⟨by rw [h1]; rfl, h2, by simp⟩, trivial, trivial, rfl, rfl⟩
  | @extend s s' n fuel xs he0 hf hn he ih =>
    have hs0 : Small E s := ((frame0_extend ok.env fuel xs).ok he).small hs
    obtain ⟨t, ys, h1, h2, h3, h4, h5⟩ := ih hs0
    obtain ⟨t0, hi⟩ := ok.inv (he0.reach ok.cfg) hs0
    have g1 := hi.level
    have g2 := hi.count
    have g3 := rootCount_eq ok.types hi.holds
    have hm : maxElements = 2147483645 := rfl
    have hu : u32max = 4294967295 := rfl
    obtain ⟨t', k1, k2, k3, k4, _⟩ := (extend_spec (I := NodeInv.trivial cx) (vals := fun _ => True) (R := fun _ => True)
      ok.env ok.types ok.cfg (fun _ _ => trivial) fuel xs t s h1 (fun _ _ => trivial) hf (by omega) (Or.inl h2)).ok he hs
    exact ⟨t', ys ++ xs, k1, k3 h2, k4 h3, by rw [k2, h4, List.map_append], by rw [List.length_append, h5]⟩
  | @failed s s' n fuel xs e he0 hf hn he ih =>
    have hx := extend_error ok.env he
    obtain ⟨t, ys, h1, h2⟩ := ih (hx.ext0.small hs)
    exact ⟨t, ys, ⟨by rw [hx.root]; exact h1.root, hx.ext0.coherent h1.coherent, fun t' ht' => (h1.good t' ht').mono hx.ext0.store⟩, h2⟩
  | world σ γ _ h1 h2 ih =>
    obtain ⟨t, ys, g1, g2⟩ := ih hs
    exact ⟨t, ys, ⟨g1.root, h2, fun t' ht' => (g1.good t' ht').mono h1⟩, g2⟩

theorem capacity_mono {cfg : Config} (hv : cfg.Valid) {a b : Nat} (h : a ≤ b) : cfg.capacity a ≤ cfg.capacity b := by
  induction h with
  | refl => exact Nat.le_refl _
  | @step m _ ih =>
    refine Nat.le_trans ih ?_
    show _ ≤ (if m = 0 then cfg.maxKeyBranches else cfg.maxSummaryBranches) * cfg.capacity m
    refine Nat.le_mul_of_pos_left _ ?_
    split
    · exact hv.key
    · have := hv.summary; omega

end Banyan
