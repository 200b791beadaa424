import Verif.Proofs.SnapIter
import Verif.Proofs.IndexIter
import Verif.Spec.Graph
/-
The dump of a tree, left roots, and later states.
-/
set_option autoImplicit false
namespace Banyan

open PTree

variable {T : TreeTypes} {V : Type} {E : Env T V} {cx : Ctx E} {sec : Secrets E}

/-! ### left roots -/

mutual
/-- The tree, its first child, the first child of that, and so on; the smallest one first. -/
def lefts : PTree T V → List (PTree T V)
  | .leaf i vs => [.leaf i vs]
  | .purgedLeaf i => [.purgedLeaf i]
  | .purgedBranch i => [.purgedBranch i]
  | .branch i cs => leftsL cs ++ [.branch i cs]
def leftsL : List (PTree T V) → List (PTree T V)
  | [] => []
  | c :: _ => lefts c
end

theorem leftRoots0_reads (h : E.Lawful) (fuel : Nat) (t : PTree T V) (s : St E) (hs : Outlined E sec s.store t) (hcnt : Counts t)
    (hne : t.All fun | .branch _ cs => cs ≠ [] | _ => True) (hco : Coherent E sec s) (hf : t.index.level < fuel) :
    Reads sec (leftRoots0 sec fuel t.index) s ((lefts t).map index) := by
  induction fuel generalizing t s with
  | zero => omega
  | succ fuel ih =>
    unfold leftRoots0
    cases t with
    | leaf i vs => exact Reads.pure hco _
    | purgedLeaf i => exact Reads.pure hco _
    | purgedBranch i =>
      have : i.link = none := PTree.All.root hs
      simp only [index, this]
      exact Reads.pure hco _
    | branch i cs =>
      obtain ⟨l, r, h1, h2⟩ := PTree.All.root hs
      simp only [index, h1]
      refine Reads.bind (Reads.loadCached h hco h2) fun c hc => ?_
      cases cs with
      | nil => exact absurd rfl (PTree.All.root hne)
      | cons c0 cs =>
        simp only [List.map_cons]
        have hlv := (PTree.All.root hcnt).1 c0 (by simp)
        refine Reads.bind (ih c0 _ (PTree.All.children hs c0 (by simp)) (PTree.All.children hcnt c0 (by simp))
          (PTree.All.children hne c0 (by simp)) hc ?_) fun c hc => ?_
        · simp only [index, Index.level] at hf; omega
        · simp only [lefts, leftsL, List.map_append, List.map_cons, List.map_nil, index]
          exact Reads.pure hc _

theorem lefts_last (t : PTree T V) : (lefts t).getLast? = some t := by
  cases t <;> simp [lefts]

theorem lefts_mem (t : PTree T V) (hcnt : Counts t) : ∀ x ∈ lefts t, x ∈ t.nodes ∧ x.content <+: t.content ∧ x.index.level ≤ t.index.level := by
  induction t using PTree.induct with
  | leaf i vs => intro x hx; cases List.mem_singleton.mp hx; exact ⟨self_mem_nodes _, List.prefix_refl _, Nat.le_refl _⟩
  | purgedLeaf i => intro x hx; cases List.mem_singleton.mp hx; exact ⟨self_mem_nodes _, List.prefix_refl _, Nat.le_refl _⟩
  | purgedBranch i => intro x hx; cases List.mem_singleton.mp hx; exact ⟨self_mem_nodes _, List.prefix_refl _, Nat.le_refl _⟩
  | branch i cs ih =>
    intro x hx
    simp only [lefts, List.mem_append, List.mem_singleton] at hx
    rcases hx with hx | rfl
    · cases cs with
      | nil => cases hx
      | cons c0 cs =>
        have hm : c0 ∈ c0 :: cs := List.mem_cons_self ..
        obtain ⟨h1, h2, h3⟩ := ih c0 hm (PTree.All.children hcnt c0 hm) x hx
        have hlv := (PTree.All.root hcnt).1 c0 hm
        refine ⟨?_, h2.trans (List.prefix_append _ _), ?_⟩
        · simp only [nodes, nodesL, List.mem_cons, List.mem_append]
          exact .inr (.inl h1)
        · show _ ≤ i.level
          omega
    · exact ⟨self_mem_nodes _, List.prefix_refl _, Nat.le_refl _⟩

theorem lefts_sorted (t : PTree T V) (hcnt : Counts t) :
    (lefts t).Pairwise fun a b => a.content <+: b.content ∧ a.index.level < b.index.level := by
  induction t using PTree.induct with
  | leaf i vs => exact List.pairwise_singleton _ _
  | purgedLeaf i => exact List.pairwise_singleton _ _
  | purgedBranch i => exact List.pairwise_singleton _ _
  | branch i cs ih =>
    simp only [lefts]
    cases cs with
    | nil => exact List.pairwise_singleton _ _
    | cons c0 cs =>
      have hm : c0 ∈ c0 :: cs := List.mem_cons_self ..
      have hc0 := PTree.All.children hcnt c0 hm
      refine List.pairwise_append.mpr ⟨ih c0 hm hc0, List.pairwise_singleton _ _, fun x hx y hy => ?_⟩
      cases List.mem_singleton.mp hy
      obtain ⟨_, h2, h3⟩ := lefts_mem c0 hc0 x hx
      have hlv := (PTree.All.root hcnt).1 c0 hm
      refine ⟨h2.trans (List.prefix_append _ _), ?_⟩
      show _ < i.level
      omega

/-! ### graphs -/

mutual
/-- The edges of a tree whose root has the number `id`. -/
def edgesOf : PTree T V → Nat → List (Nat × Nat)
  | .branch _ cs, id => edgesL cs id (id + 1)
  | .leaf _ _, _ => []
  | .purgedLeaf _, _ => []
  | .purgedBranch _, _ => []
/-- The edges of the children of the node `p`, the first of which has the number `id`. -/
def edgesL : List (PTree T V) → Nat → Nat → List (Nat × Nat)
  | [], _, _ => []
  | c :: cs, p, id => (p, id) :: (edgesOf c id ++ edgesL cs p (id + c.nodes.length))
end

/-- Numbered nodes. -/
def numbered (id : Nat) (l : List (PTree T V)) : List (Nat × Index T) := (List.range' id l.length).zip (l.map index)

theorem numbered_append (id : Nat) (a b : List (PTree T V)) : numbered id (a ++ b) = numbered id a ++ numbered (id + a.length) b := by
  unfold numbered
  rw [List.length_append, List.map_append, ← List.range'_append_1, List.zip_append (by simp)]

theorem numbered_length (id : Nat) (l : List (PTree T V)) : (numbered id l).length = l.length := by
  simp [numbered]

theorem dumpGraphLoop_reads {rec : Nat → Index T → M E (List (Nat × Nat) × List (Nat × Index T))} (p : Nat) (cs : List (PTree T V))
    (cur : Nat) (es : List (Nat × Nat)) (ns : List (Nat × Index T)) (s : St E) (hco : Coherent E sec s)
    (hrec : ∀ c ∈ cs, ∀ id γ, Coherent E sec { s with cache := γ } →
      Reads sec (rec id c.index) { s with cache := γ } ((p, id) :: edgesOf c id, numbered id c.nodes)) :
    Reads sec (dumpGraphLoop rec (cs.map index) cur es ns) s (es ++ edgesL cs p (cur + 1), ns ++ numbered (cur + 1) (nodesL cs)) := by
  induction cs generalizing cur es ns s with
  | nil =>
    simp only [List.map_nil, dumpGraphLoop, edgesL, nodesL, List.append_nil]
    have : numbered (cur + 1) ([] : List (PTree T V)) = [] := rfl
    rw [this, List.append_nil]
    exact Reads.pure hco _
  | cons c cs ih =>
    simp only [List.map_cons, dumpGraphLoop]
    refine Reads.bind (hrec c (by simp) (cur + 1) s.cache hco) fun γ hγ => ?_
    simp only [numbered_length]
    have := ih (cur + c.nodes.length) (es ++ ((p, cur + 1) :: edgesOf c (cur + 1))) (ns ++ numbered (cur + 1) c.nodes) { s with cache := γ } hγ
      (fun c' hc' id γ' hγ' => hrec c' (List.mem_cons_of_mem _ hc') id γ' hγ')
    simp only [edgesL, nodesL]
    rw [numbered_append, ← List.append_assoc, show cur + 1 + c.nodes.length = cur + c.nodes.length + 1 by omega]
    simpa using this

theorem dumpGraph0_reads (h : E.Lawful) (fuel : Nat) (t : PTree T V) (p : Option Nat) (id : Nat) (s : St E) (hs : Outlined E sec s.store t)
    (hcnt : Counts t) (hco : Coherent E sec s) (hf : t.index.level < fuel) :
    Reads sec (dumpGraph0 sec fuel p id t.index) s ((match p with | some p => [(p, id)] | none => []) ++ edgesOf t id, numbered id t.nodes) := by
  induction fuel generalizing t s p id with
  | zero => omega
  | succ fuel ih =>
    unfold dumpGraph0
    cases t with
    | leaf i vs => simp only [index, edgesOf, List.append_nil]; exact Reads.pure hco _
    | purgedLeaf i => simp only [index, edgesOf, List.append_nil]; exact Reads.pure hco _
    | purgedBranch i =>
      have : i.link = none := PTree.All.root hs
      simp only [index, this, edgesOf, List.append_nil]
      exact Reads.pure hco _
    | branch i cs =>
      obtain ⟨l, r, h1, h2⟩ := PTree.All.root hs
      simp only [index, h1]
      refine Reads.bind (Reads.loadCached h hco h2) fun γ hγ => ?_
      have := dumpGraphLoop_reads (sec := sec) (rec := dumpGraph0 sec fuel (some id)) id cs id (match p with | some p => [(p, id)] | none => [])
        [(id, .branch i)] { s with cache := γ } hγ (by
          intro c hc id' γ' hγ'
          have hlv := (PTree.All.root hcnt).1 c hc
          refine ih c (some id) id' _ (PTree.All.children hs c hc) (PTree.All.children hcnt c hc) hγ' ?_
          simp only [index, Index.level] at hf; omega)
      have hn : numbered id (nodes (.branch i cs)) = [(id, .branch i)] ++ numbered (id + 1) (nodesL cs) := by
        show numbered id ([.branch i cs] ++ nodesL cs) = _
        rw [numbered_append]
        rfl
      rw [hn]
      exact this

theorem edgesL_mem {cs : List (PTree T V)}
    (ih : ∀ c ∈ cs, ∀ id a b, (a, b) ∈ edgesOf c id ↔ ∃ a' b', Edge c a' b' ∧ a = id + a' ∧ b = id + b') (p id a b : Nat) :
    (a, b) ∈ edgesL cs p id ↔ ∃ pre c post, cs = pre ++ c :: post ∧
      ((a = p ∧ b = id + (nodesL pre).length) ∨
        ∃ a' b', Edge c a' b' ∧ a = id + (nodesL pre).length + a' ∧ b = id + (nodesL pre).length + b') := by
  induction cs generalizing id with
  | nil =>
    simp only [edgesL, List.not_mem_nil, false_iff]
    rintro ⟨pre, c, post, h, _⟩
    cases pre <;> cases h
  | cons c cs ihl =>
    simp only [edgesL, List.mem_cons, List.mem_append, Prod.mk.injEq]
    rw [ih c (by simp), ihl (fun c' h' => ih c' (List.mem_cons_of_mem _ h'))]
    constructor
    · rintro (⟨rfl, rfl⟩ | ⟨a', b', he, rfl, rfl⟩ | ⟨pre, d, post, rfl, hd⟩)
      · exact ⟨[], c, cs, rfl, .inl ⟨rfl, by simp [nodesL]⟩⟩
      · exact ⟨[], c, cs, rfl, .inr ⟨a', b', he, by simp [nodesL], by simp [nodesL]⟩⟩
      · refine ⟨c :: pre, d, post, rfl, ?_⟩
        simp only [nodesL, List.length_append]
        rcases hd with ⟨rfl, rfl⟩ | ⟨a', b', he, rfl, rfl⟩
        · exact .inl ⟨rfl, by omega⟩
        · exact .inr ⟨a', b', he, by omega, by omega⟩
    · rintro ⟨pre, d, post, hcs, hd⟩
      cases pre with
      | nil =>
        cases hcs
        simp only [nodesL, List.length_nil, Nat.add_zero] at hd
        rcases hd with hd | hd
        · exact .inl hd
        · exact .inr (.inl hd)
      | cons c' pre =>
        cases hcs
        simp only [nodesL, List.length_append] at hd
        refine .inr (.inr ⟨pre, d, post, rfl, ?_⟩)
        rcases hd with ⟨rfl, rfl⟩ | ⟨a', b', he, rfl, rfl⟩
        · exact .inl ⟨rfl, by omega⟩
        · exact .inr ⟨a', b', he, by omega, by omega⟩

theorem edgesOf_mem (t : PTree T V) (id a b : Nat) : (a, b) ∈ edgesOf t id ↔ ∃ a' b', Edge t a' b' ∧ a = id + a' ∧ b = id + b' := by
  induction t using PTree.induct generalizing id a b with
  | leaf i vs =>
    simp only [edgesOf, List.not_mem_nil, false_iff]
    rintro ⟨_, _, h, _⟩
    cases h
  | purgedLeaf i =>
    simp only [edgesOf, List.not_mem_nil, false_iff]
    rintro ⟨_, _, h, _⟩
    cases h
  | purgedBranch i =>
    simp only [edgesOf, List.not_mem_nil, false_iff]
    rintro ⟨_, _, h, _⟩
    cases h
  | branch i cs ih =>
    simp only [edgesOf]
    rw [edgesL_mem ih]
    constructor
    · rintro ⟨pre, c, post, rfl, ⟨rfl, rfl⟩ | ⟨a', b', he, rfl, rfl⟩⟩
      · exact ⟨_, _, .child i pre c post, rfl, by omega⟩
      · exact ⟨_, _, .deeper i pre c post he, by omega, by omega⟩
    · rintro ⟨a', b', he, rfl, rfl⟩
      cases he with
      | child _ pre c post => exact ⟨pre, c, post, rfl, .inl ⟨rfl, by omega⟩⟩
      | deeper _ pre c post he => exact ⟨pre, c, post, rfl, .inr ⟨_, _, he, by omega, by omega⟩⟩

theorem edgesL_targets {cs : List (PTree T V)} (ih : ∀ c ∈ cs, ∀ id, id :: (edgesOf c id).map Prod.snd = List.range' id c.nodes.length) (p id : Nat) :
    (edgesL cs p id).map Prod.snd = List.range' id (nodesL cs).length := by
  induction cs generalizing id with
  | nil => rfl
  | cons c cs ihl =>
    simp only [edgesL, nodesL, List.map_cons, List.map_append, List.length_append]
    rw [← List.range'_append_1, ← ih c (by simp), ihl (fun c' h' => ih c' (List.mem_cons_of_mem _ h'))]
    rfl

theorem edgesOf_targets (t : PTree T V) (id : Nat) : id :: (edgesOf t id).map Prod.snd = List.range' id t.nodes.length := by
  induction t using PTree.induct generalizing id with
  | leaf i vs => rfl
  | purgedLeaf i => rfl
  | purgedBranch i => rfl
  | branch i cs ih =>
    simp only [edgesOf, nodes, List.length_cons]
    rw [edgesL_targets ih, List.range'_succ]

theorem Edge.lt {t : PTree T V} {a b : Nat} (h : Edge t a b) : a < b := by
  induction h with
  | child => omega
  | deeper => omega

/-! ### later states -/

theorem Later.ext (h : E.Lawful) {a s : St E} (hl : Later sec a s) : StoreLe E a.store s.store ∧ (Coherent E sec a → Coherent E sec s) := by
  have step : ∀ (cfg : Config) {x y : St E}, Ext0 (⟨cfg, sec⟩ : Ctx E) x y →
      StoreLe E a.store x.store ∧ (Coherent E sec a → Coherent E sec x) → StoreLe E a.store y.store ∧ (Coherent E sec a → Coherent E sec y) :=
    fun cfg x y hx hi => ⟨fun l b hb => hx.store l b (hi.1 l b hb), fun hc => hx.coherent (hi.2 hc)⟩
  induction hl with
  | refl => exact ⟨fun _ _ h => h, id⟩
  | builder root offset _ ih => exact ih
  | extend cfg fuel xs _ ih => exact step cfg (frame0_extend h fuel xs _).1 ih
  | extendUnpacked cfg fuel xs _ ih => exact step cfg (frame0_extendUnpacked h fuel xs _).1 ih
  | pack cfg fuel _ ih => exact step cfg (frame0_pack h fuel _).1 ih
  | retain cfg fuel q _ ih => exact step cfg (frame0_retain h fuel q _).1 ih
  | repair cfg fuel _ ih => exact step cfg (frame0_repair h fuel _).1 ih
  | @load s cfg l _ ih =>
    unfold endState loadStreamBuilder
    cases createIndexFromLink E sec (fun items level => cfg.branchSealed items level) s.store l with
    | error e => exact ih
    | ok r => exact ih
  | @read s fuel n i o _ ih =>
    exact step Config.debug (frame_treeCollectFrom h (cx := ⟨Config.debug, sec⟩) fuel { s with root := some i, offset := o } n s).ext0 ih
  | world σ γ _ h1 h2 ih => exact ⟨fun l b hb => h1 l b (ih.1 l b hb), fun _ => h2⟩

end Banyan
