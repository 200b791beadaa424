import Verif.Spec.Depth
import Verif.Spec.Partial
import Verif.Proofs.NodeInvs
/-
The depth of packed trees.
-/
set_option autoImplicit false
namespace Banyan

open PTree

variable {T : TreeTypes} {V : Type} {E : Env T V} {cx : Ctx E} {s : St E}

/-- A sealed node has at least as many elements as `f` says for its level. -/
def AtLeast (f : Nat → Nat) (i : Index T) : Prop := i.isSealed = true → f i.level ≤ i.count

theorem AtLeast.unlink {f : Nat → Nat} {a b : Index T} (h : AtLeast f b) (hu : a.unlink = b.unlink) : AtLeast f a := by
  intro hs
  rw [unlink_level hu, unlink_count hu]
  exact h (by rw [← unlink_sealed hu]; exact hs)

theorem mul_le_sum {l : List Nat} {b : Nat} (h : ∀ x ∈ l, b ≤ x) : l.length * b ≤ l.sum := by
  induction l with
  | nil => simp
  | cons x l ih =>
    have h1 := h x (by simp)
    have h2 := ih fun y hy => h y (by simp [hy])
    rw [List.length_cons, List.sum_cons, Nat.succ_mul]
    omega

theorem atLeast_branch {f : Nat → Nat} {cfg : Config} (hf : ∀ l, 0 < l → f l ≤ cfg.maxBranches l * f (l - 1)) {i : BranchIndex T}
    {cs : List (PTree T V)} (hl : 0 < i.level) (hc : i.count = (cs.map fun c => c.index.count).sum)
    (hcs : ∀ c ∈ cs, AtLeast f c.index) (hs : cfg.branchSealed (cs.map index) i.level = true) : f i.level ≤ i.count := by
  rw [branchSealed_iff] at hs
  obtain ⟨h1, h2⟩ := hs
  have h3 : (cs.map fun c => c.index.count).length * f (i.level - 1) ≤ (cs.map fun c => c.index.count).sum := by
    refine mul_le_sum fun x hx => ?_
    obtain ⟨c, hc, rfl⟩ := List.mem_map.mp hx
    have h4 := h1 c.index (List.mem_map_of_mem hc)
    have h5 := hcs c hc h4.1
    rw [h4.2] at h5
    exact h5
  rw [hc]
  refine Nat.le_trans (hf _ hl) (Nat.le_trans (Nat.mul_le_mul_right _ ?_) h3)
  simpa using h2

/-- Sealed nodes have enough elements. For a branch, all that is needed to conclude this when it becomes sealed. -/
def depthInv (cx : Ctx E) (f : Nat → Nat) (h0 : f 0 ≤ 1) (hf : ∀ l, 0 < l → f l ≤ cx.cfg.maxBranches l * f (l - 1)) : NodeInv cx where
  J _ n := AtLeast f n.index ∧ match n with
    | .branch i cs => 0 < i.level ∧ i.count = (cs.map fun c => c.index.count).sum ∧ ∀ c ∈ cs, AtLeast f c.index
    | _ => True
  mono := fun _ h => h
  leaf := by
    intro σ i vs hm _
    refine ⟨fun _ => ?_, trivial⟩
    obtain ⟨h1, h2, _⟩ := hm.wf
    have := List.length_pos_iff.mpr h2
    show f 0 ≤ T.keys.len i.keys
    omega
  branch := by
    intro σ i cs hm hcs _
    obtain ⟨_, _, _, _, _, _, _, _, _, h3, ⟨c, hc, h4⟩, h5, _, _, _, h6⟩ := hm
    have hl : 0 < i.level := by omega
    refine ⟨fun hs => ?_, hl, h5, fun c hc => (hcs c hc).1⟩
    exact atLeast_branch hf hl h5 (fun c hc => (hcs c hc).1) (h6 ▸ hs)

theorem depthInv_rewrites {f : Nat → Nat} {h0 : f 0 ≤ 1} {hf : ∀ l, 0 < l → f l ≤ cx.cfg.maxBranches l * f (l - 1)} :
    (depthInv cx f h0 hf).Rewrites where
  purgeLeaf := fun h => ⟨h.1, trivial⟩
  purgeBranch := fun h => ⟨h.1, trivial⟩
  same := by
    intro σ i cs cs' ⟨h1, h2, h3, h4⟩ he
    refine ⟨h1, h2, ?_, ?_⟩
    · rw [h3]
      have := congrArg (List.map Index.count) he
      simp only [List.map_map] at this
      exact congrArg List.sum this.symm
    · intro c hc
      have : c.index ∈ cs.map index := he ▸ List.mem_map_of_mem hc
      obtain ⟨c', hc', he'⟩ := List.mem_map.mp this
      rw [← he']
      exact h4 c' hc'
  rewrite := by
    intro σ i cs cs' l ⟨h1, h2, h3, h4⟩ he _
    refine ⟨h1, h2, ?_, ?_⟩
    · show i.count = _
      rw [h3, map_eq_of_unlink Index.count (fun _ _ h => unlink_count h) he]
    · intro c hc
      have : c.index.unlink ∈ cs.map (fun c => c.index.unlink) := he ▸ List.mem_map_of_mem hc
      obtain ⟨c', hc', he'⟩ := List.mem_map.mp this
      exact (h4 c' hc').unlink he'.symm
  reload := by
    intro σ i cs l bytes ⟨_, h2, h3, h4⟩ _ _
    refine ⟨fun hs => ?_, h2, h3, h4⟩
    exact atLeast_branch hf h2 h3 h4 hs
  damage := fun h _ => h

/-- A packed tree above level 1 has more elements than a sealed node directly below its root. -/
theorem deep_count {f : Nat → Nat} (hf : ∀ l, 2 ≤ l → f (l - 1) < f l) {t : PTree T V} (hw : WF E t)
    (ha : t.All fun n => AtLeast f n.index) (hp : Packed t) (hm : MinRoot t) (hl : 2 ≤ t.index.level) :
    f (t.index.level - 1) < t.index.count := by
  have hsealed : t.index.isSealed = true → f (t.index.level - 1) < t.index.count := fun hs =>
    Nat.lt_of_lt_of_le (hf _ hl) (PTree.All.root ha hs)
  cases hp with
  | leaf i vs => exact absurd hl (by simp [index, Index.level])
  | purgedLeaf i => exact absurd hl (by simp [index, Index.level])
  | purgedBranch i => exact hsealed (PTree.All.root hw).1
  | closed i cs h => exact hsealed h
  | unclosed i init last h1 h2 h3 =>
    obtain ⟨_, _, _, h4, _⟩ := PTree.All.root hw
    have h5 : 2 ≤ (init ++ [last]).length := hm hl
    show f (i.level - 1) < i.count
    rw [h4]
    cases init with
    | nil => simp at h5
    | cons c init =>
      have h6 := h1 c (by simp)
      have h7 := PTree.All.root (PTree.All.child (c := c) ha (by simp)) h6.1
      have h8 := WF.count_pos (PTree.All.child (c := last) hw (by simp))
      rw [show c.index.level = i.level - 1 by omega] at h7
      simp only [List.cons_append, List.map_cons, List.map_append, List.sum_cons, List.sum_append, List.map_nil, List.sum_nil]
      omega

theorem Config.Valid.maxBranches {cfg : Config} (hv : cfg.Valid) (l : Nat) : 1 ≤ cfg.maxBranches l ∧ (2 ≤ l → 2 ≤ cfg.maxBranches l) := by
  have h1 := hv.summary
  have h2 := hv.key
  unfold Config.maxBranches
  split <;> omega

theorem leastCount_succ (cfg : Config) (l : Nat) (hl : 0 < l) : cfg.leastCount l = cfg.maxBranches l * cfg.leastCount (l - 1) := by
  match l with
  | 0 => omega
  | 1 => simp [Config.leastCount, Config.maxBranches]
  | l + 2 => simp [Config.leastCount, Config.maxBranches]

theorem leastCount_pow {cfg : Config} (hv : cfg.Valid) (l : Nat) : 2 ^ (l - 1) ≤ cfg.leastCount l := by
  match l with
  | 0 => simp [Config.leastCount]
  | 1 => have := hv.key; simp only [Config.leastCount]; omega
  | l + 2 =>
    have h1 := leastCount_pow hv (l + 1)
    have h2 := hv.summary
    simp only [Config.leastCount, Nat.add_sub_cancel] at h1 ⊢
    rw [show l + 2 - 1 = l + 1 by omega, Nat.pow_succ, Nat.mul_comm]
    exact Nat.mul_le_mul h2 h1

theorem leastCount_lt {cfg : Config} (hv : cfg.Valid) (l : Nat) (hl : 2 ≤ l) : cfg.leastCount (l - 1) < cfg.leastCount l := by
  have h1 := leastCount_pow hv (l - 1)
  have h2 := leastCount_succ cfg l (by omega)
  have h3 := (hv.maxBranches l).2 hl
  have h4 : 0 < 2 ^ (l - 1 - 1) := Nat.pow_pos (by omega)
  have h5 := Nat.mul_le_mul_right (cfg.leastCount (l - 1)) h3
  omega

theorem pow_step {cfg : Config} (hv : cfg.Valid) (l : Nat) (hl : 0 < l) : 2 ^ (l - 1) ≤ cfg.maxBranches l * 2 ^ (l - 1 - 1) := by
  have h1 := hv.maxBranches l
  by_cases h2 : 2 ≤ l
  · rw [show l - 1 = (l - 1 - 1) + 1 by omega, Nat.pow_succ, Nat.mul_comm, Nat.add_sub_cancel]
    exact Nat.mul_le_mul_right _ (h1.2 h2)
  · have : l = 1 := by omega
    subst this
    simpa using h1.1

mutual
theorem wayTo_length {t : PTree T V} (hw : WF E t) (o : Nat) : (t.wayTo o).length ≤ t.index.level + 1 := by
  match t with
  | .leaf i vs => simp only [wayTo]; split <;> simp
  | .purgedLeaf i => simp [wayTo]
  | .purgedBranch i => simp [wayTo]
  | .branch i cs =>
    simp only [wayTo]
    split
    · have := wayToL_length (i := i) (fun c hc => ⟨PTree.All.child hw hc, (PTree.All.root hw).2.1 c hc⟩) o
      simp only [List.length_cons, index, Index.level]
      omega
    · simp
theorem wayToL_length {cs : List (PTree T V)} {i : BranchIndex T} (hw : ∀ c ∈ cs, WF E c ∧ c.index.level < i.level) (o : Nat) :
    (wayToL cs o).length ≤ i.level := by
  match cs with
  | [] => simp [wayToL]
  | c :: cs =>
    simp only [wayToL]
    split
    · have h1 := hw c (by simp)
      have := wayTo_length h1.1 o
      omega
    · exact wayToL_length (fun c hc => hw c (by simp [hc])) _
end

end Banyan
