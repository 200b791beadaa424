import Verif.Proofs.Read
/-
The roots of a tree (implementation side).
-/
namespace Banyan

variable {T : TreeTypes} {V : Type} {E : Env T V} {cx : Ctx E}

open PTree

theorem roots0Loop_reads {sec : Secrets E} {s : St E} (hco : Coherent E sec s)
    {rec : Index T → Int → List (Index T) → M E (Int × List (Index T))} (cs : List (PTree T V)) (l : Int) (res : List (Index T))
    (hrec : ∀ c ∈ cs, ∀ l res s', s'.store = s.store → Coherent E sec s' →
      Reads sec (rec c.index l res) s' ((rootsOf c l).1, res ++ (rootsOf c l).2.map index)) :
    Reads sec (roots0Loop rec (cs.map index) l res) s ((rootsOfL cs l).1, res ++ (rootsOfL cs l).2.map index) := by
  induction cs generalizing l res s with
  | nil => simpa [roots0Loop, rootsOfL] using Reads.pure hco (l, res)
  | cons c cs ih =>
    simp only [List.map_cons, roots0Loop]
    refine Reads.bind (hrec c (by simp) l res s rfl hco) fun c1 hc1 => ?_
    have := ih hc1 (rootsOf c l).1 (res ++ (rootsOf c l).2.map index) (fun c hc l res s' hs => hrec c (by simp [hc]) l res s' hs)
    simpa [rootsOfL] using this

theorem roots0_reads {sec : Secrets E} (fuel : Nat) (t : PTree T V) (l : Int) (res : List (Index T)) (s : St E)
    (hs : Outlined E sec s.store t) (hcnt : Counts t) (hco : Coherent E sec s) (hf : t.index.level < fuel) :
    Reads sec (roots0 sec fuel t.index l res) s ((rootsOf t l).1, res ++ (rootsOf t l).2.map index) := by
  induction fuel generalizing t l s res with
  | zero => omega
  | succ fuel ih =>
    unfold roots0
    by_cases hc : t.index.isSealed = true ∧ (t.index.level : Int) ≤ l
    · rw [if_pos (by simpa using hc), rootsOf_closed hc.1 hc.2]
      exact Reads.pure hco _
    · rw [if_neg (by simpa using hc)]
      cases t with
      | leaf i vs =>
        simp only [index, Index.isSealed, Index.level] at hc
        simp only [rootsOf]
        rw [if_neg (by simpa using hc)]
        simpa [index, Index.level] using Reads.pure hco (min l (-1), res)
      | purgedLeaf i =>
        simp only [index, Index.isSealed, Index.level] at hc
        simp only [rootsOf]
        rw [if_neg (by simpa using hc)]
        simpa [index, Index.level] using Reads.pure hco (min l (-1), res)
      | purgedBranch i =>
        simp only [index, Index.isSealed, Index.level] at hc
        have : i.link = none := PTree.All.root hs
        simp only [rootsOf, index, this]
        rw [if_neg (by simpa using hc)]
        simpa [Index.level] using Reads.pure hco (min l ((i.level : Int) - 1), res)
      | branch i cs =>
        obtain ⟨lk, r, h1, h2⟩ := PTree.All.root hs
        simp only [index, Index.isSealed, Index.level] at hc
        simp only [rootsOf, index, h1, Index.level]
        rw [if_neg (by simpa using hc)]
        refine Reads.bind (Reads.loadBranchM hco h2) fun c hc => ?_
        refine roots0Loop_reads hc cs _ res ?_
        intro c' hc' l' res' s' hst hco'
        have hlv := (PTree.All.root hcnt).1 c' hc'
        refine ih c' l' res' s' ?_ (PTree.All.children hcnt c' hc') hco' ?_
        · rw [hst]; exact PTree.All.children hs c' hc'
        · simp only [index, Index.level] at hf; omega

end Banyan
