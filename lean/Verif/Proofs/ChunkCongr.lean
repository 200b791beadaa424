import Verif.Proofs.ChunkSpec
/-
Queries that agree on a tree, and what is delivered by queries that are only sound.
-/
set_option autoImplicit false
namespace Banyan

open PTree

variable {T : TreeTypes} {V : Type} {E : Env T V} {X : Type} {q q' : Query T} {mkExtra : Index T → X}

/-- Both queries have the same effect on a node. -/
def AgreeOn (q q' : Query T) : PTree T V → Prop
  | .leaf i _ => ∀ o, q.containing o i (List.replicate (T.keys.len i.keys) true) = q'.containing o i (List.replicate (T.keys.len i.keys) true)
  | .branch i _ => ∀ o, q.intersecting o i (List.replicate (T.sums.len i.summaries) true) =
      q'.intersecting o i (List.replicate (T.sums.len i.summaries) true)
  | _ => True

theorem chunksOf_congr (t : PTree T V) (h : t.All (AgreeOn q q')) (o : Nat) : chunksOf q mkExtra t o = chunksOf q' mkExtra t o := by
  induction t using PTree.induct generalizing o with
  | leaf i vs =>
    have h1 : AgreeOn q q' (.leaf i vs) := PTree.All.root h
    simp only [chunksOf]
    rw [h1 o]
  | purgedLeaf i => simp only [chunksOf]
  | purgedBranch i => simp only [chunksOf]
  | branch i cs ih =>
    have h1 : AgreeOn q q' (.branch i cs) := PTree.All.root h
    have hc := PTree.All.children h
    simp only [chunksOf]
    rw [h1 o]
    split
    · rename_i ha
      clear ha
      generalize q'.intersecting o i _ = f
      clear h h1
      induction cs generalizing o f with
      | nil => simp [piecesOf]
      | cons c cs ih2 =>
        cases f with
        | nil => simp [piecesOf]
        | cons b f =>
          simp only [piecesOf]
          rw [ih c (by simp) (hc c (by simp)) o, ih2 (fun c hcm => ih c (by simp [hcm])) _ (fun c hcm => hc c (by simp [hcm])) f]
    · rfl

theorem mem_leafData {o : Nat} {bs : List Bool} {xs : List (T.Key × V)} {n : Nat} {k : T.Key} {v : V} (h : (n, k, v) ∈ leafData o bs xs) :
    ∃ j, n = o + j ∧ bs[j]? = some true ∧ xs[j]? = some (k, v) := by
  induction xs generalizing o bs with
  | nil => cases bs with
    | nil => cases h
    | cons b bs => cases b <;> cases h
  | cons x xs ih =>
    obtain ⟨k', v'⟩ := x
    cases bs with
    | nil => cases h
    | cons b bs =>
      have tail : (n, k, v) ∈ leafData (o + 1) bs xs → ∃ j, n = o + j ∧ (b :: bs)[j]? = some true ∧ ((k', v') :: xs)[j]? = some (k, v) := by
        intro h
        obtain ⟨j, h1, h2, h3⟩ := ih h
        exact ⟨j + 1, by omega, by simpa using h2, by simpa using h3⟩
      cases b with
      | false => exact tail h
      | true =>
        simp only [leafData] at h
        rcases List.mem_cons.mp h with h | h
        · cases h
          exact ⟨0, rfl, rfl, rfl⟩
        · exact tail h

/-- If a query selects on leaves only elements satisfying `m`, then nothing else is delivered. -/
theorem chunksOf_sound (ht : T.Lawful) {m : Nat → T.Key → Bool}
    (hq : ∀ o i (j : Nat) k, (q.containing o i (List.replicate (T.keys.len i.keys) true))[j]? = some true → T.keys.get i.keys j = some k → m (o + j) k = true)
    (t : PTree T V) (o : Nat) : ∀ ch ∈ chunksOf q mkExtra t o, ∀ n k v, (n, k, v) ∈ ch.data → m n k = true := by
  induction t using PTree.induct generalizing o with
  | leaf i vs =>
    intro ch hch n k v hd
    simp only [chunksOf, List.mem_singleton] at hch
    subst hch
    obtain ⟨j, rfl, h2, h3⟩ := mem_leafData hd
    rw [List.getElem?_zip_eq_some] at h3
    have h4 := h3.1
    rw [CompactSeq.getElem?_toVec ht.keys] at h4
    split at h4
    · exact hq o i j k h2 h4
    · cases h4
  | purgedLeaf i =>
    intro ch hch n k v hd
    simp only [chunksOf, List.mem_singleton] at hch
    subst hch
    cases hd
  | purgedBranch i =>
    intro ch hch n k v hd
    simp only [chunksOf, List.mem_singleton] at hch
    subst hch
    cases hd
  | branch i cs ih =>
    intro ch hch n k v hd
    simp only [chunksOf] at hch
    split at hch
    · rename_i ha
      clear ha
      generalize q.intersecting o i _ = f at hch
      induction cs generalizing o f with
      | nil => simp [piecesOf] at hch
      | cons c cs ih2 =>
        cases f with
        | nil => simp [piecesOf] at hch
        | cons b f =>
          simp only [piecesOf, List.mem_append] at hch
          rcases hch with hch | hch
          · cases b with
            | false =>
              simp only [Bool.false_eq_true, if_false, List.mem_singleton] at hch
              subst hch
              cases hd
            | true => exact ih c (by simp) o ch (by simpa using hch) n k v hd
          · exact ih2 (fun c hcm => ih c (by simp [hcm])) _ f hch
    · simp only [List.mem_singleton] at hch
      subst hch
      cases hd

end Banyan
