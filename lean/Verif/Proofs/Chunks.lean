import Verif.Proofs.Read
import Verif.Model.Iter
/-
The chunks delivered by an iteration, computed from the loaded tree.
-/
set_option autoImplicit false
namespace Banyan

open PTree

variable {T : TreeTypes} {V : Type} {E : Env T V} {X : Type}

/-- The positions of a mask that are set, counted from `o`. -/
def offsetsOf : Nat → List Bool → List Nat
  | _, [] => []
  | o, true :: bs => o :: offsetsOf (o + 1) bs
  | o, false :: bs => offsetsOf (o + 1) bs

/-- The selected elements of a leaf starting at `o`. -/
def leafData : Nat → List Bool → List (T.Key × V) → List (Nat × T.Key × V)
  | o, true :: bs, x :: xs => (o, x.1, x.2) :: leafData (o + 1) bs xs
  | o, false :: bs, _ :: xs => leafData (o + 1) bs xs
  | _, _, _ => []

/-- An empty chunk for a whole subtree. -/
def skipChunk (mkExtra : Index T → X) (o : Nat) (i : Index T) : Chunk T V X := ⟨(o, o + i.count), [], mkExtra i⟩

mutual
/-- The chunks of a tree starting at offset `o`. -/
def chunksOf (q : Query T) (mkExtra : Index T → X) : PTree T V → Nat → List (Chunk T V X)
  | .leaf i vs, o =>
    [⟨(o, o + T.keys.len i.keys),
      leafData o (q.containing o i (List.replicate (T.keys.len i.keys) true)) ((T.keys.toVec i.keys).zip vs), mkExtra (.leaf i)⟩]
  | .purgedLeaf i, o => [skipChunk mkExtra o (.leaf i)]
  | .purgedBranch i, o => [skipChunk mkExtra o (.branch i)]
  | .branch i cs, o =>
    if anyTrue (q.intersecting o i (List.replicate (T.sums.len i.summaries) true)) then
      piecesOf q mkExtra cs (q.intersecting o i (List.replicate (T.sums.len i.summaries) true)) o
    else [skipChunk mkExtra o (.branch i)]
/-- The chunks of consecutive trees of which only some are visited. -/
def piecesOf (q : Query T) (mkExtra : Index T → X) : List (PTree T V) → List Bool → Nat → List (Chunk T V X)
  | c :: cs, b :: bs, o =>
    (if b then chunksOf q mkExtra c o else [skipChunk mkExtra o c.index]) ++ piecesOf q mkExtra cs bs (o + c.index.count)
  | _, _, _ => []
end

/-- The number of elements below some trees. -/
def sizes (cs : List (PTree T V)) : Nat := (cs.map fun c => c.index.count).sum

theorem sizes_append (as bs : List (PTree T V)) : sizes (as ++ bs) = sizes as + sizes bs := by simp [sizes]
theorem sizes_cons (a : PTree T V) (bs : List (PTree T V)) : sizes (a :: bs) = a.index.count + sizes bs := by simp [sizes]
theorem sizes_nil : sizes ([] : List (PTree T V)) = 0 := rfl

theorem piecesOf_append (q : Query T) (mkExtra : Index T → X) (as bs : List (PTree T V)) (fs gs : List Bool) (o : Nat)
    (h : fs.length = as.length) :
    piecesOf q mkExtra (as ++ bs) (fs ++ gs) o = piecesOf q mkExtra as fs o ++ piecesOf q mkExtra bs gs (o + sizes as) := by
  induction as generalizing fs o with
  | nil =>
    have : fs = [] := List.length_eq_zero_iff.mp h
    subst this
    simp [piecesOf, sizes]
  | cons a as ih =>
    cases fs with
    | nil => simp at h
    | cons f fs =>
      simp only [List.cons_append, piecesOf]
      rw [ih fs _ (by simpa using h), sizes_cons, Nat.add_assoc]
      simp

/-! ### the data of a leaf -/

theorem offsetsOf_eq (start : Nat) (bs : List Bool) :
    ((List.range bs.length).filter fun i => bs[i]? = some true).map (start + ·) = offsetsOf start bs := by
  induction bs generalizing start with
  | nil => rfl
  | cons b bs ih =>
    rw [List.length_cons, List.range_succ_eq_map]
    have : ((List.range bs.length).filter fun i => bs[i]? = some true).map (start + 1 + ·) = offsetsOf (start + 1) bs := ih _
    cases b with
    | true =>
      simp only [List.filter_cons, List.getElem?_cons_zero, decide_true, if_true, List.map_cons, offsetsOf, Nat.add_zero]
      rw [List.filter_map, List.map_map, ← this]
      congr 1
      apply List.map_congr_left
      intro a _
      simp only [Function.comp]
      omega
    | false =>
      simp only [List.filter_cons, List.getElem?_cons_zero, offsetsOf]
      rw [List.filter_map]
      simp only [Option.some.injEq, Bool.false_eq_true, decide_false, if_false, List.map_map]
      rw [← this]
      apply List.map_congr_left
      intro a _
      simp only [Function.comp]
      omega

theorem filterMap_congr_mem {α β : Type} {f g : α → Option β} : ∀ {l : List α}, (∀ a ∈ l, f a = g a) → l.filterMap f = l.filterMap g
  | [], _ => rfl
  | a :: l, h => by
    rw [List.filterMap_cons, List.filterMap_cons, h a (by simp), filterMap_congr_mem fun b hb => h b (by simp [hb])]

theorem select_eq {α : Type} {S : CompactSeq α} (h : S.Lawful) (c : S.Carrier) (bs : List Bool) (hl : bs.length = S.len c) :
    S.select c bs = maskSelect bs (S.toVec c) := by
  have key : ∀ (bs : List Bool) (k : Nat), k + bs.length = S.len c →
      (List.range' k bs.length).filterMap (fun i => if bs[i - k]? = some true then S.get c i else none) =
        maskSelect bs ((List.range' k bs.length).filterMap (S.get c)) := by
    intro bs
    induction bs with
    | nil => intro k _; rfl
    | cons b bs ih =>
      intro k hk
      simp only [List.length_cons] at hk
      obtain ⟨x, hx⟩ := Option.isSome_iff_exists.mp (h.get_some c k (by omega))
      rw [List.length_cons, List.range'_succ]
      have h1 : (List.range' (k + 1) bs.length).filterMap (fun i => if (b :: bs)[i - k]? = some true then S.get c i else none) =
          (List.range' (k + 1) bs.length).filterMap (fun i => if bs[i - (k + 1)]? = some true then S.get c i else none) := by
        apply filterMap_congr_mem
        intro i hi
        rw [List.mem_range'] at hi
        obtain ⟨j, _, hj⟩ := hi
        have : i - k = (i - (k + 1)) + 1 := by omega
        rw [this, List.getElem?_cons_succ]
      rw [List.filterMap_cons, List.filterMap_cons, h1, ih (k + 1) (by omega), hx]
      cases b <;> simp [maskSelect]
  have := key bs 0 (by omega)
  unfold CompactSeq.select CompactSeq.toVec
  rw [← hl, List.range_eq_range']
  simpa using this

theorem zip_leafData (o : Nat) (bs : List Bool) (ks : List T.Key) (vs : List V) :
    (((offsetsOf o bs).zip (maskSelect bs ks)).zip (maskSelect bs vs)).map (fun x => (x.1.1, x.1.2, x.2)) =
      leafData o bs (ks.zip vs) := by
  induction bs generalizing o ks vs with
  | nil => simp [offsetsOf, leafData]
  | cons b bs ih =>
    cases ks with
    | nil => cases b <;> simp [offsetsOf, maskSelect, leafData]
    | cons k ks =>
      cases vs with
      | nil => cases b <;> simp [offsetsOf, maskSelect, leafData]
      | cons v vs =>
        cases b
        · simpa [offsetsOf, maskSelect, leafData] using ih (o + 1) ks vs
        · simpa [offsetsOf, maskSelect, leafData] using ih (o + 1) ks vs

theorem leafData_none (o : Nat) (bs : List Bool) (xs : List (T.Key × V)) (h : anyTrue bs = false) : leafData o bs xs = [] := by
  induction bs generalizing o xs with
  | nil => simp [leafData]
  | cons b bs ih =>
    simp only [anyTrue, List.any_cons, id, Bool.or_eq_false_iff] at h
    obtain ⟨rfl, h⟩ := h
    cases xs with
    | nil => rfl
    | cons x xs => exact ih _ _ h

theorem visitLeafData_reads (h : E.Lawful) (ht : T.Lawful) {sec : Secrets E} {s : St E} (hco : Coherent E sec s)
    {i : LeafIndex T} {vs : List V} {link : T.Link} (hl : i.link = some link) (o : Nat)
    (bs : List Bool) (hs : anyTrue bs = true → StoredAt E sec s.store (.leaf i vs)) (hb : bs.length = T.keys.len i.keys) :
    Reads sec (visitLeafData sec o i link bs) s (leafData o bs ((T.keys.toVec i.keys).zip vs)) := by
  unfold visitLeafData
  cases ha : anyTrue bs with
  | false =>
    rw [leafData_none _ _ _ ha]
    exact Reads.pure hco _
  | true =>
    obtain ⟨l, z, r, h1, h2, h3, h4⟩ := hs ha
    rw [hl] at h1
    cases h1
    simp only [if_true]
    refine Reads.bind (Reads.loadLeafM hco h2) fun c hc => ?_
    refine Reads.bind (Reads.lift hc (ZSeq.select_of_decompress h h4 bs)) fun c hc => ?_
    rw [offsetsOf_eq, select_eq ht.keys _ _ hb, zip_leafData]
    exact Reads.pure hc _

end Banyan
