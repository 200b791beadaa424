import Verif.Proofs.Edge
import Verif.Proofs.Pack
/-
Packing reads the blocks outside of the packed sealed subtrees only.
-/
set_option autoImplicit false
namespace Banyan

open PTree

variable {T : TreeTypes} {V : Type} {E : Env T V} {cx : Ctx E} {sec : Secrets E}

/-! ### the roots -/

theorem roots0Loop_partial {s : St E} (hco : Coherent E sec s)
    {rec : Index T → Int → List (Index T) → M E (Int × List (Index T))} (cs : List (PTree T V)) (l : Int) (res : List (Index T))
    (hav : ∀ i ds, .branch i ds ∈ looseL cs l → StoredAt E sec s.store (.branch i ds : PTree T V))
    (hrec : ∀ c ∈ cs, ∀ l res s', s'.store = s.store → Coherent E sec s' →
      (∀ i ds, .branch i ds ∈ c.loose l → StoredAt E sec s.store (.branch i ds : PTree T V)) →
      Reads sec (rec c.index l res) s' ((rootsOf c l).1, res ++ (rootsOf c l).2.map index)) :
    Reads sec (roots0Loop rec (cs.map index) l res) s ((rootsOfL cs l).1, res ++ (rootsOfL cs l).2.map index) := by
  induction cs generalizing l res s with
  | nil => simpa [roots0Loop, rootsOfL] using Reads.pure hco (l, res)
  | cons c cs ih =>
    simp only [List.map_cons, roots0Loop]
    unfold looseL at hav
    refine Reads.bind (hrec c (by simp) l res s rfl hco fun i ds hn => hav i ds (List.mem_append_left _ hn)) fun c1 hc1 => ?_
    have := ih hc1 (rootsOf c l).1 (res ++ (rootsOf c l).2.map index) (fun i ds hn => hav i ds (List.mem_append_right _ hn))
      (fun c hc l res s' hs => hrec c (by simp [hc]) l res s' hs)
    simpa [rootsOfL] using this

theorem roots0_partial (fuel : Nat) (t : PTree T V) (l : Int) (res : List (Index T)) (s : St E) (hlk : t.All LinkedAt)
    (hav : ∀ i ds, .branch i ds ∈ t.loose l → StoredAt E sec s.store (.branch i ds : PTree T V)) (hcnt : Counts t) (hco : Coherent E sec s) (hf : t.index.level < fuel) :
    Reads sec (roots0 sec fuel t.index l res) s ((rootsOf t l).1, res ++ (rootsOf t l).2.map index) := by
  induction fuel generalizing t l s res with
  | zero => omega
  | succ fuel ih =>
    unfold roots0
    by_cases hc : t.index.isSealed = true ∧ (t.index.level : Int) ≤ l
    · rw [if_pos (by simpa using hc), rootsOf_closed hc.1 hc.2]
      exact Reads.pure hco _
    · rw [if_neg (by simpa using hc)]
      cases t with
      | leaf i vs =>
        simp only [index, Index.isSealed, Index.level] at hc
        simp only [rootsOf]
        rw [if_neg (by simpa using hc)]
        simpa [index, Index.level] using Reads.pure hco (min l (-1), res)
      | purgedLeaf i =>
        simp only [index, Index.isSealed, Index.level] at hc
        simp only [rootsOf]
        rw [if_neg (by simpa using hc)]
        simpa [index, Index.level] using Reads.pure hco (min l (-1), res)
      | purgedBranch i =>
        simp only [index, Index.isSealed, Index.level] at hc
        have : i.link = none := PTree.All.root hlk
        simp only [rootsOf, index, this]
        rw [if_neg (by simpa using hc)]
        simpa [Index.level] using Reads.pure hco (min l ((i.level : Int) - 1), res)
      | branch i cs =>
        simp only [index, Index.isSealed, Index.level] at hc
        unfold loose at hav
        rw [if_neg (by simpa using hc)] at hav
        obtain ⟨lk, r, h1, h2⟩ := hav _ _ List.mem_cons_self
        simp only [rootsOf, index, h1, Index.level]
        rw [if_neg (by simpa using hc)]
        refine Reads.bind (Reads.loadBranchM hco h2) fun c hc => ?_
        refine roots0Loop_partial hc cs _ res (fun j ds hn => hav j ds (List.mem_cons_of_mem _ hn)) ?_
        intro c' hc' l' res' s' hst hco' hav'
        have hlv := (PTree.All.root hcnt).1 c' hc'
        refine ih c' l' res' s' (PTree.All.children hlk c' hc') (by rw [hst]; exact hav') (PTree.All.children hcnt c' hc') hco' ?_
        simp only [index, Index.level] at hf; omega

/-! ### the loose nodes -/

theorem loose_nodes (t : PTree T V) : ∀ l : Int, ∀ n ∈ t.loose l, n ∈ t.nodes := by
  induction t using PTree.induct with
  | leaf i vs => intro l n hn; unfold loose at hn; split at hn; · cases hn
                 · rwa [nodes]
  | purgedLeaf i => intro l n hn; cases hn
  | purgedBranch i => intro l n hn; cases hn
  | branch i cs ih =>
    intro l n hn
    unfold loose at hn
    split at hn
    · cases hn
    · rcases List.mem_cons.1 hn with rfl | hn
      · exact self_mem_nodes _
      · have key : ∀ (ds : List (PTree T V)), (∀ d ∈ ds, d ∈ cs) → ∀ l : Int, n ∈ looseL ds l → ∃ d ∈ cs, n ∈ d.nodes := by
          intro ds
          induction ds with
          | nil => intro _ l hn; cases hn
          | cons d ds ihd =>
            intro hd l hn
            unfold looseL at hn
            rcases List.mem_append.1 hn with hn | hn
            · exact ⟨d, hd d (by simp), ih d (hd d (by simp)) _ n hn⟩
            · exact ihd (fun e he => hd e (by simp [he])) _ hn
        exact mem_nodes_branch.mpr (.inr (key cs (fun _ h => h) _ hn))

/-- Behind the end of the traversal everything is loose. -/
theorem tail_loose_all (t : PTree T V) : ∀ (l : Int) (o : Nat), l < 0 → ∀ n ∈ t.tailFrom o, n ∈ t.loose l := by
  induction t using PTree.induct with
  | leaf i vs =>
    intro l o hl n hn
    unfold tailFrom at hn
    unfold loose
    rw [if_neg (by omega)]
    split at hn
    · exact hn
    · cases hn
  | purgedLeaf i => intro l o hl n hn; cases hn
  | purgedBranch i => intro l o hl n hn; cases hn
  | branch i cs ih =>
    intro l o hl n hn
    unfold tailFrom at hn
    unfold loose
    rw [if_neg (by omega)]
    split at hn
    · rcases List.mem_cons.1 hn with rfl | hn
      · exact List.mem_cons_self
      · refine List.mem_cons_of_mem _ ?_
        have key : ∀ (ds : List (PTree T V)), (∀ d ∈ ds, d ∈ cs) → ∀ (l : Int) (o : Nat), l < 0 → n ∈ tailFromL ds o → n ∈ looseL ds l := by
          intro ds
          induction ds with
          | nil => intro _ l o _ hn; cases hn
          | cons d ds ihd =>
            intro hd l o hl hn
            unfold tailFromL at hn
            unfold looseL
            rcases List.mem_append.1 hn with hn | hn
            · exact List.mem_append_left _ (ih d (hd d (by simp)) _ _ hl n hn)
            · exact List.mem_append_right _ (ihd (fun e he => hd e (by simp [he])) _ _ (Int.lt_of_le_of_lt (rootsOf_le d l) hl) hn)
        exact key cs (fun _ h => h) _ _ (by omega) hn
    · cases hn

theorem tail_looseL_all (cs : List (PTree T V)) : ∀ (l : Int) (o : Nat), l < 0 → ∀ n ∈ tailFromL cs o, n ∈ looseL cs l := by
  induction cs with
  | nil => intro l o _ n hn; cases hn
  | cons d ds ihd =>
    intro l o hl n hn
    unfold tailFromL at hn
    unfold looseL
    rcases List.mem_append.1 hn with hn | hn
    · exact List.mem_append_left _ (tail_loose_all d _ _ hl n hn)
    · exact List.mem_append_right _ (ihd _ _ (Int.lt_of_le_of_lt (rootsOf_le d l) hl) n hn)

theorem rootsOf_neg (t : PTree T V) : ∀ l : Int, l < 0 → (rootsOf t l).2 = [] := by
  induction t using PTree.induct with
  | leaf i vs => intro l hl; simp only [rootsOf]; rw [if_neg (by omega)]
  | purgedLeaf i => intro l hl; simp only [rootsOf]; rw [if_neg (by omega)]
  | purgedBranch i => intro l hl; simp only [rootsOf]; rw [if_neg (by omega)]
  | branch i cs ih =>
    intro l hl
    simp only [rootsOf]
    rw [if_neg (by omega)]
    have key : ∀ (ds : List (PTree T V)), (∀ d ∈ ds, d ∈ cs) → ∀ (l : Int), l < 0 → (rootsOfL ds l).2 = [] := by
      intro ds
      induction ds with
      | nil => intro _ l _; rfl
      | cons d ds ihd =>
        intro hd l hl
        simp only [rootsOfL]
        rw [ih d (hd d (by simp)) l hl, ihd (fun e he => hd e (by simp [he])) _ (Int.lt_of_le_of_lt (rootsOf_le d l) hl)]
        rfl
    exact key cs (fun _ h => h) _ (by omega)

theorem rootsOfL_neg (es : List (PTree T V)) : ∀ l : Int, l < 0 → (rootsOfL es l).2 = [] := by
  induction es with
  | nil => intro l _; rfl
  | cons e es ihe =>
    intro l hl
    simp only [rootsOfL]
    rw [ihe _ (Int.lt_of_le_of_lt (rootsOf_le e l) hl), List.append_nil]
    exact rootsOf_neg e l hl

/-- What is behind the roots is loose. -/
theorem tail_loose (ht : T.Lawful) (t : PTree T V) : ∀ l : Int, Counts t → PurgeOk t l →
    ∀ n ∈ t.tailFrom (contents (rootsOf t l).2).length, n ∈ t.loose l := by
  induction t using PTree.induct with
  | leaf i vs =>
    intro l hc _ n hn
    simp only [rootsOf] at hn
    unfold loose
    split at hn
    · rw [contents_cons, show contents ([] : List (PTree T V)) = [] from rfl, List.append_nil, content_length ht hc] at hn
      unfold tailFrom at hn
      rw [if_neg (by simp [index, Index.count])] at hn
      cases hn
    · rename_i hx
      rw [if_neg hx]
      unfold tailFrom at hn
      split at hn
      · exact hn
      · cases hn
  | purgedLeaf i => intro l _ _ n hn; cases hn
  | purgedBranch i => intro l _ _ n hn; cases hn
  | branch i cs ih =>
    intro l hc hp n hn
    simp only [rootsOf] at hn
    unfold loose
    split at hn
    · rw [contents_cons, show contents ([] : List (PTree T V)) = [] from rfl, List.append_nil, content_length ht hc] at hn
      unfold tailFrom at hn
      rw [if_neg (by simp [index, Index.count])] at hn
      cases hn
    · rename_i hx
      rw [if_neg hx]
      simp only [PurgeOk] at hp
      have hp := hp.resolve_left hx
      unfold tailFrom at hn
      split at hn
      · rcases List.mem_cons.1 hn with rfl | hn
        · exact List.mem_cons_self
        · refine List.mem_cons_of_mem _ ?_
          have key : ∀ (ds : List (PTree T V)), (∀ d ∈ ds, d ∈ cs) → ∀ (l : Int), PurgeOkL ds l →
              n ∈ tailFromL ds (contents (rootsOfL ds l).2).length → n ∈ looseL ds l := by
            intro ds
            induction ds with
            | nil => intro _ l _ hn; cases hn
            | cons d ds ihd =>
              intro hd l hp hn
              have hdc := PTree.All.children hc d (hd d (by simp))
              simp only [PurgeOkL] at hp
              unfold tailFromL at hn
              simp only [rootsOfL] at hn
              unfold looseL
              obtain ⟨rest, h1, h2, _⟩ := rootsOf_content d l hp.1
              have hlen := congrArg List.length h1
              rw [content_length ht hdc, List.length_append, List.length_map] at hlen
              rw [contents_append, List.length_append] at hn
              rcases h2 with h2 | h2
              · subst h2
                rw [List.length_nil, Nat.add_zero] at hlen
                rcases List.mem_append.1 hn with hn | hn
                · have : ∀ (u : PTree T V) (o : Nat), u.index.count ≤ o → u.tailFrom o = [] := by
                    intro u o ho
                    cases u with
                    | leaf i vs => unfold tailFrom; rw [if_neg (by simp only [index, Index.count] at ho; omega)]
                    | branch i vs => unfold tailFrom; rw [if_neg (by simp only [index, Index.count] at ho; omega)]
                    | purgedLeaf i => rfl
                    | purgedBranch i => rfl
                  rw [this d _ (by omega)] at hn
                  cases hn
                · rw [hlen, Nat.add_sub_cancel_left] at hn
                  exact List.mem_append_right _ (ihd (fun e he => hd e (by simp [he])) _ hp.2 hn)
              · have hz : (rootsOfL ds (rootsOf d l).1).2 = [] := rootsOfL_neg ds _ h2
                rw [hz, show contents ([] : List (PTree T V)) = [] from rfl, List.length_nil, Nat.add_zero] at hn
                rcases List.mem_append.1 hn with hn | hn
                · exact List.mem_append_left _ (ih d (hd d (by simp)) l hdc hp.1 n hn)
                · exact List.mem_append_right _ (tail_looseL_all ds _ _ h2 n hn)
          exact key cs (fun _ h => h) _ hp hn
      · cases hn

/-! ### making a tree of the roots -/

section
variable {K : Known T} {p : Origin T} {p2 : List Bytes} {s s2 : St E}

theorem simplifyRoots_both (he : E.Lawful) (fuel : Nat) (rs : List (Index T)) (n : Nat) (h : Twin E cx.sec K p p2 s s2)
    (hk : Small E s → ∀ r ∈ rs, EdgeKnown E cx.sec K r) :
    Both cx.sec K p p2 (simplifyRoots cx fuel rs n) s s2 fun K' r => ∀ c ∈ r, EdgeKnown E cx.sec K' c := by
  induction fuel generalizing n with
  | zero => exact Both.throw h _
  | succ fuel ih =>
    unfold simplifyRoots
    refine Both.assertBind h fun _ => Both.assertBind h fun _ => ?_
    have group : ∀ count, Both cx.sec K p p2 (newBranch cx ((rs.drop n).take count) .packed >>= fun node =>
        pure (rs.take n ++ [.branch node] ++ (rs.drop (n + count)))) s s2 fun K' r => ∀ c ∈ r, EdgeKnown E cx.sec K' c := by
      intro count
      refine Both.bind (newBranch_both he h _ _ fun hs c hc =>
        hk hs c (List.mem_of_mem_drop (List.mem_of_mem_take (List.mem_of_getLast? hc)))) ?_
      intro K1 node s1 s21 hk1 h1 hq1
      refine Both.pure h1 fun _ hs c hc => ?_
      have hk := hk (hq1 hs).1
      rcases List.mem_append.1 hc with hc | hc
      · rcases List.mem_append.1 hc with hc | hc
        · exact (hk c (List.mem_of_mem_take hc)).mono hk1
        · rw [List.mem_singleton] at hc
          subst hc
          exact (hq1 hs).2
      · exact (hk c (List.mem_of_mem_drop hc)).mono hk1
    cases hf : findValidBranch cx.cfg (rs.drop n) with
    | error e => exact Both.throw h _
    | ok r =>
      cases r with
      | «sealed» count => exact group count
      | unsealed count => exact group count
      | skip count => exact ih (n + count)

theorem treeFromRootsLoop_both (he : E.Lawful) (fuel : Nat) (rs : List (Index T)) (h : Twin E cx.sec K p p2 s s2)
    (hk : Small E s → ∀ r ∈ rs, EdgeKnown E cx.sec K r) :
    Both cx.sec K p p2 (treeFromRootsLoop cx fuel rs) s s2 fun K' r => ∀ c ∈ r, EdgeKnown E cx.sec K' c := by
  induction fuel generalizing K s s2 rs with
  | zero =>
    unfold treeFromRootsLoop
    split
    · exact Both.throw h _
    · exact Both.pure h hk
  | succ fuel ih =>
    unfold treeFromRootsLoop
    split
    · refine Both.bind (simplifyRoots_both he _ rs 0 h hk) fun K1 rs' s1 s21 hk1 h1 hq1 => ?_
      exact (ih rs' h1 fun hs => (hq1 hs).2).weaken fun K2 r hr _ => hr
    · exact Both.pure h hk

end

/-! ### packing -/

theorem Twin.cached {K : Known T} {p : Origin T} {p2 : List Bytes} {s s2 : St E} {c c2 : E.γ} (h : Twin E sec K p p2 s s2)
    (h1 : Coherent E sec { s with cache := c }) (h2 : Coherent E sec { s2 with cache := c2 }) :
    Twin E sec K p p2 { s with cache := c } { s2 with cache := c2 } :=
  ⟨h.root, h.offset, h.puts, h.alike, h.left, h.right, h.new, h1, h2⟩

/-- The last part of packing: what is behind the roots is appended. -/
def packRest (cx : Ctx E) (fuel : Nat) (initial : Tree E) (root : Option (Index T)) : M E Unit :=
  Tree.collectFrom fuel initial (rootCount root) >>= fun items =>
    match sequenceOpt items with
    | none => throw (.fail "found purged data")
    | some remainder => extend cx (fuel + rootLevel root) remainder

theorem packRest_none {fuel : Nat} {initial : Tree E} {root : Option (Index T)} {items : List (Option (T.Key × V))} {s s' : St E}
    (h1 : Tree.collectFrom fuel initial (rootCount root) s = .ok items s') (h2 : sequenceOpt items = none) :
    packRest cx fuel initial root s = .error (.fail "found purged data") s' := by
  unfold packRest
  rw [bind_apply, h1]
  simp only [h2]
  rfl

theorem packRest_some {fuel : Nat} {initial : Tree E} {root : Option (Index T)} {items : List (Option (T.Key × V))} {s s' : St E}
    {rem : List (T.Key × V)} (h1 : Tree.collectFrom fuel initial (rootCount root) s = .ok items s') (h2 : sequenceOpt items = some rem) :
    packRest cx fuel initial root s = extend cx (fuel + rootLevel root) rem s' := by
  unfold packRest
  rw [bind_apply, h1]
  simp only [h2]

/-- The main part of packing: what is done with the roots. -/
def packRoots (cx : Ctx E) (fuel : Nat) (initial : Tree E) (rs : List (Index T)) : M E Unit :=
  treeFromRoots cx rs >>= fun _ => getIndex >>= fun root => packRest cx fuel initial root

theorem packRoots_both (ok : cx.Ok) {I : NodeInv cx} {K : Known T} {p : Origin T} {p2 : List Bytes} {s s2 : St E}
    (h : Twin E cx.sec K p p2 s s2) (fuel : Nat) (t : PTree T V) (initial : Tree E) (o : Nat) (hin : initial = some (t.index, cx.sec, o))
    (hg : Good I s.store t) (hlv : t.index.level < fuel) (hp : t.PurgeOk i32max)
    (hst2 : ∀ n ∈ t.loose i32max, StoredAt E cx.sec s2.store n)
    (hsmall : Small E (endState (packRoots cx fuel initial ((optRoots (some t)).map index)) s)) :
    match packRoots cx fuel initial ((optRoots (some t)).map index) s with
    | .ok _ s' => ∃ K' s2', packRoots cx fuel initial ((optRoots (some t)).map index) s2 = .ok () s2' ∧ Twin E cx.sec K' p p2 s' s2' ∧
        ∀ i, s'.root = some i → EdgeKnown E cx.sec K' i
    | .error e s' => ∃ K' s2', packRoots cx fuel initial ((optRoots (some t)).map index) s2 = .error e s2' ∧
        Twin E cx.sec K' p p2 s' s2' := by
  have he := ok.env
  have ht := ok.types
  have hinfo := optRoots_info t
  have hlk : t.All LinkedAt := fun n hn => (hg.stored n hn).linked
  -- the tree of the roots
  have hspec := treeFromRoots_spec (I := I) he ht ok.cfg (vals := fun _ => True) (R := fun _ => True) (fun _ _ => trivial) (optRoots (some t)) s h.co
    (fun r hr => hg.mem (hinfo.mem r hr)) hinfo.sealed hinfo.sorted
  have hboth := treeFromRootsLoop_both he (2 * ((optRoots (some t)).map index).length) ((optRoots (some t)).map index) h (fun _ r hr => by
    obtain ⟨x, hx, rfl⟩ := List.mem_map.1 hr
    exact .full _ (hinfo.sealed x hx))
  have hroots : ∀ s : St E, treeFromRoots cx ((optRoots (some t)).map index) s =
      (treeFromRootsLoop cx (2 * ((optRoots (some t)).map index).length) ((optRoots (some t)).map index) >>=
        fun rs => setIndex rs.getLast?) s := by
    intro s
    unfold treeFromRoots
    have a1 : ((optRoots (some t)).map index).all Index.isSealed = true := by simpa using hinfo.sealed
    have a2 : isSorted (((optRoots (some t)).map index).map Index.level).reverse = true := by
      rw [isSorted_reverse_iff, List.map_map, List.pairwise_map]
      exact hinfo.sorted
    rw [a1, a2]
    rfl
  have hf1 : Frame0 cx (treeFromRoots cx ((optRoots (some t)).map index)) := frame0_treeFromRoots he _
  generalize hrs : (optRoots (some t)).map index = rs at hspec hboth hroots hf1 hsmall ⊢
  have e : ∀ s : St E, packRoots cx fuel initial rs s = match treeFromRoots cx rs s with
      | .ok _ s' => packRest cx fuel initial s'.root s'
      | .error e s' => .error e s' := by
    intro s
    unfold packRoots
    rw [bind_apply]
    cases treeFromRoots cx rs s <;> rfl
  unfold endState at hsmall
  rw [e] at hsmall ⊢
  rw [e]
  unfold Both at hboth
  cases hloop : treeFromRootsLoop cx (2 * rs.length) rs s with
  | error er s' =>
    rw [hloop] at hboth
    obtain ⟨K', s2', g1, g2, g3⟩ := hboth
    have k1 : treeFromRoots cx rs s = .error er s' := by rw [hroots, bind_apply, hloop]
    have k2 : treeFromRoots cx rs s2 = .error er s2' := by rw [hroots, bind_apply, g1]
    rw [k1, k2]
    exact ⟨K', s2', rfl, g3⟩
  | ok r s' =>
    rw [hloop] at hboth
    obtain ⟨K', s2', g1, g2, g3, g4⟩ := hboth
    have k1 : treeFromRoots cx rs s = .ok () { s' with root := r.getLast? } := by rw [hroots, bind_apply, hloop]; rfl
    have k2 : treeFromRoots cx rs s2 = .ok () { s2' with root := r.getLast? } := by rw [hroots, bind_apply, g1]; rfl
    have hle := (hf1.ok k1).store
    have hle2 := (hf1.ok k2).store
    have hspec := hspec.ok k1
    rw [k1] at hsmall ⊢
    rw [k2]
    have hta : Twin E cx.sec K' p p2 { s' with root := r.getLast? } { s2' with root := r.getLast? } :=
      ⟨rfl, g3.offset, g3.puts, g3.alike, g3.left, g3.right, g3.new, Coherent.mono (fun _ _ h => h) rfl g3.co,
        Coherent.mono (fun _ _ h => h) rfl g3.co2⟩
    have hk : Small E ({ s' with root := r.getLast? } : St E) → ∀ i, r.getLast? = some i → EdgeKnown E cx.sec K' i :=
      fun hs i hi => (g4 hs).2 i (List.mem_of_getLast? hi)
    generalize hsa : ({ s' with root := r.getLast? } : St E) = sa at hle hspec hsmall hta hk ⊢
    generalize hsb : ({ s2' with root := r.getLast? } : St E) = sb at hle2 hta ⊢
    have hra : sa.root = r.getLast? := by rw [← hsa]
    have hrb : sb.root = sa.root := hta.root
    -- the rest of the elements
    have hgm := hg.mono hle
    have hcol : Reads cx.sec (Tree.collectFrom fuel initial (rootCount sa.root) : M E (List (Option (T.Key × V)))) sa
        (t.content.drop (rootCount sa.root)) := by
      rw [hin]
      unfold Tree.collectFrom
      simpa using collect0_reads he ht fuel t (rootCount sa.root) [] sa hgm.stored hgm.counts hta.co hlv
    obtain ⟨c, hc, hcol⟩ := hcol
    simp only [hrb] at hsmall ⊢
    have hs : Small E sa := by
      cases hseq : sequenceOpt (t.content.drop (rootCount sa.root)) with
      | none => rw [packRest_none hcol hseq] at hsmall; exact hsmall
      | some rem =>
        rw [packRest_some hcol hseq] at hsmall
        have h5 : Small E ({ sa with cache := c } : St E) :=
          (frame0_extend (cx := cx) he (fuel + rootLevel sa.root) rem { sa with cache := c }).1.small hsmall
        exact h5
    obtain ⟨t1, hh1, hcont1, _⟩ := hspec hs
    have hcount := rootCount_eq ht hh1
    rw [hcont1] at hcount
    have hcol2 : Reads cx.sec (Tree.collectFrom fuel initial (rootCount sa.root) : M E (List (Option (T.Key × V)))) sb
        (t.content.drop (rootCount sa.root)) := by
      rw [hin]
      unfold Tree.collectFrom
      have hav : ∀ n ∈ t.tailFrom (rootCount sa.root), StoredAt E cx.sec sb.store n := by
        intro n hn
        rw [hcount] at hn
        exact (hst2 n (tail_loose ht t i32max hg.counts hp n hn)).mono hle2
      simpa using collect0_partial he ht fuel t (rootCount sa.root) [] sb hlk hav hg.counts hta.co2 hlv
    obtain ⟨c2, hc2, hcol2⟩ := hcol2
    have htb := hta.cached hc hc2
    cases hseq : sequenceOpt (t.content.drop (rootCount sa.root)) with
    | none =>
      rw [packRest_none hcol hseq, packRest_none hcol2 hseq]
      exact ⟨K', _, rfl, htb⟩
    | some rem =>
      have hx := extend_both he htb (fuel + rootLevel sa.root) rem (fun i hi => hk hs i (by rw [← hra]; exact hi))
      rw [packRest_some hcol hseq] at hsmall ⊢
      rw [packRest_some hcol2 hseq]
      cases hex : extend cx (fuel + rootLevel sa.root) rem { sa with cache := c } with
      | ok a sc =>
        rw [hex] at hx hsmall
        obtain ⟨K2, s3, f1, f2, f3⟩ := hx
        exact ⟨K2, s3, f1, f2, f3 hsmall⟩
      | error er sc =>
        rw [hex] at hx
        exact hx

theorem pack_both (ok : cx.Ok) {I : NodeInv cx} {K : Known T} {p : Origin T} {p2 : List Bytes} {s s2 : St E} (h : Twin E cx.sec K p p2 s s2)
    (fuel : Nat) (t : PTree T V) (hh : HoldsI I s (some t)) (hp : OptPurgeOk (some t)) (hf : rootLevel s.root < fuel)
    (hl : (t.index.level : Int) ≤ i32max)
    (hsame : SameBlocks E s.store s2.store (t.loose i32max)) (hsmall : Small E (endState (pack cx fuel) s)) :
    match pack cx fuel s with
    | .ok _ s' => ∃ K' s2', pack cx fuel s2 = .ok () s2' ∧ Twin E cx.sec K' p p2 s' s2' ∧
        ∀ i, s'.root = some i → EdgeKnown E cx.sec K' i
    | .error e s' => ∃ K' s2', pack cx fuel s2 = .error e s2' ∧ Twin E cx.sec K' p p2 s' s2' := by
  have he := ok.env
  have ht := ok.types
  have hpk : ∀ s : St E, pack cx fuel s = (roots cx fuel >>= fun rs => packRoots cx fuel (snapshot cx s) rs) s := fun _ => rfl
  have hg := hh.good t rfl
  have hlv : t.index.level < fuel := by rw [hh.level] at hf; exact hf
  have hst2 : ∀ n ∈ t.loose i32max, StoredAt E cx.sec s2.store n := fun n hn => (hg.stored n (loose_nodes t _ n hn)).congr (hsame n hn)
  have hlk : t.All LinkedAt := fun n hn => (hg.stored n hn).linked
  -- the roots
  obtain ⟨c, hc, h1⟩ := roots_reads hh hf
  have hroot2 : s2.root = some t.index := by rw [h.root, hh.root]; rfl
  have h2 : Reads cx.sec (roots cx fuel) s2 ((optRoots (some t)).map index) := by
    unfold roots
    refine Reads.bind (a := s2.root) ⟨s2.cache, h.co2, rfl⟩ fun c hc => ?_
    rw [hroot2]
    simp only [rootsImpl]
    refine Reads.bind (roots0_partial fuel t i32max [] _ hlk (fun i ds => hst2 (.branch i ds)) hg.counts (by rw [hroot2] at hc; exact hc) hlv) fun c2 hc2 => ?_
    simpa [optRoots] using Reads.pure hc2 _
  obtain ⟨c2, hc2, h2⟩ := h2
  have e1 : pack cx fuel s = packRoots cx fuel (snapshot cx s) ((optRoots (some t)).map index) { s with cache := c } := by
    rw [hpk, bind_apply, h1]
  have e2 : pack cx fuel s2 = packRoots cx fuel (snapshot cx s) ((optRoots (some t)).map index) { s2 with cache := c2 } := by
    have : snapshot cx s2 = snapshot cx s := by unfold snapshot; rw [h.root, h.offset]
    rw [hpk, bind_apply, h2, this]
  have hsmall' := hsmall
  unfold endState at hsmall'
  rw [e1] at hsmall' ⊢
  rw [e2]
  refine packRoots_both ok (h.cached hc hc2) fuel t (snapshot cx s) s.offset ?_ hg hlv (purgeOk_of_le hp (Int.le_refl _) hl) hst2 hsmall'
  unfold snapshot
  rw [hh.root]
  rfl

/-! ### how much is loose -/

/-- In a packed tree only the right edge is loose. -/
theorem loose_packed {t : PTree T V} (hp : Packed t) : ∀ l : Int, (t.index.level : Int) ≤ l → t.loose l = t.edge := by
  induction hp with
  | leaf i vs =>
    intro l hl
    simp only [index, Index.level] at hl
    unfold loose edge
    by_cases hs : i.isSealed = true
    · rw [if_pos ⟨hs, by omega⟩, if_pos hs]
    · rw [if_neg (fun h => hs h.1), if_neg hs]
  | purgedLeaf i => intro l _; rfl
  | purgedBranch i => intro l _; rfl
  | closed i cs hs =>
    intro l hl
    simp only [index, Index.level] at hl
    unfold loose edge
    rw [if_pos ⟨hs, hl⟩, if_pos hs]
  | unclosed i init last hi hlast _ ih =>
    intro l hl
    simp only [index, Index.level] at hl
    unfold loose edge
    by_cases hs : i.isSealed = true
    · rw [if_pos ⟨hs, hl⟩, if_pos hs]
    · rw [if_neg (fun h => hs h.1), if_neg hs, getLast?_edgeL (c := last) (by simp), Int.min_eq_right (by omega)]
      have key : ∀ ds : List (PTree T V), (∀ d ∈ ds, d.index.isSealed = true ∧ d.index.level + 1 = i.level) →
          looseL (ds ++ [last]) ((i.level : Int) - 1) = last.edge := by
        intro ds
        induction ds with
        | nil =>
          intro _
          show loose last _ ++ [] = _
          rw [List.append_nil]
          exact ih _ (by omega)
        | cons d ds ihd =>
          intro hd
          obtain ⟨h1, h2⟩ := hd d (by simp)
          have h3 : (d.index.level : Int) ≤ (i.level : Int) - 1 := by omega
          show loose d _ ++ looseL (ds ++ [last]) (rootsOf d _).1 = _
          rw [rootsOf_closed h1 h3, show (d.index.level : Int) = (i.level : Int) - 1 by omega, ihd fun e he => hd e (by simp [he])]
          have : loose d ((i.level : Int) - 1) = [] := by
            cases d with
            | leaf j vs => unfold loose; exact if_pos ⟨h1, h3⟩
            | branch j vs => unfold loose; exact if_pos ⟨h1, h3⟩
            | purgedLeaf j => rfl
            | purgedBranch j => rfl
          rw [this]
          rfl
      rw [key init hi]

/-- The leaves among some nodes. -/
def leavesOf (ns : List (PTree T V)) : List (PTree T V) := ns.filter fun | .leaf _ _ => true | _ => false

theorem leavesOf_append (a b : List (PTree T V)) : leavesOf (a ++ b) = leavesOf a ++ leavesOf b := List.filter_append ..

/-- The leaves that are loose have the elements behind the roots. -/
theorem loose_leaves (t : PTree T V) : ∀ l : Int, PurgeOk t l →
    t.content = contents (rootsOf t l).2 ++ contents (leavesOf (t.loose l)) := by
  induction t using PTree.induct with
  | leaf i vs =>
    intro l _
    simp only [rootsOf]
    unfold loose
    split
    · simp [leavesOf]
    · simp [leavesOf]
  | purgedLeaf i =>
    intro l h
    simp only [PurgeOk] at h
    simp only [rootsOf]
    rw [if_pos h]
    simp [loose, leavesOf]
  | purgedBranch i =>
    intro l h
    simp only [PurgeOk] at h
    simp only [rootsOf]
    rw [if_pos h]
    simp [loose, leavesOf]
  | branch i cs ih =>
    intro l hp
    simp only [PurgeOk] at hp
    simp only [rootsOf]
    unfold loose
    split
    · simp [leavesOf]
    · rename_i hx
      have hp := hp.resolve_left hx
      have key : ∀ (ds : List (PTree T V)), (∀ d ∈ ds, d ∈ cs) → ∀ (l : Int), PurgeOkL ds l →
          contents ds = contents (rootsOfL ds l).2 ++ contents (leavesOf (looseL ds l)) := by
        intro ds
        induction ds with
        | nil => intro _ l _; rfl
        | cons d ds ihd =>
          intro hd l hp
          simp only [PurgeOkL] at hp
          simp only [rootsOfL]
          unfold looseL
          obtain ⟨rest, h1, h2, _⟩ := rootsOf_content d l hp.1
          have h3 := ih d (hd d (by simp)) l hp.1
          have h4 := ihd (fun e he => hd e (by simp [he])) _ hp.2
          have h5 : contents (leavesOf (d.loose l)) = rest.map some := by
            rw [h1] at h3
            exact (List.append_cancel_left h3).symm
          rw [contents_cons, leavesOf_append, contents_append, contents_append, h5, h1, h4]
          rcases h2 with rfl | h2
          · simp
          · rw [rootsOfL_neg ds _ h2]
            simp
      exact key cs (fun _ h => h) _ hp

end Banyan
