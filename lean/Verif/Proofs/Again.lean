import Verif.Proofs.Writes
import Verif.Spec.Again
/-
Doing `retain` and `repair` again changes nothing.
-/
set_option autoImplicit false
namespace Banyan

variable {T : TreeTypes} {V : Type} {E : Env T V} {cx : Ctx E}

theorem retainLevel_unlink {a b : Index T} (h : a.unlink = b.unlink) (l : Int) : retainLevel a l = retainLevel b l := by
  unfold retainLevel
  rw [unlink_level h, unlink_sealed h]

/-- `retain` does nothing at this node. -/
def Calm (cx : Ctx E) (q : Query T) (f o : Nat) (i : Index T) (l l' : Int) (σ : E.σ) : Prop :=
  ∀ fuel s, f ≤ fuel → StoreLe E σ s.store → retain0 cx q fuel o i l s = .ok (i, l') s

/-- `retain` does nothing at these nodes. -/
def CalmL (cx : Ctx E) (q : Query T) (f o : Nat) (cs : List (Index T)) (l l' : Int) (σ : E.σ) : Prop :=
  ∀ fuel s, f ≤ fuel → StoreLe E σ s.store → retainLoop (retain0 cx q fuel) cs o l s = .ok (cs, false, l') s

theorem Calm.mono {q : Query T} {f o : Nat} {i : Index T} {l l' : Int} {σ τ : E.σ} (h : Calm cx q f o i l l' σ) (hs : StoreLe E σ τ) :
    Calm cx q f o i l l' τ := fun fuel s hf hle => h fuel s hf (hs.trans hle)

theorem CalmL.mono {q : Query T} {f o : Nat} {cs : List (Index T)} {l l' : Int} {σ τ : E.σ} (h : CalmL cx q f o cs l l' σ) (hs : StoreLe E σ τ) :
    CalmL cx q f o cs l l' τ := fun fuel s hf hle => h fuel s hf (hs.trans hle)

theorem CalmL.nil (q : Query T) (f o : Nat) (l : Int) (σ : E.σ) : CalmL cx q f o [] l l σ := fun _ _ _ _ => rfl

theorem CalmL.cons {q : Query T} {f o : Nat} {c : Index T} {cs : List (Index T)} {l l1 l2 : Int} {σ : E.σ} (h : Calm cx q f o c l l1 σ)
    (hs : CalmL cx q f (o + c.count) cs l1 l2 σ) : CalmL cx q f o (c :: cs) l l2 σ := by
  intro fuel s hf hle
  unfold retainLoop
  rw [bind_apply, h fuel s hf hle]
  simp only
  rw [bind_apply, hs fuel s hf hle]
  simp only
  rw [if_neg (by simp)]
  rfl

/-- A leaf that has been purged already, or is not purged. -/
theorem Calm.leaf {q : Query T} {f o : Nat} {i : LeafIndex T} {l : Int} {σ : E.σ}
    (h : i.isSealed = true → i.link.isSome = true → retainLevel (.leaf i) l ≥ 0 →
      true ∈ q.containing o i (List.replicate (T.keys.len i.keys) true)) :
    Calm cx q (f + 1) o (.leaf i) l (retainLevel (.leaf i) l) σ := by
  intro fuel s hf _
  obtain ⟨fuel, rfl⟩ : ∃ k, fuel = k + 1 := ⟨fuel - 1, by omega⟩
  unfold retain0
  simp only
  split
  · rename_i hc
    simp only [Bool.and_eq_true, decide_eq_true_eq] at hc
    have h1 := h hc.1.1 hc.1.2 hc.2
    have h2 : anyTrue (q.containing o i (List.replicate (T.keys.len i.keys) true)) = true := by
      unfold anyTrue
      rw [List.any_eq_true]
      exact ⟨true, h1, rfl⟩
    rw [h2]
    rfl
  · rfl

/-- A branch that has been purged already. -/
theorem Calm.purged {q : Query T} {f o : Nat} {i : BranchIndex T} {l : Int} {σ : E.σ} (h : i.link = none) :
    Calm cx q (f + 1) o (.branch i) l (retainLevel (.branch i) l) σ := by
  intro fuel s hf _
  obtain ⟨fuel, rfl⟩ : ∃ k, fuel = k + 1 := ⟨fuel - 1, by omega⟩
  unfold retain0
  simp only
  rw [if_neg (by simp [h]), bind_apply]
  have : loadBranchOpt cx.sec i s = .ok none s := by
    unfold loadBranchOpt loadBranch
    rw [h]
  rw [this]
  rfl

/-- A branch that is not purged, where nothing is done below. -/
theorem Calm.branch {q : Query T} {f o : Nat} {i : BranchIndex T} {lk : T.Link} {node : Branch T} {l l' : Int} {σ : E.σ} (hl : i.link = some lk)
    (hld : loadBranchFromLink E cx.sec σ lk = .ok node)
    (h : i.isSealed = true → (i.level : Int) ≤ retainLevel (.branch i) l →
      true ∈ q.intersecting o i (List.replicate (T.sums.len i.summaries) true))
    (hcs : CalmL cx q f o node.children (retainLevel (.branch i) l) l' σ) :
    Calm cx q (f + 1) o (.branch i) l l' σ := by
  intro fuel s hf hle
  obtain ⟨fuel, rfl⟩ : ∃ k, fuel = k + 1 := ⟨fuel - 1, by omega⟩
  unfold retain0
  simp only
  rw [if_neg ?_, bind_apply]
  · have : loadBranchOpt cx.sec i s = .ok (some node) s := by
      unfold loadBranchOpt loadBranch
      rw [hl]
      simp only
      rw [loadBranchFromLink_mono hle hld]
    rw [this]
    simp only
    rw [bind_apply, hcs fuel s (by omega) hle]
    rfl
  · intro hc
    simp only [Bool.and_eq_true, decide_eq_true_eq, Bool.not_eq_true'] at hc
    have h1 := h hc.1.1.2 hc.2
    have h2 : anyTrue (q.intersecting o i (List.replicate (T.sums.len i.summaries) true)) = true := by
      unfold anyTrue
      rw [List.any_eq_true]
      exact ⟨true, h1, rfl⟩
    rw [h2] at hc
    cases hc.1.2

theorem persistBranch_loads (h : E.Lawful) (items : List (Index T)) (hne : items ≠ []) (s : St E) :
    Post (persistBranch cx items) s (fun r s' => ∃ b, loadBranchFromLink E cx.sec s'.store r.1 = .ok b ∧ b.children = items) AnyErr := by
  unfold persistBranch serializeCompressed
  refine Post.logBind (cx := cx) _ _ fun s1 hx1 ho1 hw1 hp1 => ?_
  rw [bind_assoc]
  refine Post.liftBind (fun _ _ => trivial) ?_
  intro z hz
  rcases seqFromIterIpld_spec (cx := cx) h (fun _ => True) items cx.cfg.zstdLevel with ⟨links, h1, h3⟩ | ⟨e', h1, h2⟩
  · rw [h1] at hz; cases hz
    refine Post.encryptPut (cx := cx) h _ _ _ trivial (fun _ _ _ _ => trivial) ?_
    intro l s' hext _ hw hoff hget hputs
    exact Post.pure fun hs => ⟨_, loadBranchFromLink_of_get h hne (hs items (by rw [hw, hw1]; simp)) hoff hget, rfl⟩
  · rw [h1] at hz; cases hz

theorem retainLoop_again {q q' : Query T} {f : Nat} (hfr : ∀ o i l, Frame cx (retain0 cx q f o i l))
    (hrec : ∀ o i l s, Post (retain0 cx q f o i l) s (fun r s' => r.1.unlink = i.unlink ∧ Calm cx q' f o r.1 l r.2 s'.store) AnyErr)
    (cs : List (Index T)) (o : Nat) (l : Int) (s : St E) :
    Post (retainLoop (retain0 cx q f) cs o l) s (fun r s' => r.1.length = cs.length ∧ (r.2.1 = false → r.1 = cs) ∧
      CalmL cx q' f o r.1 l r.2.2 s'.store) AnyErr := by
  induction cs generalizing o l s with
  | nil => exact Post.pure fun _ => ⟨rfl, fun _ => rfl, CalmL.nil _ _ _ _ _⟩
  | cons c cs ih =>
    unfold retainLoop
    refine Post.bind (hfr _ _ _) (fun _ => Frame.bind (frame_retainLoop hfr _ _ _) fun r => ?_) (hrec o c l s) ?_
    · obtain ⟨a, b, c⟩ := r
      simp only
      split <;> exact Frame.pure _
    · rintro ⟨c1, l1⟩ s1 _ _ ⟨h1, h2⟩
      refine Post.bind (frame_retainLoop hfr _ _ _) (fun r => ?_) (ih (o + c.count) l1 s1) ?_
      · obtain ⟨a, b, c⟩ := r
        simp only
        split <;> exact Frame.pure _
      · rintro ⟨rest, changed, l2⟩ s2 hx2 _ ⟨g1, g2, g3⟩
        simp only at g1 g2 g3 h1 h2 ⊢
        rw [← unlink_count h1] at g3
        have key : CalmL cx q' f o (c1 :: rest) l l2 s2.store := CalmL.cons (h2.mono hx2.store) g3
        split
        · exact Post.pure fun _ => ⟨by simp [g1], fun hc => (nomatch hc), key⟩
        · rename_i hl
          obtain rfl := unlink_eq h1 (Classical.not_not.mp hl)
          exact Post.pure fun _ => ⟨by simp [g1], fun hc => by rw [g2 hc], key⟩

theorem retain0_again (h : E.Lawful) {q q' : Query T} (hq : q.Implies q') (f : Nat) (o : Nat) (i : Index T) (l : Int) (s : St E) :
    Post (retain0 cx q f o i l) s (fun r s' => r.1.unlink = i.unlink ∧ Calm cx q' f o r.1 l r.2 s'.store) AnyErr := by
  induction f generalizing o i l s with
  | zero => exact Post.throw fun _ => trivial
  | succ fuel ih =>
    unfold retain0
    simp only
    cases i with
    | leaf i =>
      simp only
      split
      · rename_i hc
        split
        · exact Post.pure fun _ => ⟨rfl, Calm.leaf (i := { i with link := none }) fun _ h2 _ => by cases h2⟩
        · rename_i hany
          refine Post.pure fun _ => ⟨rfl, Calm.leaf fun _ _ _ => hq.containing o i i.link ?_⟩
          simp only [Bool.not_eq_true', Bool.not_eq_false] at hany
          unfold anyTrue at hany
          rw [List.any_eq_true] at hany
          obtain ⟨x, hx, hx1⟩ := hany
          cases x with
          | true => exact hx
          | false => cases hx1
      · rename_i hc
        simp only [Bool.and_eq_true, decide_eq_true_eq] at hc
        exact Post.pure fun _ => ⟨rfl, Calm.leaf fun h1 h2 h3 => absurd ⟨⟨h1, h2⟩, h3⟩ hc⟩
    | branch i =>
      simp only
      by_cases hp : (i.link.isSome && i.isSealed && !(anyTrue (q.intersecting o i (List.replicate (T.sums.len i.summaries) true))) &&
        decide ((i.level : Int) ≤ retainLevel (Index.branch i) l)) = true
      · rw [if_pos hp]
        have : loadBranchOpt cx.sec { i with link := none } s = .ok none s := rfl
        unfold Post
        rw [bind_apply, this]
        exact fun _ => ⟨rfl, Calm.purged (i := { i with link := none }) rfl⟩
      · rw [if_neg hp]
        have keep : i.link.isSome = true → i.isSealed = true → (i.level : Int) ≤ retainLevel (.branch i) l →
            ∀ lk, true ∈ q'.intersecting o { i with link := lk } (List.replicate (T.sums.len i.summaries) true) := by
          intro h0 h1 h2 lk
          refine hq.intersecting o i lk ?_
          simp only [Bool.and_eq_true, decide_eq_true_eq, Bool.not_eq_true', not_and] at hp
          have hany : anyTrue (q.intersecting o i (List.replicate (T.sums.len i.summaries) true)) = true := by
            cases hb : anyTrue (q.intersecting o i (List.replicate (T.sums.len i.summaries) true)) with
            | true => rfl
            | false => exact absurd h2 (hp ⟨⟨h0, h1⟩, hb⟩)
          unfold anyTrue at hany
          rw [List.any_eq_true] at hany
          obtain ⟨x, hx, hx1⟩ := hany
          cases x with
          | true => exact hx
          | false => cases hx1
        refine Post.bind (cx := cx) (frame_loadBranchOpt _ _) (fun r => ?_) (Q := fun r s' => s' = s ∧ loadBranch E cx.sec s.store i = .ok r) ?_ ?_
        · split
          · exact Frame.pure _
          · refine Frame.bind (frame_retainLoop (frame_retain0 h q fuel) _ _ _) fun r => ?_
            obtain ⟨a, b, c⟩ := r
            simp only
            split
            · exact Frame.bind (frame_persistBranch h _) fun _ => Frame.pure _
            · exact Frame.pure _
        · unfold Post loadBranchOpt
          cases loadBranch E cx.sec s.store i with
          | ok a => exact fun _ => ⟨rfl, rfl⟩
          | error e => exact fun _ => trivial
        · rintro r s1 _ _ ⟨rfl, hr⟩
          cases r with
          | none =>
            refine Post.pure fun _ => ⟨rfl, Calm.purged ?_⟩
            unfold loadBranch at hr
            split at hr
            · assumption
            · split at hr <;> cases hr
          | some node =>
            simp only
            obtain ⟨lk, g1, g2⟩ := loadBranch_some hr
            refine Post.bind (frame_retainLoop (frame_retain0 h q fuel) _ _ _) (fun r => ?_)
              (retainLoop_again (frame_retain0 h q fuel) ih node.children o (retainLevel (Index.branch i) l) s1) ?_
            · obtain ⟨a, b, c⟩ := r
              simp only
              split
              · exact Frame.bind (frame_persistBranch h _) fun _ => Frame.pure _
              · exact Frame.pure _
            · rintro ⟨cs, changed, l2⟩ s2 hx2 _ ⟨k1, k2, k3⟩
              simp only at k1 k2 k3 ⊢
              have hsome : i.link.isSome = true := by rw [g1]; rfl
              split
              · have hne : cs ≠ [] := by
                  intro hc
                  rw [hc] at k1
                  exact loadBranchFromLink_ne g2 (List.eq_nil_of_length_eq_zero k1.symm)
                refine Post.bind (frame_persistBranch h _) (fun _ => Frame.pure _) (persistBranch_loads h cs hne s2) ?_
                rintro ⟨l', n⟩ s3 hx _ ⟨b, m1, m2⟩
                refine Post.pure fun _ => ⟨rfl, ?_⟩
                refine Calm.branch (i := { i with link := some l' }) rfl m1 (fun h1 h2 => keep hsome h1 h2 _) ?_
                rw [m2]
                exact k3.mono hx.store
              · rename_i hc
                obtain rfl := k2 (by simpa using hc)
                refine Post.pure fun _ => ⟨rfl, ?_⟩
                exact Calm.branch g1 (loadBranchFromLink_mono hx2.store g2) (fun h1 h2 => keep hsome h1 h2 _) k3

/-- Nothing is done in a tree whose nodes are all selected. -/
theorem retain0_all (ht : T.Lawful) {q : Query T} (hq : (allQuery (T := T)).Implies q) (f : Nat) (t : PTree T V) (o : Nat) (l : Int) (σ : E.σ)
    (hs : Stored E cx.sec σ t) (hw : Formed t) (hf : t.index.level < f) : ∃ l', Calm cx q f o t.index l l' σ := by
  induction f generalizing t o l with
  | zero => omega
  | succ fuel ih =>
    have some_mem : ∀ n : Nat, 0 < n → true ∈ List.replicate n true := fun n hn => List.mem_replicate.mpr ⟨by omega, rfl⟩
    cases t with
    | leaf i vs =>
      obtain ⟨h1, h2⟩ := PTree.All.root hw
      refine ⟨_, Calm.leaf fun _ _ _ => hq.containing o i i.link (some_mem _ ?_)⟩
      rw [h1]
      exact List.length_pos_iff.mpr h2
    | purgedLeaf i =>
      have h1 : i.link = none := PTree.All.root hs
      exact ⟨_, Calm.leaf fun _ h2 _ => by rw [h1] at h2; cases h2⟩
    | purgedBranch i => exact ⟨_, Calm.purged (PTree.All.root hs)⟩
    | branch i cs =>
      obtain ⟨lk, r, h1, h2⟩ := PTree.All.root hs
      obtain ⟨w1, w2, _, w4⟩ := PTree.All.root hw
      have hlvl : i.level < fuel + 1 := hf
      have key : ∀ (ds : List (PTree T V)) (o : Nat) (l : Int), (∀ d ∈ ds, d ∈ cs) → ∃ l', CalmL cx q fuel o (ds.map PTree.index) l l' σ := by
        intro ds
        induction ds with
        | nil => exact fun o l _ => ⟨l, CalmL.nil _ _ _ _ _⟩
        | cons d ds ihd =>
          intro o l hd
          have hm := hd d (by simp)
          have := w2 d hm
          obtain ⟨l1, k1⟩ := ih d o l (PTree.All.children hs d hm) (PTree.All.children hw d hm) (by omega)
          obtain ⟨l2, k2⟩ := ihd (o + d.index.count) l1 fun x hx => hd x (by simp [hx])
          exact ⟨l2, CalmL.cons k1 k2⟩
      obtain ⟨l', k⟩ := key cs o (retainLevel (.branch i) l) fun _ h => h
      refine ⟨l', Calm.branch h1 h2 (fun _ _ => hq.intersecting o i i.link (some_mem _ ?_)) k⟩
      rw [w4, ht.sums.len_ofList _ (by simpa using w1), List.length_map]
      exact List.length_pos_iff.mpr w1

/-! ### repair -/

/-- `repair` does nothing at this node. -/
def Sound (cx : Ctx E) (f : Nat) (i : Index T) (σ : E.σ) : Prop :=
  ∀ fuel r l s, f ≤ fuel → StoreLe E σ s.store → ∃ l', repair0 cx fuel i r l s = .ok (i, r, l') s

/-- `repair` does nothing at these nodes. -/
def SoundL (cx : Ctx E) (f : Nat) (cs : List (Index T)) (σ : E.σ) : Prop :=
  ∀ fuel r l s, f ≤ fuel → StoreLe E σ s.store → ∃ l', repairLoop (repair0 cx fuel) cs r l s = .ok (cs, false, r, l') s

theorem Sound.mono {f : Nat} {i : Index T} {σ τ : E.σ} (h : Sound cx f i σ) (hs : StoreLe E σ τ) : Sound cx f i τ :=
  fun fuel r l s hf hle => h fuel r l s hf (hs.trans hle)

theorem SoundL.mono {f : Nat} {cs : List (Index T)} {σ τ : E.σ} (h : SoundL cx f cs σ) (hs : StoreLe E σ τ) : SoundL cx f cs τ :=
  fun fuel r l s hf hle => h fuel r l s hf (hs.trans hle)

theorem SoundL.cons {f : Nat} {c : Index T} {cs : List (Index T)} {σ : E.σ} (h : Sound cx f c σ) (hs : SoundL cx f cs σ) : SoundL cx f (c :: cs) σ := by
  intro fuel r l s hf hle
  unfold repairLoop
  obtain ⟨l1, h1⟩ := h fuel r l s hf hle
  obtain ⟨l2, h2⟩ := hs fuel r l1 s hf hle
  refine ⟨l2, ?_⟩
  rw [bind_apply, h1]
  simp only
  rw [bind_apply, h2]
  simp only
  rw [if_neg (by simp)]
  rfl

theorem Sound.leaf {f : Nat} {i : LeafIndex T} {σ : E.σ} (h : ∃ x, loadLeaf E cx.sec σ i = .ok x) : Sound cx (f + 1) (.leaf i) σ := by
  intro fuel r l s hf hle
  obtain ⟨fuel, rfl⟩ : ∃ k, fuel = k + 1 := ⟨fuel - 1, by omega⟩
  have h1 : ∃ x, loadLeaf E cx.sec s.store i = .ok x := by
    obtain ⟨x, hx⟩ := h
    unfold loadLeaf at hx ⊢
    split at hx
    · exact ⟨_, rfl⟩
    · rename_i lk hl
      unfold loadLeafFromLink getBlock failE at hx ⊢
      cases hg : E.get σ lk with
      | error e => rw [hg] at hx; cases hx
      | ok b =>
        rw [hg] at hx
        rw [hle _ _ hg]
        exact ⟨x, hx⟩
  obtain ⟨x, hx⟩ := h1
  unfold repair0
  simp only
  rw [hx]
  exact ⟨_, rfl⟩

theorem Sound.purged {f : Nat} {i : BranchIndex T} {σ : E.σ} (h : i.link = none) : Sound cx (f + 1) (.branch i) σ := by
  intro fuel r l s hf hle
  obtain ⟨fuel, rfl⟩ : ∃ k, fuel = k + 1 := ⟨fuel - 1, by omega⟩
  unfold repair0
  have : loadBranch E cx.sec s.store i = .ok none := by
    unfold loadBranch
    rw [h]
  simp only
  rw [this]
  exact ⟨_, rfl⟩

theorem Sound.branch {f : Nat} {i : BranchIndex T} {lk : T.Link} {node : Branch T} {σ : E.σ} (hl : i.link = some lk)
    (hld : loadBranchFromLink E cx.sec σ lk = .ok node) (hcs : SoundL cx f node.children σ) : Sound cx (f + 1) (.branch i) σ := by
  intro fuel r l s hf hle
  obtain ⟨fuel, rfl⟩ : ∃ k, fuel = k + 1 := ⟨fuel - 1, by omega⟩
  unfold repair0
  have : loadBranch E cx.sec s.store i = .ok (some node) := by
    unfold loadBranch
    rw [hl]
    simp only
    rw [loadBranchFromLink_mono hle hld]
  simp only
  rw [this]
  simp only
  obtain ⟨l', h1⟩ := hcs fuel r (if !(Index.branch i).isSealed then min l (((Index.branch i).level : Int) - 1) else l) s (by omega) hle
  refine ⟨l', ?_⟩
  rw [bind_apply, h1]
  rfl

theorem repairLoop_again {f : Nat} (hfr : ∀ i r l, Frame cx (repair0 cx f i r l))
    (hrec : ∀ i r l s, Post (repair0 cx f i r l) s (fun x s' => x.1.unlink = i.unlink ∧ Sound cx f x.1 s'.store) AnyErr)
    (cs : List (Index T)) (r : List (RepairMsg T)) (l : Int) (s : St E) :
    Post (repairLoop (repair0 cx f) cs r l) s (fun x s' => x.1.length = cs.length ∧ (x.2.1 = false → x.1 = cs) ∧
      SoundL cx f x.1 s'.store) AnyErr := by
  induction cs generalizing r l s with
  | nil => exact Post.pure fun _ => ⟨rfl, fun _ => rfl, fun _ _ l _ _ _ => ⟨l, rfl⟩⟩
  | cons c cs ih =>
    unfold repairLoop
    refine Post.bind (hfr _ _ _) (fun _ => Frame.bind (frame_repairLoop hfr _ _ _) fun r => ?_) (hrec c r l s) ?_
    · obtain ⟨a, b, c⟩ := r
      simp only
      split <;> exact Frame.pure _
    · rintro ⟨c1, r1, l1⟩ s1 _ _ ⟨h1, h2⟩
      refine Post.bind (frame_repairLoop hfr _ _ _) (fun r => ?_) (ih r1 l1 s1) ?_
      · obtain ⟨a, b, c⟩ := r
        simp only
        split <;> exact Frame.pure _
      · rintro ⟨rest, changed, r2, l2⟩ s2 hx2 _ ⟨g1, g2, g3⟩
        simp only at g1 g2 g3 h1 h2 ⊢
        have key : SoundL cx f (c1 :: rest) s2.store := SoundL.cons (h2.mono hx2.store) g3
        split
        · exact Post.pure fun _ => ⟨by simp [g1], fun hc => (nomatch hc), key⟩
        · rename_i hl
          obtain rfl := unlink_eq h1 (Classical.not_not.mp hl)
          exact Post.pure fun _ => ⟨by simp [g1], fun hc => by rw [g2 hc], key⟩

theorem repair0_again (h : E.Lawful) (f : Nat) (i : Index T) (r : List (RepairMsg T)) (l : Int) (s : St E) :
    Post (repair0 cx f i r l) s (fun x s' => x.1.unlink = i.unlink ∧ Sound cx f x.1 s'.store) AnyErr := by
  induction f generalizing i r l s with
  | zero => exact Post.throw fun _ => trivial
  | succ fuel ih =>
    unfold Post repair0
    simp only
    cases i with
    | leaf i =>
      simp only
      cases hl : loadLeaf E cx.sec s.store i with
      | error e => cases e <;> first | exact fun _ => ⟨rfl, Sound.leaf ⟨none, rfl⟩⟩ | exact fun _ => trivial
      | ok o => exact fun _ => ⟨rfl, Sound.leaf ⟨_, hl⟩⟩
    | branch i =>
      simp only
      cases hl : loadBranch E cx.sec s.store i with
      | error e => cases e <;> first | exact fun _ => ⟨rfl, Sound.purged rfl⟩ | exact fun _ => trivial
      | ok o =>
        cases o with
        | none =>
          refine fun _ => ⟨rfl, Sound.purged ?_⟩
          unfold loadBranch at hl
          split at hl
          · assumption
          · split at hl <;> cases hl
        | some node =>
          simp only
          obtain ⟨lk, g1, g2⟩ := loadBranch_some hl
          refine Post.bind (cx := cx) (s := s) (Q' := fun (x : Index T × List (RepairMsg T) × Int) s' => x.1.unlink = (Index.branch i).unlink ∧ Sound cx (fuel + 1) x.1 s'.store)
            (R := AnyErr) (frame_repairLoop (frame_repair0 h fuel) _ _ _) (fun r => ?_)
            (repairLoop_again (frame_repair0 h fuel) ih node.children r _ s) ?_
          · obtain ⟨a, b, c⟩ := r
            simp only
            split
            · exact Frame.bind (frame_persistBranch h _) fun _ => Frame.pure _
            · exact Frame.pure _
          · rintro ⟨cs, changed, r2, l2⟩ s2 hx2 _ ⟨k1, k2, k3⟩
            simp only at k1 k2 k3 ⊢
            split
            · have hne : cs ≠ [] := by
                intro hc
                rw [hc] at k1
                exact loadBranchFromLink_ne g2 (List.eq_nil_of_length_eq_zero k1.symm)
              refine Post.bind (frame_persistBranch h _) (fun _ => Frame.pure _) (persistBranch_loads h cs hne s2) ?_
              rintro ⟨l', n⟩ s3 hx _ ⟨b, m1, m2⟩
              refine Post.pure fun _ => ⟨rfl, Sound.branch (i := { i with link := some l' }) rfl m1 ?_⟩
              rw [m2]
              exact k3.mono hx.store
            · rename_i hc
              obtain rfl := k2 (by simpa using hc)
              exact Post.pure fun _ => ⟨rfl, Sound.branch g1 (loadBranchFromLink_mono hx2.store g2) k3⟩

end Banyan
