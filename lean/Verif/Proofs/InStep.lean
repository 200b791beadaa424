import Verif.Proofs.Again
import Verif.Proofs.AtEnd
import Verif.Proofs.Pack
import Verif.Proofs.History
/-
The block of the root stays the last block written, as long as operations succeed.
-/
set_option autoImplicit false
namespace Banyan

open PTree

variable {T : TreeTypes} {V : Type} {E : Env T V} {cx : Ctx E} {α : Type}

theorem AtEnd.mono {s s' : St E} {l : T.Link} (h : AtEnd s l) (hs : StoreLe E s.store s'.store) (ho : s'.offset = s.offset) : AtEnd s' l := by
  obtain ⟨o, links, d, h1, h2⟩ := h
  exact ⟨o, links, d, hs _ _ h1, h2.trans ho.symm⟩

/-- If the root is a branch that can be loaded again, its block is the last one written. -/
def InStep (s : St E) : Prop := ∀ (i : BranchIndex T) (l : T.Link), s.root = some (.branch i) → i.link = some l → AtEnd s l

theorem OkPost.post {m : M E α} {s : St E} {Q : α → St E → Prop} (h : OkPost m s Q) : Post m s Q AnyErr := by
  unfold Post
  cases hm : m s with
  | ok a s' => exact fun _ => h a s' hm
  | error e s' => exact fun _ => trivial

theorem Post.and {m : M E α} {s : St E} {Q Q' : α → St E → Prop} (h : Post m s Q AnyErr) (h' : Post m s Q' AnyErr) :
    Post m s (fun a s' => Q a s' ∧ Q' a s') AnyErr := by
  unfold Post at *
  cases hm : m s with
  | ok a s' => rw [hm] at h h'; exact fun hs => ⟨h hs, h' hs⟩
  | error e s' => exact fun _ => trivial

theorem persistBranch_new (h : E.Lawful) (items : List (Index T)) (hne : items ≠ []) (s : St E) :
    Post (persistBranch cx items) s (fun r s' => AtEnd s' r.1 ∧
      ∃ b, loadBranchFromLink E cx.sec s'.store r.1 = .ok b ∧ b.children = items) AnyErr :=
  Post.and (persistBranch_last h items s).post (persistBranch_loads h items hne s)

/-- Nothing has happened, or the node has a new block, written last, or none any more. -/
def Stepped (i : Index T) (s : St E) (j : Index T) (s' : St E) : Prop :=
  (j = i ∧ s' = s) ∨ (j.link ≠ i.link ∧ (j.link = none ∨ LastWritten s' j))

theorem retainLoop_step {q : Query T} {f : Nat} (hfr : ∀ o i l, Frame cx (retain0 cx q f o i l))
    (hrec : ∀ o i l s, Post (retain0 cx q f o i l) s (fun r s' => Stepped i s r.1 s') AnyErr)
    (cs : List (Index T)) (o : Nat) (l : Int) (s : St E) :
    Post (retainLoop (retain0 cx q f) cs o l) s (fun r s' => r.1.length = cs.length ∧ (r.2.1 = false → r.1 = cs ∧ s' = s) ∧
      (r.2.1 = true → r.1 ≠ cs)) AnyErr := by
  induction cs generalizing o l s with
  | nil => exact Post.pure fun _ => ⟨rfl, fun _ => ⟨rfl, rfl⟩, fun h => nomatch h⟩
  | cons c cs ih =>
    unfold retainLoop
    refine Post.bind (hfr _ _ _) (fun _ => Frame.bind (frame_retainLoop hfr _ _ _) fun r => ?_) (hrec o c l s) ?_
    · obtain ⟨a, b, c⟩ := r
      simp only
      split <;> exact Frame.pure _
    · rintro ⟨c1, l1⟩ s1 _ _ h1
      refine Post.bind (frame_retainLoop hfr _ _ _) (fun r => ?_) (ih (o + c.count) l1 s1) ?_
      · obtain ⟨a, b, c⟩ := r
        simp only
        split <;> exact Frame.pure _
      · rintro ⟨rest, changed, l2⟩ s2 hx2 _ ⟨g1, g2, g3⟩
        simp only at g1 g2 g3 h1 ⊢
        split
        · rename_i hl
          refine Post.pure fun _ => ⟨by simp [g1], fun hc => (nomatch hc), fun _ hc => hl ?_⟩
          injection hc with hc _
          rw [hc]
        · rename_i hl
          rcases h1 with ⟨h1, h2⟩ | ⟨h1, _⟩
          · refine Post.pure fun _ => ⟨by simp [g1], fun hc => ?_, fun hc he => g3 hc ?_⟩
            · obtain ⟨k1, k2⟩ := g2 hc
              exact ⟨by rw [k1], k2.trans h2⟩
            · injection he
          · exact absurd h1 hl

theorem retain0_step (h : E.Lawful) (q : Query T) (f : Nat) (o : Nat) (i : Index T) (l : Int) (s : St E) :
    Post (retain0 cx q f o i l) s (fun r s' => Stepped i s r.1 s') AnyErr := by
  induction f generalizing o i l s with
  | zero => exact Post.throw fun _ => trivial
  | succ fuel ih =>
    unfold retain0
    simp only
    cases i with
    | leaf i =>
      simp only
      split
      · rename_i hc
        simp only [Bool.and_eq_true, decide_eq_true_eq] at hc
        split
        · refine Post.pure fun _ => .inr ⟨?_, .inl rfl⟩
          show none ≠ i.link
          intro hn
          rw [← hn] at hc
          cases hc.1.2
        · exact Post.pure fun _ => .inl ⟨rfl, rfl⟩
      · exact Post.pure fun _ => .inl ⟨rfl, rfl⟩
    | branch i =>
      simp only
      by_cases hp : (i.link.isSome && i.isSealed && !(anyTrue (q.intersecting o i (List.replicate (T.sums.len i.summaries) true))) &&
        decide ((i.level : Int) ≤ retainLevel (Index.branch i) l)) = true
      · rw [if_pos hp]
        have : loadBranchOpt cx.sec { i with link := none } s = .ok none s := rfl
        unfold Post
        rw [bind_apply, this]
        refine fun _ => .inr ⟨?_, .inl rfl⟩
        show none ≠ i.link
        intro hn
        simp only [Bool.and_eq_true] at hp
        rw [← hn] at hp
        cases hp.1.1.1
      · rw [if_neg hp]
        refine Post.bind (cx := cx) (frame_loadBranchOpt _ _) (fun r => ?_) (Q := fun r s' => s' = s ∧ loadBranch E cx.sec s.store i = .ok r) ?_ ?_
        · split
          · exact Frame.pure _
          · refine Frame.bind (frame_retainLoop (frame_retain0 h q fuel) _ _ _) fun r => ?_
            obtain ⟨a, b, c⟩ := r
            simp only
            split
            · exact Frame.bind (frame_persistBranch h _) fun _ => Frame.pure _
            · exact Frame.pure _
        · unfold Post loadBranchOpt
          cases loadBranch E cx.sec s.store i with
          | ok a => exact fun _ => ⟨rfl, rfl⟩
          | error e => exact fun _ => trivial
        · rintro r s1 _ _ ⟨rfl, hr⟩
          cases r with
          | none => exact Post.pure fun _ => .inl ⟨rfl, rfl⟩
          | some node =>
            simp only
            obtain ⟨lk, g1, g2⟩ := loadBranch_some hr
            refine Post.bind (frame_retainLoop (frame_retain0 h q fuel) _ _ _) (fun r => ?_)
              (retainLoop_step (frame_retain0 h q fuel) ih node.children o (retainLevel (Index.branch i) l) s1) ?_
            · obtain ⟨a, b, c⟩ := r
              simp only
              split
              · exact Frame.bind (frame_persistBranch h _) fun _ => Frame.pure _
              · exact Frame.pure _
            · rintro ⟨cs, changed, l2⟩ s2 hx2 _ ⟨k1, k2, k3⟩
              simp only at k1 k2 k3 ⊢
              split
              · rename_i hc
                have hne : cs ≠ [] := by
                  intro hc
                  rw [hc] at k1
                  exact loadBranchFromLink_ne g2 (List.eq_nil_of_length_eq_zero k1.symm)
                refine Post.bind (frame_persistBranch h _) (fun _ => Frame.pure _) (persistBranch_new h cs hne s2) ?_
                rintro ⟨l', n⟩ s3 hx _ ⟨m0, b, m1, m2⟩
                refine Post.pure fun _ => .inr ⟨?_, .inr ⟨l', rfl, m0⟩⟩
                show some l' ≠ i.link
                intro he
                rw [g1] at he
                cases he
                have m3 := loadBranchFromLink_mono (hx2.store.trans hx.store) g2
                simp only at m1
                rw [m1] at m3
                cases m3
                exact k3 hc m2.symm
              · rename_i hc
                obtain ⟨rfl, rfl⟩ := k2 (by simpa using hc)
                exact Post.pure fun _ => .inl ⟨rfl, rfl⟩

theorem Stepped.inStep {i j : Index T} {s s' : St E} (hs : InStep s) (hr : s.root = some i) (h : Stepped i s j s') :
    InStep { s' with root := some j } := by
  intro b l hb hl
  simp only [Option.some.injEq] at hb
  subst hb
  rcases h with ⟨rfl, rfl⟩ | ⟨_, h | ⟨l', h1, h2⟩⟩
  · exact (hs b l hr hl).mono (fun _ _ h => h) rfl
  · have : b.link = none := h
    rw [hl] at this
    cases this
  · have : b.link = some l' := h1
    rw [hl] at this
    cases this
    exact h2.mono (fun _ _ h => h) rfl

theorem retain_inStep (h : E.Lawful) {fuel : Nat} {q : Query T} {s s' : St E} (hs : InStep s) (he : retain cx fuel q s = .ok () s')
    (hsm : Small E s') : InStep s' := by
  have key : Post (retain cx fuel q) s (fun _ s' => InStep s') AnyErr := by
    unfold retain
    refine Post.getIndexBind ?_
    cases hr : s.root with
    | none => exact Post.pure fun _ => hs
    | some i =>
      simp only
      refine Post.bind0 (cx := cx) (frame_retain0 h q fuel 0 i i32max).frame0 (fun _ => frame0_setIndex _) (retain0_step h q fuel 0 i i32max s) ?_
      rintro ⟨j, l⟩ s1 _ _ hst
      show Small E _ → _
      intro _
      exact hst.inStep hs hr
  exact key.ok he hsm

theorem repairLoop_step {f : Nat} (hfr : ∀ i r l, Frame cx (repair0 cx f i r l))
    (hrec : ∀ i r l s, Post (repair0 cx f i r l) s (fun x s' => Stepped i s x.1 s') AnyErr)
    (cs : List (Index T)) (r : List (RepairMsg T)) (l : Int) (s : St E) :
    Post (repairLoop (repair0 cx f) cs r l) s (fun x s' => x.1.length = cs.length ∧ (x.2.1 = false → x.1 = cs ∧ s' = s) ∧
      (x.2.1 = true → x.1 ≠ cs)) AnyErr := by
  induction cs generalizing r l s with
  | nil => exact Post.pure fun _ => ⟨rfl, fun _ => ⟨rfl, rfl⟩, fun h => nomatch h⟩
  | cons c cs ih =>
    unfold repairLoop
    refine Post.bind (hfr _ _ _) (fun _ => Frame.bind (frame_repairLoop hfr _ _ _) fun r => ?_) (hrec c r l s) ?_
    · obtain ⟨a, b, c⟩ := r
      simp only
      split <;> exact Frame.pure _
    · rintro ⟨c1, r1, l1⟩ s1 _ _ h1
      refine Post.bind (frame_repairLoop hfr _ _ _) (fun r => ?_) (ih r1 l1 s1) ?_
      · obtain ⟨a, b, c⟩ := r
        simp only
        split <;> exact Frame.pure _
      · rintro ⟨rest, changed, r2, l2⟩ s2 hx2 _ ⟨g1, g2, g3⟩
        simp only at g1 g2 g3 h1 ⊢
        split
        · rename_i hl
          refine Post.pure fun _ => ⟨by simp [g1], fun hc => (nomatch hc), fun _ hc => hl ?_⟩
          injection hc with hc _
          rw [hc]
        · rename_i hl
          rcases h1 with ⟨h1, h2⟩ | ⟨h1, _⟩
          · refine Post.pure fun _ => ⟨by simp [g1], fun hc => ?_, fun hc he => g3 hc ?_⟩
            · obtain ⟨k1, k2⟩ := g2 hc
              exact ⟨by rw [k1], k2.trans h2⟩
            · injection he
          · exact absurd h1 hl

theorem repair0_step (h : E.Lawful) (f : Nat) (i : Index T) (r : List (RepairMsg T)) (l : Int) (s : St E) :
    Post (repair0 cx f i r l) s (fun x s' => Stepped i s x.1 s') AnyErr := by
  induction f generalizing i r l s with
  | zero => exact Post.throw fun _ => trivial
  | succ fuel ih =>
    unfold Post repair0
    simp only
    cases i with
    | leaf i =>
      simp only
      cases hl : loadLeaf E cx.sec s.store i with
      | error e =>
        have hn : none ≠ i.link := by
          intro hn
          unfold loadLeaf at hl
          rw [← hn] at hl
          cases hl
        cases e <;> first | exact fun _ => .inr ⟨hn, .inl rfl⟩ | exact fun _ => trivial
      | ok o => exact fun _ => .inl ⟨rfl, rfl⟩
    | branch i =>
      simp only
      cases hl : loadBranch E cx.sec s.store i with
      | error e =>
        have hn : none ≠ i.link := by
          intro hn
          unfold loadBranch at hl
          rw [← hn] at hl
          cases hl
        cases e <;> first | exact fun _ => .inr ⟨hn, .inl rfl⟩ | exact fun _ => trivial
      | ok o =>
        cases o with
        | none => exact fun _ => .inl ⟨rfl, rfl⟩
        | some node =>
          simp only
          obtain ⟨lk, g1, g2⟩ := loadBranch_some hl
          refine Post.bind (cx := cx) (s := s) (Q' := fun (x : Index T × List (RepairMsg T) × Int) s' => Stepped (Index.branch i) s x.1 s')
            (R := AnyErr) (frame_repairLoop (frame_repair0 h fuel) _ _ _) (fun r => ?_)
            (repairLoop_step (frame_repair0 h fuel) ih node.children r _ s) ?_
          · obtain ⟨a, b, c⟩ := r
            simp only
            split
            · exact Frame.bind (frame_persistBranch h _) fun _ => Frame.pure _
            · exact Frame.pure _
          · rintro ⟨cs, changed, r2, l2⟩ s2 hx2 _ ⟨k1, k2, k3⟩
            simp only at k1 k2 k3 ⊢
            split
            · rename_i hc
              have hne : cs ≠ [] := by
                intro hc
                rw [hc] at k1
                exact loadBranchFromLink_ne g2 (List.eq_nil_of_length_eq_zero k1.symm)
              refine Post.bind (frame_persistBranch h _) (fun _ => Frame.pure _) (persistBranch_new h cs hne s2) ?_
              rintro ⟨l', n⟩ s3 hx _ ⟨m0, b, m1, m2⟩
              refine Post.pure fun _ => .inr ⟨?_, .inr ⟨l', rfl, m0⟩⟩
              show some l' ≠ i.link
              intro he
              rw [g1] at he
              cases he
              have m3 := loadBranchFromLink_mono (hx2.store.trans hx.store) g2
              simp only at m1
              rw [m1] at m3
              cases m3
              exact k3 hc m2.symm
            · rename_i hc
              obtain ⟨rfl, rfl⟩ := k2 (by simpa using hc)
              exact Post.pure fun _ => .inl ⟨rfl, rfl⟩

/-- A root that `repair` keeps can be loaded. -/
theorem repair0_loads (f : Nat) (i : BranchIndex T) (r : List (RepairMsg T)) (l : Int) (s : St E) :
    OkPost (repair0 cx f (.branch i) r l) s (fun x _ => x.1 = .branch i → ∀ lk, i.link = some lk → ∃ b, E.get s.store lk = .ok b) := by
  intro x s' hx he lk hlk
  cases f with
  | zero => cases hx
  | succ f =>
    unfold repair0 at hx
    simp only at hx
    have key : loadBranch E cx.sec s.store i = match loadBranchFromLink E cx.sec s.store lk with | .error e => .error e | .ok n => .ok (some n) := by
      unfold loadBranch
      rw [hlk]
      rfl
    cases hb : loadBranchFromLink E cx.sec s.store lk with
    | ok n => exact loadBranchFromLink_get hb
    | error e =>
      rw [hb] at key
      rw [key] at hx
      cases e with
      | fail m =>
        cases hx
        simp only [Index.branch.injEq] at he
        rw [← he] at hlk
        cases hlk
      | _ => cases hx

theorem repair_inStep (h : E.Lawful) {fuel : Nat} {report : List (RepairMsg T)} {s d s' : St E} (hs : InStep s) (hd : Damaged cx s d)
    (ho : d.offset = s.offset) (he : repair cx fuel d = .ok report s') (hsm : Small E s') : InStep s' := by
  unfold repair at he
  rw [bind_apply] at he
  have hg : (getIndex : M E (Option (Index T))) d = .ok d.root d := rfl
  rw [hg] at he
  simp only at he
  cases hr : d.root with
  | none =>
    rw [hr] at he
    cases he
    intro i l hi
    rw [hr] at hi
    cases hi
  | some i =>
    rw [hr] at he
    simp only at he
    rw [bind_apply] at he
    cases hx : repair0 cx fuel i [] i32max d with
    | error e s1 => rw [hx] at he; cases he
    | ok x s1 =>
      obtain ⟨j, rep, l⟩ := x
      rw [hx] at he
      simp only at he
      have hs' : s' = { s1 with root := some j } := by
        rw [bind_apply] at he
        cases he
        rfl
      subst hs'
      have hst := (repair0_step h fuel i [] i32max d).ok hx hsm
      rcases hst with ⟨rfl, rfl⟩ | hst
      · intro b lk hb hlk
        simp only [Option.some.injEq] at hb
        cases hb
        obtain ⟨bytes, hby⟩ := repair0_loads fuel b [] i32max s1 _ _ hx rfl lk hlk
        obtain ⟨o, links, p, h1, h2⟩ := hs b lk (hd.root.symm.trans hr) hlk
        have := hd.same s1.store .refl lk _ _ h1 hby
        subst this
        exact ⟨o, links, p, hby, h2.trans ho.symm⟩
      · intro b lk hb hlk
        simp only [Option.some.injEq] at hb
        cases hb
        rcases hst with ⟨_, h1 | ⟨l', h1, h2⟩⟩
        · have : b.link = none := h1
          rw [hlk] at this
          cases this
        · have : b.link = some l' := h1
          rw [hlk] at this
          cases this
          exact h2.mono (fun _ _ h => h) rfl

/-! ### pack -/

theorem simplifyRoots_last (h : E.Lawful) (fuel : Nat) (roots : List (Index T)) (from_ : Nat) (s : St E) :
    OkPost (simplifyRoots cx fuel roots from_) s (fun rs s' => ∃ a node b, rs = a ++ [.branch node] ++ b ∧ LastWritten s' (.branch node)) := by
  induction fuel generalizing from_ s with
  | zero => exact OkPost.throw
  | succ fuel ih =>
    unfold simplifyRoots
    refine OkPost.assertBind fun _ => OkPost.assertBind fun _ => OkPost.liftBind fun r _ => ?_
    cases r with
    | «sealed» count => exact OkPost.bind (newBranch_last h _ _ s) fun node s' hn => OkPost.pure ⟨_, node, _, rfl, hn⟩
    | unsealed count => exact OkPost.bind (newBranch_last h _ _ s) fun node s' hn => OkPost.pure ⟨_, node, _, rfl, hn⟩
    | skip count => exact ih _ s

theorem treeFromRootsLoop_last (h : E.Lawful) (fuel : Nat) (roots : List (Index T)) (s : St E) :
    OkPost (treeFromRootsLoop cx fuel roots) s (fun rs s' => (rs = roots ∧ s' = s ∧ roots.length ≤ 1) ∨
      ∃ node, rs = [.branch node] ∧ LastWritten s' (.branch node)) := by
  induction fuel generalizing roots s with
  | zero =>
    unfold treeFromRootsLoop
    split
    · exact OkPost.throw
    · exact OkPost.pure (.inl ⟨rfl, rfl, by omega⟩)
  | succ fuel ih =>
    unfold treeFromRootsLoop
    split
    · refine OkPost.bind (simplifyRoots_last h _ _ _ s) fun rs s1 hrs => ?_
      obtain ⟨a, node, b, h1, h2⟩ := hrs
      intro rs' s' hx
      rcases ih rs s1 rs' s' hx with ⟨k1, k2, k3⟩ | k
      · subst k1 k2
        rw [h1] at k3
        simp only [List.length_append, List.length_cons, List.length_nil] at k3
        have ha : a = [] := List.eq_nil_of_length_eq_zero (by omega)
        have hb : b = [] := List.eq_nil_of_length_eq_zero (by omega)
        subst ha hb
        exact .inr ⟨node, h1, h2⟩
      · exact .inr k
    · exact OkPost.pure (.inl ⟨rfl, rfl, by omega⟩)

theorem treeFromRoots_last (h : E.Lawful) (rs : List (Index T)) (s : St E) :
    OkPost (treeFromRoots cx rs) s (fun _ s' => (s' = { s with root := rs.getLast? } ∧ rs.length ≤ 1) ∨
      ∃ node, s'.root = some (.branch node) ∧ LastWritten s' (.branch node)) := by
  unfold treeFromRoots
  refine OkPost.assertBind fun _ => OkPost.assertBind fun _ => OkPost.bind (treeFromRootsLoop_last h _ _ s) fun rs' s1 hrs => ?_
  intro u s' hx
  cases hx
  rcases hrs with ⟨rfl, rfl, h3⟩ | ⟨node, rfl, l, h1, h2⟩
  · exact .inl ⟨rfl, h3⟩
  · exact .inr ⟨node, rfl, l, h1, h2.mono (fun _ _ h => h) rfl⟩

variable {I : NodeInv cx}

/-- A node has at most as many elements as a tree it is part of, and is not above its root. -/
theorem count_le_of_mem {t n : PTree T V} (hw : WF E t) (hn : n ∈ t.nodes) :
    n.index.count ≤ t.index.count ∧ n.index.level ≤ t.index.level := by
  induction t using PTree.induct with
  | leaf i vs => simp only [nodes, List.mem_singleton] at hn; subst hn; exact ⟨Nat.le_refl _, Nat.le_refl _⟩
  | purgedLeaf i => simp only [nodes, List.mem_singleton] at hn; subst hn; exact ⟨Nat.le_refl _, Nat.le_refl _⟩
  | purgedBranch i => simp only [nodes, List.mem_singleton] at hn; subst hn; exact ⟨Nat.le_refl _, Nat.le_refl _⟩
  | branch i cs ih =>
    simp only [nodes, List.mem_cons] at hn
    rcases hn with rfl | hn
    · exact ⟨Nat.le_refl _, Nat.le_refl _⟩
    · rw [nodesL_eq] at hn
      obtain ⟨c, hc, hn⟩ := List.mem_flatMap.mp hn
      obtain ⟨h1, h2⟩ := ih c hc (PTree.All.child hw hc) hn
      obtain ⟨_, h3, _, h4, _⟩ := PTree.All.root hw
      have h5 := le_sum_of_mem (List.mem_map_of_mem (f := fun c => c.index.count) hc)
      have h6 := h3 c hc
      exact ⟨by show _ ≤ i.count; omega, by show _ ≤ i.level; omega⟩

/-- A proper part of a tree with as many elements as the tree is a leaf, if the root of the tree is not superfluous. -/
theorem whole_part {t n : PTree T V} (hw : WF E t) (hm : MinRoot t) (hn : n ∈ t.nodes) (hne : n ≠ t)
    (hc : n.index.count = t.index.count) : n.index.level = 0 := by
  cases t with
  | leaf i vs => simp only [nodes, List.mem_singleton] at hn; exact absurd hn hne
  | purgedLeaf i => simp only [nodes, List.mem_singleton] at hn; exact absurd hn hne
  | purgedBranch i => simp only [nodes, List.mem_singleton] at hn; exact absurd hn hne
  | branch i cs =>
    simp only [nodes, List.mem_cons] at hn
    rcases hn with hn | hn
    · exact absurd hn hne
    · rw [nodesL_eq] at hn
      obtain ⟨c, hcc, hn⟩ := List.mem_flatMap.mp hn
      obtain ⟨h1, h2⟩ := count_le_of_mem (PTree.All.child hw hcc) hn
      obtain ⟨_, h3, _, h4, _⟩ := PTree.All.root hw
      have h6 := h3 c hcc
      by_cases hl : 2 ≤ i.level
      · exfalso
        have h7 := hm hl
        obtain ⟨a, b, rfl⟩ := List.append_of_mem hcc
        have h8 : i.count = n.index.count := hc.symm
        rw [h4] at h8
        simp only [List.map_append, List.map_cons, List.sum_append, List.sum_cons] at h8
        simp only [List.length_append, List.length_cons] at h7
        have pos : ∀ l : List (PTree T V), (∀ x ∈ l, x ∈ a ++ c :: b) → l ≠ [] → 0 < (l.map fun c => c.index.count).sum := by
          intro l hl hne
          obtain ⟨x, hx⟩ := List.exists_mem_of_ne_nil l hne
          have h9 := WF.count_pos (PTree.All.child hw (hl x hx))
          have h10 := le_sum_of_mem (List.mem_map_of_mem (f := fun c : PTree T V => c.index.count) hx)
          omega
        by_cases ha : a = []
        · have hb : b ≠ [] := by
            rintro rfl
            subst ha
            simp at h7
          have := pos b (by intro x hx; simp [hx]) hb
          omega
        · have := pos a (by intro x hx; simp [hx]) ha
          omega
      · omega

theorem pack_inStep (h : E.Lawful) (ht : T.Lawful) (hv : cx.cfg.Valid) {fuel : Nat} {t : Option (PTree T V)} {s s' : St E}
    (hi : Inv I s t) (hfuel : rootLevel s.root < fuel) (hst : InStep s) (he : pack cx fuel s = .ok () s')
    (hs : Small E s') : InStep s' := by
  have hh := hi.holds
  have hlevel := hi.level_lt
  have hcount : (optContent t).length + 1 < u32max := by
    have := hi.count
    have : maxElements + 1 < u32max := by decide
    omega
  obtain ⟨t', k1, k2, _⟩ := (pack_spec (I := I) h ht hv (R := fun _ => True) fuel t (fun _ _ => trivial) s hh hi.purge hfuel hlevel hcount).ok he hs
  have hpk : pack cx fuel s = (roots cx fuel >>= fun rs => treeFromRoots cx rs >>= fun _ => getIndex >>= fun root =>
    Tree.collectFrom fuel (snapshot cx s) (rootCount root) >>= fun items =>
      match sequenceOpt items with
      | none => throw (.fail "found purged data")
      | some remainder => extend cx (fuel + rootLevel root) remainder) s := rfl
  rw [hpk, bind_apply] at he
  obtain ⟨c, hc, hr⟩ := roots_reads hh hfuel
  rw [hr] at he
  simp only at he
  rw [bind_apply] at he
  have hlv : ∀ t', t = some t' → (t'.index.level : Int) ≤ i32max := by
    intro t' ht'
    subst ht'
    rw [hh.level] at hlevel
    exact hlevel
  have hinfo : (∀ r ∈ optRoots t, Good I s.store r) ∧ (∀ r ∈ optRoots t, r.index.isSealed = true) ∧
      (optRoots t).Pairwise (fun a b => a.index.level ≥ b.index.level) := by
    cases t with
    | none => simp [optRoots]
    | some t =>
      have := optRoots_info t
      exact ⟨fun r hr => (hh.good t rfl).mem (this.mem r hr), this.sealed, this.sorted⟩
  obtain ⟨rest, hrest⟩ := optRoots_content hi.purge hlv
  cases hm : treeFromRoots cx ((optRoots t).map index) { s with cache := c } with
  | error e s1 => rw [hm] at he; cases he
  | ok u s2 =>
    rw [hm] at he
    simp only at he
    have hg : (getIndex : M E (Option (Index T))) s2 = .ok s2.root s2 := rfl
    rw [bind_apply, hg] at he
    simp only at he
    rw [bind_apply] at he
    have hext : Ext0 cx s2 s' := by
      cases hcol : Tree.collectFrom fuel (snapshot cx s) (rootCount s2.root) s2 with
      | error e2 s3 => rw [hcol] at he; cases he
      | ok items s3 =>
        rw [hcol] at he
        simp only at he
        have h2 := (frame_treeCollectFrom (cx := cx) h _ _ _).ok hcol
        cases hq : sequenceOpt items with
        | none => rw [hq] at he; cases he
        | some r => rw [hq] at he; exact h2.ext0.trans ((frame0_extend h _ _).ok he)
    obtain ⟨t1, hh1, hcont1, _⟩ := (treeFromRoots_spec (I := I) (vals := fun _ => True) (R := fun _ => True) h ht hv
      (fun _ _ => trivial) (optRoots t) { s with cache := c } hc hinfo.1 hinfo.2.1 hinfo.2.2).ok hm (hext.small hs)
    have hlast := treeFromRoots_last h _ _ _ _ hm
    have hx2 := (frame0_treeFromRoots h _).ok hm
    have hcount1 := rootCount_eq ht hh1
    have hcol : Reads cx.sec (Tree.collectFrom fuel (snapshot cx s) (rootCount s2.root) : M E (List (Option (T.Key × V)))) s2 (rest.map some) := by
      have hd : rest.map some = (optContent t).drop (rootCount s2.root) := by
        rw [hcount1, hcont1, hrest, List.drop_left]
      rw [hd]
      unfold Tree.collectFrom snapshot
      rw [hh.root]
      cases t with
      | none => simpa [optContent] using Reads.pure hh1.coherent []
      | some t =>
        have hg := (hh.good t rfl).mono hx2.store
        have := collect0_reads h ht fuel t (rootCount s2.root) [] s2 hg.stored hg.counts hh1.coherent (by rw [hh.level] at hfuel; exact hfuel)
        simpa [optContent] using this
    obtain ⟨c3, hc3, hr3⟩ := hcol
    rw [hr3] at he
    simp only at he
    rw [sequenceOpt_map_some] at he
    simp only at he
    by_cases hrn : rest = []
    · subst hrn
      cases he
      rcases hlast with ⟨h1, h2⟩ | ⟨node, h1, l, h2, h3⟩
      · subst h1
        intro b l hb hl
        simp only at hb
        match hro : optRoots t with
        | [] => rw [hro] at hb; cases hb
        | [r] =>
          rw [hro] at hb hrest
          simp only [List.map_cons, List.map_nil, List.getLast?_singleton, Option.some.injEq] at hb
          cases t with
          | none => cases hro
          | some t =>
            have hgt := hh.good t rfl
            have hmem := (optRoots_info t).mem r (by rw [hro]; simp)
            by_cases hrt : r = t
            · subst hrt
              have := hst b l (by rw [hh.root, ← hb]; rfl) hl
              exact this.mono (fun _ _ h => h) rfl
            · exfalso
              have hcnt : r.index.count = t.index.count := by
                rw [← content_length ht (hgt.mem hmem).counts, ← content_length ht hgt.counts]
                have : t.content = r.content := by simpa [optContent, contents] using hrest
                rw [this]
              have h0 := whole_part hgt.wf hi.minRoot hmem hrt hcnt
              have hgr := (hgt.mem hmem).wf
              cases r with
              | leaf i vs => cases hb
              | purgedLeaf i => cases hb
              | purgedBranch i =>
                have := (PTree.All.root hgr).2.2.1
                have : i.level = 0 := h0
                omega
              | branch i cs =>
                obtain ⟨_, _, ⟨c, _, h4⟩, _⟩ := PTree.All.root hgr
                have : i.level = 0 := h0
                omega
        | _ :: _ :: _ => rw [hro] at h2; simp at h2
      · intro b l' hb hl'
        have hb : s2.root = some (.branch b) := hb
        rw [h1] at hb
        simp only [Option.some.injEq, Index.branch.injEq] at hb
        subst hb
        have : node.link = some l := h2
        rw [hl'] at this
        cases this
        exact h3.mono (fun _ _ h => h) rfl
    · obtain ⟨i, h1, h2⟩ := extend_last h hrn he
      rcases h2 with ⟨l, h2, h3⟩ | h2
      · intro b l' hb hl'
        rw [h1] at hb
        simp only [Option.some.injEq] at hb
        subst hb
        have : b.link = some l := h2
        rw [hl'] at this
        cases this
        exact h3
      · exfalso
        have hc' := rootCount_eq ht k1
        rw [h2] at hc'
        have hc' : rootCount s2.root = (optContent t').length := hc'
        rw [hcount1, hcont1, k2, hrest, List.length_append, List.length_map] at hc'
        have := List.length_pos_iff.mpr hrn
        omega

end Banyan
