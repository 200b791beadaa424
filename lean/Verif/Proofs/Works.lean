import Verif.Spec.WProg
import Verif.Proofs.WProg
import Verif.Proofs.Retain
/-
Programs of builders among other threads do what they do alone, in an environment in which everything that will be in the store at the end
is there from the beginning, the links of the blocks to be written are known in advance, and nothing is ever cached.
-/
set_option autoImplicit false
namespace Banyan

open PTree

variable {T : TreeTypes} {V : Type} {E : Env T V} {α : Type} {sec : Secrets E} {cx : Ctx E}

/-! ### other threads -/

theorem Peer.grows (h : E.Lawful) {a b : World E} (hx : Peer sec a b) : StoreLe E a.1 b.1 := by
  cases hx with
  | put d => exact fun l x hl => h.put_mono _ _ _ _ hl
  | lookup l => exact fun _ _ hl => hl
  | insert l b _ => exact fun _ _ hl => hl
  | evict γ _ => exact fun _ _ hl => hl

/-- Everything in the cache was read with the key. -/
def ExactW (E : Env T V) (sec : Secrets E) (w : World E) : Prop :=
  ∀ l b, (E.cacheGet w.2 l).1 = some b → loadBranchFromLink E sec w.1 l = .ok b

theorem Peer.exact (h : E.Lawful) {a b : World E} (hx : Peer sec a b) (hc : ExactW E sec a) : ExactW E sec b := by
  cases hx with
  | put d => exact fun l b hl => loadBranchFromLink_mono (fun l x hl => h.put_mono _ _ _ _ hl) (hc l b hl)
  | lookup l => exact fun l' b hl => hc l' b (h.cacheGet_sub _ _ _ _ hl)
  | insert l b hb =>
    intro l' b' hl
    rcases h.cachePut_sub _ _ _ _ _ hl with ⟨rfl, rfl⟩ | hl
    · exact hb
    · exact hc l' b' hl
  | evict γ hγ => exact fun l b hl => hc l b (hγ l b hl)

theorem Peers.grows (h : E.Lawful) {a b : World E} (hx : Peers sec a b) : StoreLe E a.1 b.1 := by
  induction hx with
  | refl => exact fun _ _ hl => hl
  | step _ hs ih => exact ih.trans (hs.grows h)

theorem Peers.exact (h : E.Lawful) {a b : World E} (hx : Peers sec a b) (hc : ExactW E sec a) : ExactW E sec b := by
  induction hx with
  | refl => exact hc
  | step _ hs ih => exact hs.exact h ih

/-! ### the environment of the end -/

/-- The blocks that will be written, with their links, and the message of the error if one more cannot be written: one that the store
can give, or some given message. -/
def Script (E : Env T V) (F : E.σ × String) :=
  { p : List (Bytes × T.Link) × String // (∀ x ∈ p.1, E.get F.1 x.2 = .ok x.1) ∧ (p.2 = F.2 ∨ ∃ σ d, (E.put σ d).1 = .error p.2) }

def Script.nothing (F : E.σ × String) : Script E F := ⟨([], F.2), by simp⟩

def Script.full (F : E.σ × String) (m : String) (h : ∃ σ d, (E.put σ d).1 = .error m) : Script E F := ⟨([], m), by simp, .inr h⟩

def Script.put {F : E.σ × String} : Script E F → Bytes → Except String T.Link × Script E F
  | ⟨([], m), h⟩, _ => (.error m, ⟨([], m), h⟩)
  | ⟨((d, l) :: rest, m), h⟩, d' =>
    if d = d' then (.ok l, ⟨(rest, m), fun x hx => h.1 x (by simp [hx]), h.2⟩) else (.error m, ⟨((d, l) :: rest, m), h⟩)

/-- The environment in which the store is always as it will be at the end. -/
def Env.final (E : Env T V) (F : E.σ × String) : Env T V :=
  { E with
    σ := Script E F, get := fun _ l => E.get F.1 l, put := Script.put,
    γ := Unit, cacheGet := fun _ _ => (none, ()), cachePut := fun _ _ _ => () }

theorem Env.final_lawful (h : E.Lawful) (F : E.σ × String) : (E.final F).Lawful where
  put_ok := by
    rintro ⟨⟨p, m⟩, hp⟩ d l hx
    cases p with
    | nil => cases hx
    | cons x p =>
      obtain ⟨d', l'⟩ := x
      show E.get F.1 l = .ok d
      change (Script.put (E := E) (F := F) ⟨((d', l') :: p, m), hp⟩ d).1 = .ok l at hx
      by_cases hd : d' = d
      · simp only [Script.put, if_pos hd] at hx
        cases hx
        subst hd
        exact hp.1 (d', l) (by simp)
      · simp only [Script.put, if_neg hd] at hx
        cases hx
  put_mono := fun _ _ _ _ hl => hl
  cacheGet_sub := fun _ _ _ _ hl => hl
  cachePut_sub := fun _ _ _ _ _ hl => (by cases hl)
  unz_zfin := h.unz_zfin
  zfin_ne := h.zfin_ne
  zlen_le := h.zlen_le
  encV_ne := h.encV_ne
  item_encV := h.item_encV
  decV_encV := h.decV_encV
  encIdx_ne := h.encIdx_ne
  item_encIdx := h.item_encIdx
  decIdx_encIdx := h.decIdx_encIdx
  decNode_encNode := h.decNode_encNode

def Secrets.final (sec : Secrets E) (F : E.σ × String) : Secrets (E.final F) := ⟨sec.indexKey, sec.valueKey⟩
def Ctx.final (cx : Ctx E) (F : E.σ × String) : Ctx (E.final F) := ⟨cx.cfg, cx.sec.final F⟩
def St.final (s : St E) {F : E.σ × String} (p : Script E F) : St (E.final F) := ⟨p, (), s.offset, s.root, s.puts, s.written⟩

set_option smartUnfolding false in
theorem loadBranchFromLink_final (F : E.σ × String) (p : Script E F) (l : T.Link) :
    loadBranchFromLink (E.final F) (sec.final F) p l = loadBranchFromLink E sec F.1 l := rfl

set_option smartUnfolding false in
theorem loadLeafFromLink_final (F : E.σ × String) (p : Script E F) (l : T.Link) :
    loadLeafFromLink (E.final F) (sec.final F) p l = loadLeafFromLink E sec F.1 l := rfl

theorem loadBranchCached_final (F : E.σ × String) (s : St E) (p : Script E F) (l : T.Link) :
    loadBranchCached (sec.final F) l (s.final p) = match loadBranchFromLink E sec F.1 l with
      | .ok b => .ok b (s.final p) | .error e => .error e (s.final p) := by
  rw [← loadBranchFromLink_final F p]
  unfold loadBranchCached
  show (match loadBranchFromLink (E.final F) (sec.final F) p l with | .error e => EStateM.Result.error e (s.final p) | .ok b => .ok b (s.final p)) = _
  cases loadBranchFromLink (E.final F) (sec.final F) p l <;> rfl

theorem loadBranchM_final (F : E.σ × String) (s : St E) (p : Script E F) (l : T.Link) :
    loadBranchM (sec.final F) l (s.final p) = match loadBranchFromLink E sec F.1 l with
      | .ok b => .ok b (s.final p) | .error e => .error e (s.final p) := by
  rw [← loadBranchFromLink_final F p]
  unfold loadBranchM
  show (match loadBranchFromLink (E.final F) (sec.final F) p l with | .error e => EStateM.Result.error e (s.final p) | .ok b => .ok b (s.final p)) = _
  cases loadBranchFromLink (E.final F) (sec.final F) p l <;> rfl

theorem loadLeafM_final (F : E.σ × String) (s : St E) (p : Script E F) (l : T.Link) :
    loadLeafM (sec.final F) l (s.final p) = match loadLeafFromLink E sec F.1 l with
      | .ok b => .ok b (s.final p) | .error e => .error e (s.final p) := by
  rw [← loadLeafFromLink_final F p]
  unfold loadLeafM
  show (match loadLeafFromLink (E.final F) (sec.final F) p l with | .error e => EStateM.Result.error e (s.final p) | .ok b => .ok b (s.final p)) = _
  cases loadLeafFromLink (E.final F) (sec.final F) p l <;> rfl

/-- The result as a result of the sequential model. -/
def resultAt {F : E.σ × String} (r : Except Err α) (s : St (E.final F)) : EStateM.Result Err (St (E.final F)) α :=
  match r with
  | .ok a => .ok a s
  | .error e => .error e s

theorem WProg.Runs.exact (h : E.Lawful) {p : WProg T α} {s s' : St E} {r : Except Err α} (hx : p.Runs sec s r s') :
    StoreLe E s.store s'.store ∧ (Exact E sec s → Exact E sec s') := by
  induction hx with
  | others hp _ ih => exact ⟨(hp.grows h).trans ih.1, fun hc => ih.2 (hp.exact h hc)⟩
  | ret a s => exact ⟨fun _ _ h => h, id⟩
  | stop e s => exact ⟨fun _ _ h => h, id⟩
  | hit b _ _ ih => exact ⟨ih.1, fun hc => ih.2 fun l' b' hl => hc l' b' (h.cacheGet_sub _ _ _ _ hl)⟩
  | @miss s _ w w' l _ _ b h1 h2 h3 h4 _ ih =>
    have hw := loadBranchFromLink_mono (h4.grows h) h3
    refine ⟨((h2.grows h).trans (h4.grows h)).trans ih.1, fun hc => ih.2 ?_⟩
    have h5 : ExactW E sec w' := h4.exact h (h2.exact h fun l' b' hl => hc l' b' (h.cacheGet_sub _ _ _ _ hl))
    exact (Peer.insert w' l b hw).exact h h5
  | missing e _ h2 _ =>
    exact ⟨h2.grows h, fun hc => h2.exact h fun l' b' hl => hc l' b' (h.cacheGet_sub _ _ _ _ hl)⟩
  | read b _ _ ih => exact ih
  | noRead e _ => exact ⟨fun _ _ h => h, id⟩
  | leaf b _ _ ih => exact ih
  | noLeaf e _ => exact ⟨fun _ _ h => h, id⟩
  | @put s _ d σ _ _ l h1 _ ih =>
    have hle : StoreLe E s.store σ := by
      have := h.put_mono s.store d
      rw [h1] at this
      exact fun l x hl => this l x hl
    exact ⟨hle.trans ih.1, fun hc => ih.2 fun l b hl => loadBranchFromLink_mono hle (hc l b hl)⟩
  | @noPut s d σ _ m h1 =>
    have hle : StoreLe E s.store σ := by
      have := h.put_mono s.store d
      rw [h1] at this
      exact fun l x hl => this l x hl
    exact ⟨hle, fun hc l b hl => loadBranchFromLink_mono hle (hc l b hl)⟩
  | reserve _ _ ih => exact ih
  | noReserve _ => exact ⟨fun _ _ h => h, id⟩
  | log _ ih => exact ih
  | getIndex _ ih => exact ih
  | setIndex _ ih => exact ih

/-- A program among other threads does what it does alone in the environment of the end. -/
theorem WProg.Runs.alone (h : E.Lawful) {p : WProg T α} {s s' : St E} {r : Except Err α} (hx : p.Runs sec s r s') (hc : Exact E sec s) (m0 : String) :
    ∃ q q' : Script E (s'.store, m0), p.run (sec.final (s'.store, m0)) (s.final q) = resultAt r (s'.final q') := by
  induction hx with
  | others hp _ ih => exact ih (hp.exact h hc)
  | ret a s => exact ⟨.nothing _, .nothing _, rfl⟩
  | stop e s => exact ⟨.nothing _, .nothing _, rfl⟩
  | @hit s s' l k r b hb hr ih =>
    have hc' : Exact E sec { s with cache := (E.cacheGet s.cache l).2 } := fun l' b' hl => hc l' b' (h.cacheGet_sub _ _ _ _ hl)
    obtain ⟨q, q', hq⟩ := ih hc'
    refine ⟨q, q', ?_⟩
    unfold WProg.run
    rw [bind_apply, loadBranchCached_final, loadBranchFromLink_mono (hr.exact h).1 (hc l b hb)]
    exact hq
  | @miss s s' w w' l k r b h1 h2 h3 h4 hr ih =>
    have hw := loadBranchFromLink_mono (h4.grows h) h3
    have h5 : ExactW E sec w' := h4.exact h (h2.exact h fun l' b' hl => hc l' b' (h.cacheGet_sub _ _ _ _ hl))
    obtain ⟨q, q', hq⟩ := ih ((Peer.insert w' l b hw).exact h h5)
    refine ⟨q, q', ?_⟩
    unfold WProg.run
    rw [bind_apply, loadBranchCached_final, loadBranchFromLink_mono (hr.exact h).1 hw]
    exact hq
  | @missing s w l k e _ h2 h3 =>
    refine ⟨.nothing _, .nothing _, ?_⟩
    unfold WProg.run
    rw [bind_apply, loadBranchCached_final, show (s.within w).store = w.1 from rfl, h3]
    rfl
  | @read s s' l k r b hb hr ih =>
    obtain ⟨q, q', hq⟩ := ih hc
    refine ⟨q, q', ?_⟩
    unfold WProg.run
    rw [bind_apply, loadBranchM_final, loadBranchFromLink_mono (hr.exact h).1 hb]
    exact hq
  | @noRead s l k e hb =>
    refine ⟨.nothing _, .nothing _, ?_⟩
    unfold WProg.run
    rw [bind_apply, loadBranchM_final, hb]
    rfl
  | @leaf s s' l k r b hb hr ih =>
    obtain ⟨q, q', hq⟩ := ih hc
    refine ⟨q, q', ?_⟩
    unfold WProg.run
    rw [bind_apply, loadLeafM_final, loadLeafFromLink_mono (hr.exact h).1 hb]
    exact hq
  | @noLeaf s l k e hb =>
    refine ⟨.nothing _, .nothing _, ?_⟩
    unfold WProg.run
    rw [bind_apply, loadLeafM_final, hb]
    rfl
  | @put s s' d σ k r l h1 hr ih =>
    have hle : StoreLe E s.store σ := by
      have := h.put_mono s.store d
      rw [h1] at this
      exact fun l x hl => this l x hl
    have hget : E.get s'.store l = .ok d := by
      refine (hr.exact h).1 l d ?_
      have := h.put_ok s.store d l (by rw [h1])
      rw [h1] at this
      exact this
    obtain ⟨⟨⟨q, m⟩, hm⟩, q', hq⟩ := ih (fun l b hl => loadBranchFromLink_mono hle (hc l b hl))
    refine ⟨⟨((d, l) :: q, m), ?_⟩, q', ?_⟩
    · refine ⟨?_, hm.2⟩
      intro x hx
      rcases List.mem_cons.mp hx with rfl | hx
      · exact hget
      · exact hm.1 x hx
    · unfold WProg.run
      rw [bind_apply]
      have : ∀ hh, putBlock (E := E.final (s'.store, m0)) d (s.final (F := (s'.store, m0)) ⟨((d, l) :: q, m), hh⟩) =
          .ok l (({ s with store := σ, puts := s.puts ++ [d] } : St E).final ⟨(q, m), hm⟩) := by
        intro hh
        have hput : (E.final (s'.store, m0)).put (s.final (F := (s'.store, m0)) ⟨((d, l) :: q, m), hh⟩).store d = (.ok l, (⟨(q, m), hm⟩ : Script E (s'.store, m0))) := by
          show Script.put (E := E) (F := (s'.store, m0)) ⟨((d, l) :: q, m), hh⟩ d = _
          simp only [Script.put, if_true]
          rfl
        unfold putBlock
        rw [hput]
        rfl
      rw [this]
      exact hq
  | @noPut s d σ k m h1 =>
    refine ⟨.full _ m ⟨_, _, congrArg Prod.fst h1⟩, .full _ m ⟨_, _, congrArg Prod.fst h1⟩, ?_⟩
    rfl
  | @reserve s s' n k r hn hr ih =>
    obtain ⟨q, q', hq⟩ := ih hc
    refine ⟨q, q', ?_⟩
    unfold WProg.run
    rw [bind_apply]
    have : Banyan.reserve (E := E.final (s'.store, m0)) n (s.final q) = .ok s.offset (({ s with offset := s.offset + n } : St E).final q) := by
      unfold Banyan.reserve
      rw [show (s.final q).offset = s.offset from rfl, if_pos hn]
      rfl
    rw [this]
    exact hq
  | @noReserve s n k hn =>
    refine ⟨.nothing _, .nothing _, ?_⟩
    unfold WProg.run
    rw [bind_apply]
    have : ∀ q, Banyan.reserve (E := E.final (s.store, m0)) n (s.final q) = .error .offsets (s.final q) := by
      intro q
      unfold Banyan.reserve
      rw [show (s.final q).offset = s.offset from rfl, if_neg hn]
    rw [this]
    rfl
  | log _ ih =>
    obtain ⟨q, q', hq⟩ := ih hc
    exact ⟨q, q', hq⟩
  | getIndex _ ih =>
    obtain ⟨q, q', hq⟩ := ih hc
    exact ⟨q, q', hq⟩
  | setIndex _ ih =>
    obtain ⟨q, q', hq⟩ := ih hc
    exact ⟨q, q', hq⟩

/-! ### the same programs -/

section Same
variable {F : E.σ × String}

set_option smartUnfolding false in
theorem newBranch_final (cs : List (Index T)) (mode : CreateMode) : WProg.newBranch (cx.final F) cs mode = WProg.newBranch cx cs mode := rfl

set_option smartUnfolding false in
theorem leafFromIter_final (xs : List (T.Key × V)) : WProg.leafFromIter (cx.final F) xs = WProg.leafFromIter cx xs := rfl

theorem extendBranchWith_final (fc : List (T.Key × V) → WProg T (Index T × List (T.Key × V))) (cs : List (Index T)) (level : Nat)
    (xs : List (T.Key × V)) (mode : CreateMode) :
    WProg.extendBranchWith (cx.final F) fc cs level xs mode = WProg.extendBranchWith cx fc cs level xs mode := by
  unfold WProg.extendBranchWith
  simp only [newBranch_final]
  rfl

theorem fillNode_final (level : Nat) : WProg.fillNode (cx.final F) level = WProg.fillNode cx level := by
  induction level with
  | zero => funext xs; unfold WProg.fillNode; rw [leafFromIter_final]
  | succ level ih => funext xs; unfold WProg.fillNode; rw [ih, extendBranchWith_final]

theorem extendBranch_final (cs : List (Index T)) (level : Nat) (xs : List (T.Key × V)) (mode : CreateMode) :
    WProg.extendBranch (cx.final F) cs level xs mode = WProg.extendBranch cx cs level xs mode := by
  cases level with
  | zero => rfl
  | succ l => unfold WProg.extendBranch; simp only; rw [fillNode_final, extendBranchWith_final]

theorem extendAboveLoop_final (level fuel : Nat) (node : Index T) (xs : List (T.Key × V)) :
    WProg.extendAboveLoop (cx.final F) level fuel node xs = WProg.extendAboveLoop cx level fuel node xs := by
  induction fuel generalizing node xs with
  | zero => unfold WProg.extendAboveLoop; rfl
  | succ fuel ih => unfold WProg.extendAboveLoop; simp only [extendBranch_final, ih]

theorem extendAboveWith_final (ext0 : Index T → List (T.Key × V) → WProg T (Index T × List (T.Key × V))) (node : Option (Index T))
    (level : Nat) (xs : List (T.Key × V)) :
    WProg.extendAboveWith (cx.final F) ext0 node level xs = WProg.extendAboveWith cx ext0 node level xs := by
  unfold WProg.extendAboveWith WProg.extendStart
  simp only [extendAboveLoop_final, leafFromIter_final]

set_option smartUnfolding false in
theorem extendLeaf_final (c : Bytes) (keys : Option T.KeySeq) (xs : List (T.Key × V)) :
    WProg.extendLeaf (cx.final F) c keys xs = WProg.extendLeaf cx c keys xs := rfl

theorem extend0_final (fuel : Nat) : WProg.extend0 (cx.final F) fuel = WProg.extend0 cx fuel := by
  induction fuel with
  | zero => rfl
  | succ fuel ih =>
    funext index xs
    unfold WProg.extend0
    simp only [extendLeaf_final, extendAboveWith_final, extendBranch_final, ih]

theorem wextend_final (fuel : Nat) (xs : List (T.Key × V)) : WProg.extend (cx.final F) fuel xs = WProg.extend cx fuel xs := by
  unfold WProg.extend WProg.extendAbove
  simp only [extendAboveWith_final, extend0_final]

theorem wextendUnpacked_final (fuel : Nat) (xs : List (T.Key × V)) :
    WProg.extendUnpacked (cx.final F) fuel xs = WProg.extendUnpacked cx fuel xs := by
  unfold WProg.extendUnpacked WProg.extendUnpacked0 WProg.extendAbove
  simp only [extendAboveWith_final, extend0_final, extendBranch_final]

set_option smartUnfolding false in
theorem persistBranch_final (cs : List (Index T)) : WProg.persistBranch (cx.final F) cs = WProg.persistBranch cx cs := rfl

theorem retain0_final (q : Query T) (fuel : Nat) : WProg.retain0 (cx.final F) q fuel = WProg.retain0 cx q fuel := by
  induction fuel with
  | zero => rfl
  | succ fuel ih =>
    funext o index l
    unfold WProg.retain0
    simp only [persistBranch_final, ih]

theorem wretain_final (fuel : Nat) (q : Query T) : WProg.retain (cx.final F) fuel q = WProg.retain cx fuel q := by
  unfold WProg.retain
  simp only [retain0_final]

theorem simplifyRoots_final (fuel : Nat) (rs : List (Index T)) (n : Nat) :
    WProg.simplifyRoots (cx.final F) fuel rs n = WProg.simplifyRoots cx fuel rs n := by
  induction fuel generalizing rs n with
  | zero => rfl
  | succ fuel ih =>
    unfold WProg.simplifyRoots
    simp only [newBranch_final, ih]
    rfl

theorem treeFromRootsLoop_final (fuel : Nat) (rs : List (Index T)) :
    WProg.treeFromRootsLoop (cx.final F) fuel rs = WProg.treeFromRootsLoop cx fuel rs := by
  induction fuel generalizing rs with
  | zero => unfold WProg.treeFromRootsLoop; rfl
  | succ fuel ih => unfold WProg.treeFromRootsLoop; simp only [simplifyRoots_final, ih]

set_option smartUnfolding false in
theorem collect0_final (fuel : Nat) (i : Index T) (o : Nat) (into : List (Option (T.Key × V))) :
    Prog.collect0 (E.final F) fuel i o into = Prog.collect0 E fuel i o into := by
  induction fuel generalizing i o into with
  | zero => rfl
  | succ fuel ih =>
    have : Prog.collect0 (E.final F) fuel = Prog.collect0 E fuel := by funext i o into; exact ih i o into
    unfold Prog.collect0
    rw [this]
    rfl

theorem wpack_final (fuel : Nat) : WProg.pack (cx.final F) fuel = WProg.pack cx fuel := by
  unfold WProg.pack WProg.treeFromRoots WProg.collectFrom
  simp only [treeFromRootsLoop_final, collect0_final, wextend_final]

end Same

/-! ### the same trees -/

section Trees
variable {F : E.σ × String} {p : Script E F} {t : Option (PTree T V)}

set_option smartUnfolding false in
theorem StoredAt.final (n : PTree T V) : StoredAt (E.final F) (cx.sec.final F) p n = StoredAt E cx.sec F.1 n := by
  cases n <;> rfl

set_option smartUnfolding false in
theorem WFAt.final (n : PTree T V) : WFAt (E.final F) n = WFAt E n := by
  cases n <;> rfl

set_option smartUnfolding false in
theorem LeafMade.ofFinal {i : LeafIndex T} {vs : List V} (h : LeafMade (cx.final F) p i vs) : LeafMade cx F.1 i vs := h

set_option smartUnfolding false in
theorem BranchMade.ofFinal {i : BranchIndex T} {cs : List (PTree T V)} (h : BranchMade (cx.final F) p i cs) : BranchMade cx F.1 i cs := h

set_option smartUnfolding false in
theorem BlockAt.ofFinal {l : T.Link} {cs : List (Index T)} (h : BlockAt (cx.final F) p l cs) : BlockAt cx F.1 l cs := h

variable {I : NodeInv cx}

/-- A node invariant, in the environment of the end. -/
def NodeInv.final (I : NodeInv cx) (F : E.σ × String) : NodeInv (cx.final F) where
  J := fun _ t => I.J F.1 t
  mono := fun _ h => h
  leaf := fun h1 h2 => I.leaf (LeafMade.ofFinal h1) h2
  branch := fun h1 h2 h3 => I.branch (BranchMade.ofFinal h1) h2 h3

theorem NodeInv.Rewrites.final (h : I.Rewrites) (F : E.σ × String) : (I.final F).Rewrites where
  purgeLeaf := h.purgeLeaf
  purgeBranch := h.purgeBranch
  same := h.same
  rewrite := fun h1 h2 h3 => h.rewrite h1 h2 (BlockAt.ofFinal h3)
  reload := fun h1 h2 h3 => h.reload h1 h2 h3
  damage := fun h1 _ => h1

theorem Chain.ofFinal {a b : Nat} {new : List Bytes} (h : Chain (E.final F) a new b) : Chain E a new b := by
  induction new generalizing a with
  | nil => exact h
  | cons x new ih =>
    obtain ⟨o, links, d, h1, h2, h3⟩ := h
    exact ⟨o, links, d, h1, h2, ih h3⟩

end Trees

end Banyan
