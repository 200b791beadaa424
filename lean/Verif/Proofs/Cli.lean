import Verif.Proofs.LoadTree
import Verif.Props.Dump
import Verif.Props.Pack
import Verif.Props.Retain
import Verif.Props.Repair
import Verif.Model.Cli
/-
Commands of the tool.
-/
set_option autoImplicit false
namespace Banyan

open PTree

variable {T : TreeTypes} {V : Type} {E : Env T V} {cx : Ctx E} {s s' : St E} {c : List (Option (T.Key × V))}

theorem Allowed.mono {cfg : Config} {p q : V → Prop} (h : ∀ v, p v → q v) {e : Err} (he : Allowed E cfg p e) : Allowed E cfg q e := by
  cases he with
  | offsets => exact .offsets
  | put s d m h => exact .put s d m h
  | scrapeVal v m h => exact .scrapeVal v m h
  | scrapeIdx i m h => exact .scrapeIdx i m h
  | tooLarge v m h1 h2 => exact .tooLarge v m (h v h1) h2

theorem frame_checkInvariants0 (h : E.Lawful) (fuel : Nat) (i : Index T) (level : Int) (msgs : List InvMsg) :
    Frame cx (checkInvariants0 cx.sec cx.cfg fuel i level msgs) := by
  induction fuel generalizing i level msgs with
  | zero => exact Frame.throw _
  | succ fuel ih =>
    unfold checkInvariants0
    cases i with
    | leaf l =>
      simp only
      split
      · exact Frame.pure _
      · exact Frame.bind (frame_loadLeafM _ _) fun _ => Frame.bind (Frame.lift _) fun _ => Frame.pure _
    | branch b =>
      simp only
      split
      · exact Frame.pure _
      · exact Frame.bind (frame_loadBranchCached h _) fun _ => Frame.bind (Frame.assert _ _) fun _ => frame_checkInvariantsLoop (fun _ _ _ => ih _ _ _) _ _ _

theorem frame0_assertInvariants (h : E.Lawful) (fuel : Nat) : Frame0 cx (assertInvariants cx fuel) := by
  unfold assertInvariants
  refine Frame0.bind ?_ fun msgs => ?_
  · unfold checkInvariants
    refine Frame0.bind frame_getIndex.frame0 fun r => ?_
    cases r with
    | none => exact (Frame.pure _).frame0
    | some r => exact (Frame.bind (frame_checkInvariants0 h _ _ _ _) fun _ => Frame.pure _).frame0
  · refine Frame.frame0 ?_
    simp only
    split
    · exact Frame.bind (Frame.throw _) fun _ => Frame.pure _
    · exact Frame.pure _

theorem frame_dumpLoop {rec : Index T → M E (List (Nat × NodeLine T.Link))} (hr : ∀ i, Frame cx (rec i)) (is : List (Index T)) :
    Frame cx (dumpLoop rec is) := by
  induction is with
  | nil => exact Frame.pure _
  | cons i is ih => exact Frame.bind (hr i) fun _ => Frame.bind ih fun _ => Frame.pure _

theorem frame_dump0 (h : E.Lawful) (fuel pre : Nat) (i : Index T) : Frame cx (dump0 cx.sec fuel pre i) := by
  induction fuel generalizing i pre with
  | zero => exact Frame.throw _
  | succ fuel ih =>
    unfold dump0
    cases i with
    | leaf l => simp only; split <;> exact Frame.pure _
    | branch b =>
      simp only
      split
      · exact Frame.bind (frame_loadBranchCached h _) fun _ => Frame.bind (frame_dumpLoop (fun _ => ih _ _) _) fun _ => Frame.pure _
      · exact Frame.pure _

/-- Reading the tree of the builder. -/
def onTree {α : Type} (cx : Ctx E) (op : Tree E → M E α) : M E α := fun s => op (snapshot cx s) s

theorem onTree_none {α : Type} {op : Tree E → M E α} (h : s.root = none) : onTree cx op s = op none s := by
  unfold onTree snapshot
  rw [h]
  rfl

theorem onTree_some {α : Type} {op : Tree E → M E α} {r : Index T} (h : s.root = some r) : onTree cx op s = op (some (r, cx.sec, s.offset)) s := by
  unfold onTree snapshot
  rw [h]
  rfl

theorem frame0_onTree {α : Type} {op : Tree E → M E α} (h0 : Frame0 cx (op none)) (h1 : ∀ r o, Frame0 cx (op (some (r, cx.sec, o)))) :
    Frame0 cx (onTree cx op) := by
  intro s
  unfold endState
  cases hr : s.root with
  | none => rw [onTree_none hr]; exact h0 s
  | some r => rw [onTree_some hr]; exact h1 r s.offset s

theorem frame0_dump (h : E.Lawful) (fuel : Nat) : Frame0 cx (onTree cx (Tree.dump fuel)) :=
  frame0_onTree (Frame.pure _).frame0 fun r _ => (frame_dump0 h fuel 0 r).frame0

theorem frame0_isPacked (h : E.Lawful) (fuel : Nat) : Frame0 cx (onTree cx (Tree.isPacked fuel)) :=
  frame0_onTree (Frame.pure _).frame0 fun r _ => (frame_isPacked0 h fuel r).frame0

/-! ### reading -/

/-- The lines of an optional tree. -/
def optLines : Option (PTree T V) → List (Nat × NodeLine T.Link)
  | none => []
  | some t => t.lines 0

theorem dump_reads (ok : cx.Ok) {t : Option (PTree T V)} (hsn : Snap cx s t s) {fuel : Nat} (hf : rootLevel s.root < fuel) :
    Reads cx.sec (onTree cx (Tree.dump fuel)) s (optLines t) := by
  have hroot := hsn.root
  cases t with
  | none => exact ⟨s.cache, hsn.coherent, onTree_none hroot⟩
  | some t =>
    rw [hsn.level] at hf
    obtain ⟨γ, h1, h2⟩ := dump0_reads ok.env ok.types fuel 0 t s (hsn.stored t rfl).outlined (hsn.wf t rfl).counts hsn.coherent hf
    exact ⟨γ, h1, (onTree_some hroot).trans h2⟩

open Classical in
theorem packed_reads (ok : cx.Ok) {t : Option (PTree T V)} (hsn : Snap cx s t s) (hp : ReportsPacked cx s) {fuel : Nat} (hf : rootLevel s.root < fuel) :
    Reads cx.sec (onTree cx (Tree.isPacked fuel)) s true := by
  obtain ⟨s1, h1⟩ := hp fuel (by rw [snapshot_level]; exact hf)
  have hroot := hsn.root
  cases t with
  | none => exact ⟨s.cache, hsn.coherent, onTree_none hroot⟩
  | some t =>
    rw [hsn.level] at hf
    obtain ⟨γ, h2, h3⟩ := isPacked0_reads ok.env fuel t s (hsn.stored t rfl).outlined (hsn.wf t rfl).counts (hsn.wf t rfl).nonempty hsn.coherent hf
    have h4 : onTree cx (Tree.isPacked fuel) s = isPacked0 cx.sec fuel t.index s := onTree_some hroot
    have h5 : onTree cx (Tree.isPacked fuel) s = .ok true s1 := h1
    refine ⟨γ, h2, ?_⟩
    rw [h4, h3] at h5
    rw [h4, h3]
    injection h5 with h5 _
    rw [h5]

theorem assert_reads (ok : cx.Ok) (hr : Steady cx s) (hs : Small E s) {fuel : Nat} (hf : rootLevel s.root < fuel) :
    Reads cx.sec (assertInvariants cx fuel) s () := by
  obtain ⟨t, hi⟩ := hr.inv ok.env ok.types ok.cfg withinInv_rewrites hs
  have hroot := hi.holds.root
  have key : Reads cx.sec (checkInvariants cx fuel) s [] := by
    have hc : checkInvariants cx fuel s = (match s.root with
      | some root => (do
          let (_, msgs) ← checkInvariants0 cx.sec cx.cfg fuel root i32max []
          pure msgs : M E (List InvMsg)) s
      | none => .ok [] s) := by
      unfold checkInvariants
      rw [bind_apply]
      unfold getIndex
      simp only
      cases s.root <;> rfl
    cases t with
    | none =>
      refine ⟨s.cache, hi.holds.coherent, hc.trans ?_⟩
      have hroot : s.root = none := hroot
      simp only [hroot]
      cases s
      cases hroot
      rfl
    | some t =>
      rw [hi.holds.level] at hf
      have hg := hi.holds.good t rfl
      obtain ⟨l', c', h1, h2⟩ := checkInvariants0_reads ok.env ok.types fuel t i32max [] s hg.stored hg.wf
        (PTree.All.imp (fun _ h => h.2.2) hg) hi.holds.coherent hf
      refine ⟨c', h1, hc.trans ?_⟩
      have hroot : s.root = some t.index := hroot
      have : (match s.root with
        | some root => (do
            let (_, msgs) ← checkInvariants0 cx.sec cx.cfg fuel root i32max []
            pure msgs : M E (List InvMsg)) s
        | none => .ok [] s) = (do
            let (_, msgs) ← checkInvariants0 cx.sec cx.cfg fuel t.index i32max []
            pure msgs : M E (List InvMsg)) s := by
        split
        · rename_i r hr
          rw [hroot] at hr
          cases hr
          rfl
        · rename_i hr
          rw [hroot] at hr
          cases hr
      rw [this, bind_apply, h2]
      rfl
  unfold assertInvariants
  exact key.bind fun γ hγ => ⟨γ, hγ, rfl⟩

/-! ### only the cache changes -/

theorem Steady.cached {γ : E.γ} (hr : Steady cx s) (h : Coherent E cx.sec { s with cache := γ }) : Steady cx { s with cache := γ } :=
  hr.run (.world s.store γ (.refl s) (fun _ _ h => h) h)

theorem Reach.cached {γ : E.γ} (hr : Reach cx s) (h : Coherent E cx.sec { s with cache := γ }) : Reach cx { s with cache := γ } :=
  hr.run (.world s.store γ (.refl s) (fun _ _ h => h) h)

theorem Contains.cached (ok : cx.Ok) (hr : Reach cx s) (hs : Small E s) {γ : E.γ} (h : Coherent E cx.sec { s with cache := γ })
    (hc : Contains cx s c) : Contains cx { s with cache := γ } c := by
  obtain ⟨t, hi⟩ := ok.inv hr hs
  have h1 := hi.holds.later ok.env (.world s.store γ .refl (fun _ _ h => h) h)
  have h2 := h1.collect ok.env ok.types
  rw [hi.holds.contains ok.env ok.types] at hc
  rw [hc]
  exact h2

theorem ReportsPacked.cached (ok : cx.Ok) (hr : Reach cx s) (hs : Small E s) {γ : E.γ} (h : Coherent E cx.sec { s with cache := γ })
    (hp : ReportsPacked cx s) : ReportsPacked cx { s with cache := γ } := by
  obtain ⟨t, hi⟩ := ok.inv hr hs
  have h1 := hi.holds.later ok.env (.world s.store γ .refl (fun _ _ h => h) h)
  have h2 := h1.isPacked ok.env
  have h3 := Yields.unique hp (hi.holds.snap.isPacked ok.env)
  rw [← h3] at h2
  exact h2

end Banyan
