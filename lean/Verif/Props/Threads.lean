import Verif.Proofs.Threads
import Verif.Props.Graph
import Verif.Props.Append
import Verif.Props.Iter
/-
Threads that share a forest: C88.
-/
set_option autoImplicit false
namespace Banyan

open PTree Concrete

variable {T : TreeTypes} {V : Type} {E : Env T V} {X : Type} {α : Type} {cx : Ctx E} {s w w' : St E} {c : List (Option (T.Key × V))}

/-- C88: the programs below are the reading operations of the rest of the model. -/
theorem C88_programs (sec : Secrets E) (index : Index T) (offset : Nat) (fuel : Nat) :
    (∀ o, (Prog.get fuel (some (index, sec, offset)) o).run sec = Tree.get fuel (some (index, sec, offset)) o) ∧
    (∀ o, (Prog.collectFrom fuel (some (index, sec, offset)) o).run sec = Tree.collectFrom fuel (some (index, sec, offset)) o) ∧
    (Prog.isPacked fuel (some (index, sec, offset))).run sec = Tree.isPacked fuel (some (index, sec, offset)) ∧
    ∀ (q : Query T) (mode : Mode) (mkExtra : Index T → X) (i : IterState T),
      (Prog.nextFallible E q mode mkExtra fuel i).run sec = nextFallible sec q mode mkExtra fuel i :=
  ⟨Prog.run_get fuel index offset, Prog.run_collectFrom fuel index offset, Prog.run_isPacked fuel index offset,
    fun q mode mkExtra i => Prog.run_nextFallible q mode mkExtra fuel i⟩

/-- C88: reading a position of a snapshot, while other threads write blocks and use the branch cache between any two accesses. -/
theorem C88_get (ok : cx.Ok) (hr : Reach cx s) (hs : Small E s) (hl : Later cx.sec s w) (hc : Contains cx s c) (o fuel : Nat)
    (hf : rootLevel s.root < fuel) {r : Except Err (Option (T.Key × V))} (hx : (Prog.get fuel (snapshot cx s) o).Runs cx.sec w r w') :
    r = .ok (c[o]?.join) := by
  obtain ⟨t, hi⟩ := ok.inv hr hs
  rw [hi.holds.contains ok.env ok.types] at hc
  subst hc
  have h2 := hi.holds.later ok.env hl
  exact (Prog.runs_plain ok.env hx (h2.plain_get ok.env ok.types o fuel hf) (fun _ _ h => h) h2.coherent).1

/-- C88: reading back a snapshot or a suffix of it. -/
theorem C88_collectFrom (ok : cx.Ok) (hr : Reach cx s) (hs : Small E s) (hl : Later cx.sec s w) (hc : Contains cx s c) (o fuel : Nat)
    (hf : rootLevel s.root < fuel) {r : Except Err (List (Option (T.Key × V)))}
    (hx : (Prog.collectFrom fuel (snapshot cx s) o).Runs cx.sec w r w') : r = .ok (c.drop o) := by
  obtain ⟨t, hi⟩ := ok.inv hr hs
  rw [hi.holds.contains ok.env ok.types] at hc
  subst hc
  have h2 := hi.holds.later ok.env hl
  exact (Prog.runs_plain ok.env hx (h2.plain_collectFrom ok.env ok.types o fuel hf) (fun _ _ h => h) h2.coherent).1

/-- C88: asking whether a snapshot is packed. -/
theorem C88_isPacked (ok : cx.Ok) (hr : Reach cx s) (hs : Small E s) (hl : Later cx.sec s w) (fuel : Nat) (hf : rootLevel s.root < fuel)
    {b : Bool} (hb : Yields Tree.isPacked (snapshot cx s) s b) {r : Except Err Bool} (hx : (Prog.isPacked fuel (snapshot cx s)).Runs cx.sec w r w') :
    r = .ok b := by
  obtain ⟨t, hi⟩ := ok.inv hr hs
  have h2 := hi.holds.later ok.env hl
  rw [(Prog.runs_plain ok.env hx (h2.plain_isPacked ok.env fuel hf) (fun _ _ h => h) h2.coherent).1]
  exact congrArg _ (Yields.unique (hi.holds.snap.isPacked ok.env) hb)

/-- C88: iterating over a snapshot in either direction with any query, while other threads write blocks and use the branch cache during
and between the calls of `next`. -/
theorem C88_chunks (ok : cx.Ok) (hr : Reach cx s) (hs : Small E s) (hl : Later cx.sec s w) (q : Query T) (mode : Mode) (mkExtra : Index T → X)
    {chunks : List (Chunk T V X)}
    (hd : Delivers (fun between n fuel t => Tree.chunks q mode mkExtra between n fuel t) cx.sec (snapshot cx s) s chunks)
    {index : Index T} (hroot : s.root = some index) (n fuel : Nat) (hf : 2 * rootLevel s.root + 4 ≤ fuel) {items : List (Except Err (Chunk T V X))}
    (hx : Consumes cx.sec (Prog.nextFallible E q mode mkExtra fuel) n (IterState.new mode index) w items) :
    items = (chunks.take n).map .ok := by
  obtain ⟨t, hi⟩ := ok.inv hr hs
  have h2 := hi.holds.later ok.env hl
  have h0 := hi.holds.snap.chunks (q := q) (mkExtra := mkExtra) ok.env ok.types mode
  have hsame : chunks.take n = (ordered mode (optChunks q mkExtra t)).take n := by
    have hid : Harmless cx.sec (fun _ (s : St E) => s) := fun _ _ h => ⟨fun _ _ h => h, h⟩
    obtain ⟨s1, h3⟩ := hd _ n fuel hid (by rw [snapshot_level]; exact hf)
    obtain ⟨s2, h4⟩ := h0 _ n fuel hid (by rw [snapshot_level]; exact hf)
    simp only at h3 h4
    rw [h3] at h4
    have h5 := (EStateM.Result.ok.inj h4).1
    exact (List.map_inj_right (fun _ _ h => by cases h; rfl)).mp h5
  rw [hsame]
  have h5 := h2.uncached.chunks (q := q) (mkExtra := mkExtra) (Env.uncached_lawful ok.env) ok.types mode
  obtain ⟨s3, h6⟩ := h5 (fun _ s => s) n fuel (fun _ _ h => ⟨fun _ _ h => h, h⟩) (by rw [snapshot_level]; exact hf)
  refine consumes_plain ok.env (s1 := s3) ?_ hx (fun _ _ h => h) h2.coherent
  unfold Tree.chunks snapshot at h6
  rw [show s.uncached.root = s.root from rfl, hroot] at h6
  exact h6

/-- Whatever the others do, a program can go on until it returns. -/
theorem Prog.Runs.exists (sec : Secrets E) (p : Prog T α) (s : St E) : ∃ r s', p.Runs sec s r s' := by
  induction p generalizing s with
  | ret a => exact ⟨_, s, .ret a (.refl s)⟩
  | stop e => exact ⟨_, s, .stop e (.refl s)⟩
  | branch l k ih =>
    rcases hg : (E.cacheGet s.cache l).1 with _ | b
    · rcases hl : loadBranchFromLink E sec s.store l with e | b
      · exact ⟨_, _, .missing e (.refl s) hg (.refl _) hl (.refl _)⟩
      · obtain ⟨r, s', h⟩ := ih b { s with cache := E.cachePut (E.cacheGet s.cache l).2 l b }
        exact ⟨r, s', .miss (s₃ := { s with cache := (E.cacheGet s.cache l).2 }) b (.refl s) hg (.refl _) hl (.refl _) h⟩
    · obtain ⟨r, s', h⟩ := ih b { s with cache := (E.cacheGet s.cache l).2 }
      exact ⟨r, s', .hit b (.refl s) hg h⟩
  | leaf l k ih =>
    rcases hl : loadLeafFromLink E sec s.store l with e | b
    · exact ⟨_, _, .noLeaf e (.refl s) hl (.refl _)⟩
    · obtain ⟨r, s', h⟩ := ih b s
      exact ⟨r, s', .leaf b (.refl s) hl h⟩

theorem Meanwhile.trans {sec : Secrets E} {a b c : St E} (h1 : Meanwhile sec a b) (h2 : Meanwhile sec b c) : Meanwhile sec a c := by
  induction h2 with
  | refl => exact h1
  | step _ h ih => exact .step ih h

theorem Meanwhile.same_key {sec sec' : Secrets E} (hk : sec'.indexKey = sec.indexKey) {a b : St E} (h : Meanwhile sec' a b) : Meanwhile sec a b := by
  have hload : ∀ (σ : E.σ) (l : T.Link), loadBranchFromLink E sec' σ l = loadBranchFromLink E sec σ l := by
    intro σ l
    unfold loadBranchFromLink
    rw [hk]
  induction h with
  | refl => exact .refl _
  | step _ h ih =>
    refine .step ih ?_
    cases h with
    | put d => exact .put _ d
    | lookup l => exact .lookup _ l
    | insert l b hd hb => exact .insert _ l b hd fun b' h' => hb b' (by rw [hload]; exact h')

/-- C88: what a reading thread does counts among the accesses that do not disturb the other users with the same index key, so any number
of threads can read at the same time. -/
theorem C88_mutual (ok : cx.Ok) {sec' : Secrets E} (hk : sec'.indexKey = cx.sec.indexKey) {p : Prog T α} {r : Except Err α}
    (hx : p.Runs sec' w r w') : Meanwhile cx.sec w w' := by
  induction hx with
  | ret a h1 => exact h1.same_key hk
  | stop e h1 => exact h1.same_key hk
  | hit b h1 _ _ ih => exact (h1.same_key hk).trans (.trans (.step (.refl _) (.lookup _ _)) ih)
  | miss b h1 _ h3 h4 h5 _ ih =>
    refine (h1.same_key hk).trans (.trans (.step (.refl _) (.lookup _ _)) ((h3.same_key hk).trans ((h5.same_key hk).trans (.trans ?_ ih))))
    exact .step (.refl _) (Access.same_key hk _ (loadBranchFromLink_mono (h5.grows ok.env) h4))
  | missing e h1 _ h3 _ h5 => exact (h1.same_key hk).trans (.trans (.step (.refl _) (.lookup _ _)) ((h3.same_key hk).trans (h5.same_key hk)))
  | leaf b h1 _ _ ih => exact (h1.same_key hk).trans ih
  | noLeaf e h1 _ h3 => exact (h1.same_key hk).trans (h3.same_key hk)

/-! ### writing -/

/-- The blocks are put one after the other. -/
def putAll (E : Env T V) (σ : E.σ) : List Bytes → E.σ
  | [] => σ
  | d :: ds => putAll E (E.put σ d).2 ds

/-- The store together with what other threads are going to put: the blocks that arrive before the next block of our own, and so on. -/
def Env.busy (E : Env T V) : Env T V :=
  { E with
    σ := E.σ × List (List Bytes)
    get := fun s l => E.get s.1 l
    put := fun s d => ((E.put (putAll E s.1 s.2.head?.toList.flatten) d).1,
      (E.put (putAll E s.1 s.2.head?.toList.flatten) d).2, s.2.tail) }

theorem putAll_grows (h : E.Lawful) (ds : List Bytes) (σ : E.σ) : StoreLe E σ (putAll E σ ds) := by
  induction ds generalizing σ with
  | nil => exact fun _ _ h => h
  | cons d ds ih => exact fun l x hx => ih _ l x (h.put_mono _ _ _ _ hx)

theorem Env.busy_lawful (h : E.Lawful) : E.busy.Lawful where
  put_ok := fun _ _ _ hp => h.put_ok _ _ _ hp
  put_mono := fun _ _ _ _ hg => h.put_mono _ _ _ _ (putAll_grows h _ _ _ _ hg)
  cacheGet_sub := h.cacheGet_sub
  cachePut_sub := h.cachePut_sub
  unz_zfin := h.unz_zfin
  zfin_ne := h.zfin_ne
  zlen_le := h.zlen_le
  encV_ne := h.encV_ne
  item_encV := h.item_encV
  decV_encV := h.decV_encV
  encIdx_ne := h.encIdx_ne
  item_encIdx := h.item_encIdx
  decIdx_encIdx := h.decIdx_encIdx
  decNode_encNode := h.decNode_encNode

/-- The same builder in the busy environment. -/
def Ctx.busy (cx : Ctx E) : Ctx E.busy := ⟨cx.cfg, ⟨cx.sec.indexKey, cx.sec.valueKey⟩⟩

/-- C88: everything proved about builders holds if other threads put blocks between any two blocks a builder writes, since all that is
assumed about the environment holds for the store with the blocks of the other threads arriving in between. -/
theorem C88_writers (ok : cx.Ok) : cx.busy.Ok := ⟨Env.busy_lawful ok.env, ok.types, ok.cfg⟩

/-- C88: for example, `extend` appends its elements, whatever other threads put while it is working. -/
theorem C88_extend (ok : cx.Ok) {s s' : St E.busy} (hr : Reach cx.busy s) (fuel : Nat) (xs : List (T.Key × V)) (hf : rootLevel s.root < fuel)
    (hn : rootCount s.root + xs.length ≤ maxElements) (he : extend cx.busy fuel xs s = .ok () s') (hs : Small E.busy s')
    (hc : Contains cx.busy s c) : Contains cx.busy s' (c ++ xs.map some) :=
  C01_extend_appends (C88_writers ok) hr fuel xs hf hn he hs hc

/-! ### examples -/

theorem Prog.Runs.after {sec : Secrets E} {p : Prog T α} {s s1 s' : St E} {r : Except Err α} (hm : Meanwhile sec s s1) (h : p.Runs sec s1 r s') :
    p.Runs sec s r s' := by
  cases h with
  | ret a h1 => exact .ret a (hm.trans h1)
  | stop e h1 => exact .stop e (hm.trans h1)
  | hit b h1 h2 h3 => exact .hit b (hm.trans h1) h2 h3
  | miss b h1 h2 h3 h4 h5 h6 => exact .miss b (hm.trans h1) h2 h3 h4 h5 h6
  | missing e h1 h2 h3 h4 h5 => exact .missing e (hm.trans h1) h2 h3 h4 h5
  | leaf b h1 h2 h3 => exact .leaf b (hm.trans h1) h2 h3
  | noLeaf e h1 h2 h3 => exact .noLeaf e (hm.trans h1) h2 h3

/-- Another thread puts a block and looks into the cache before the reader starts. -/
theorem Prog.Runs.disturbed (sec : Secrets E) (p : Prog T α) (s : St E) (d : Bytes) (l : T.Link) :
    ∃ r s', p.Runs sec { s with store := (E.put s.store d).2, cache := (E.cacheGet s.cache l).2 } r s' ∧ p.Runs sec s r s' := by
  obtain ⟨r, s', h⟩ := Prog.Runs.exists sec p { s with store := (E.put s.store d).2, cache := (E.cacheGet s.cache l).2 }
  exact ⟨r, s', h, .after (.step (.step (.refl _) (.put _ d)) (.lookup _ l)) h⟩

namespace Concrete

/-- Another thread writes a block and looks into the cache, then the reader gets the element at offset 3. -/
example : ∃ r w', (Prog.get 5 (snapshot (ctx tiny) packed7) 3).Runs (ctx tiny).sec packed7 r w' ∧ r = .ok ((seq 0 7)[3]?) := by
  obtain ⟨r, w', _, h⟩ := Prog.Runs.disturbed (ctx tiny).sec (Prog.get 5 (snapshot (ctx tiny) packed7) 3) packed7 [1, 2, 3] (show types.Link from (0 : Nat))
  exact ⟨r, w', h, C88_get tiny_ok packed7_reach packed7_small .refl packed7_contains 3 5 (by decide +kernel) h⟩

end Concrete
end Banyan
