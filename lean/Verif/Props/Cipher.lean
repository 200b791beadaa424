import Verif.Props.Atomic
import Verif.Proofs.AtEnd
/-
Encryption: C21, C22, C23.
-/
set_option autoImplicit false
namespace Banyan

open PTree Concrete

variable {T : TreeTypes} {V : Type} {E : Env T V} {cx : Ctx E} {s s' : St E} {c : List (Option (T.Key × V))}

/-- The block uses the bytes `lo .. hi` of the key stream: it is an envelope with start offset `lo` and a payload of
`hi - lo` bytes. -/
def UsesBytes (E : Env T V) (b : Bytes) (lo hi : Nat) : Prop :=
  ∃ links d, E.decNode b = .ok (lo, links, d) ∧ hi = lo + d.length

/-- Every block uses a part of the key stream, and no byte of the key stream is used twice. -/
def NoReuse (E : Env T V) (bs : List Bytes) : Prop :=
  (∀ b ∈ bs, ∃ lo hi, UsesBytes E b lo hi) ∧
  ∀ (i j : Nat) (b b' : Bytes) (lo hi lo' hi' : Nat), i ≠ j → bs[i]? = some b → bs[j]? = some b' →
    UsesBytes E b lo hi → UsesBytes E b' lo' hi' → hi ≤ lo' ∨ hi' ≤ lo

theorem UsesBytes.enc (h : E.Lawful) {o lo hi : Nat} {links : List Cid} {d : Bytes}
    (hu : UsesBytes E (E.encNode (o, links, d)) lo hi) : lo = o ∧ hi = o + d.length := by
  obtain ⟨l2, d2, h1, h2⟩ := hu
  rw [h.decNode_encNode] at h1
  cases h1
  exact ⟨rfl, h2⟩

theorem Chain.mem (h : E.Lawful) {lo hi : Nat} {bs : List Bytes} (hc : Chain E lo bs hi) {b : Bytes} (hb : b ∈ bs) :
    (∃ x y, UsesBytes E b x y) ∧ ∀ x y, UsesBytes E b x y → lo ≤ x ∧ x ≤ y ∧ y ≤ hi := by
  induction bs generalizing lo with
  | nil => cases hb
  | cons b1 bs ih =>
    obtain ⟨o, links, d, rfl, h1, h2⟩ := hc
    cases hb with
    | head =>
      refine ⟨⟨o, o + d.length, links, d, h.decNode_encNode _, rfl⟩, ?_⟩
      intro x y hu
      obtain ⟨rfl, rfl⟩ := hu.enc h
      exact ⟨h1, Nat.le_add_right _ _, h2.le⟩
    | tail _ hb =>
      obtain ⟨h3, h4⟩ := ih h2 hb
      refine ⟨h3, fun x y hu => ?_⟩
      have := h4 x y hu
      omega

theorem Chain.ordered (h : E.Lawful) {lo hi : Nat} {bs : List Bytes} (hc : Chain E lo bs hi) {i j : Nat} (hij : i < j)
    {b b' : Bytes} (hb : bs[i]? = some b) (hb' : bs[j]? = some b') {x y x' y' : Nat} (hu : UsesBytes E b x y)
    (hu' : UsesBytes E b' x' y') : y ≤ x' := by
  induction bs generalizing lo i j with
  | nil => simp at hb
  | cons b1 bs ih =>
    obtain ⟨o, links, d, rfl, h1, h2⟩ := hc
    cases j with
    | zero => omega
    | succ j =>
      rw [List.getElem?_cons_succ] at hb'
      cases i with
      | zero =>
        rw [List.getElem?_cons_zero] at hb
        cases hb
        obtain ⟨rfl, rfl⟩ := hu.enc h
        exact ((h2.mem h (List.mem_of_getElem? hb')).2 _ _ hu').1
      | succ i =>
        rw [List.getElem?_cons_succ] at hb
        exact ih h2 (by omega) hb hb'

theorem Chain.noReuse (h : E.Lawful) {lo hi : Nat} {bs : List Bytes} (hc : Chain E lo bs hi) : NoReuse E bs := by
  refine ⟨fun b hb => (hc.mem h hb).1, ?_⟩
  intro i j b b' lo hi lo' hi' hij hb hb' hu hu'
  rcases Nat.lt_or_gt_of_ne hij with h1 | h1
  · exact .inl (hc.ordered h h1 hb hb' hu hu')
  · exact .inr (hc.ordered h h1 hb' hb hu' hu)

/-! ### C21 -/

/-- C21: the blocks a builder hands to the store, in any execution, use disjoint parts of the key stream: also blocks
of failed operations, blocks the store rejects, and blocks of transactions that are rolled back. They start at the
offset of the builder at the begin of the execution. -/
theorem C21_no_reuse (ok : cx.Ok) {a : St E} (hrun : Run cx a s) :
    ∃ new, s.puts = a.puts ++ new ∧ NoReuse E new ∧
      ∀ b ∈ new, ∀ lo hi, UsesBytes E b lo hi → a.offset ≤ lo ∧ hi ≤ s.offset := by
  obtain ⟨new, h1, h2⟩ := (hrun.ext0 ok.env).puts
  refine ⟨new, h1, h2.noReuse ok.env, fun b hb lo hi hu => ?_⟩
  have := (h2.mem ok.env hb).2 lo hi hu
  omega

/-- Seven elements, then an append that fails because the store is full after one block, then a pack, a purge and a
successful append: twenty blocks were handed to the store. -/
def busy : St env :=
  endState (extend (ctx tiny) 10 (seq 20 3)) (endState (retain (ctx tiny) 10 (keyRange 5 5)) (endState (pack (ctx tiny) 10)
    (withRoom 100 (endState (extend (ctx tiny) 10 (seq 7 5)) (withRoom 1 unpacked10)))))

/-- An execution, for the examples. -/
theorem run_extend {cfg : Config} {a s : St env} (h : Run (ctx cfg) a s) (fuel : Nat) (xs : List (Nat × Nat))
    (hf : fits s fuel xs.length = true) : Run (ctx cfg) a (endState (extend (ctx cfg) fuel xs) s) :=
  .extend fuel xs h (fits_iff hf).1 (fits_iff hf).2

theorem run_pack {cfg : Config} {a s : St env} (h : Run (ctx cfg) a s) (fuel : Nat)
    (hf : fits s fuel 0 = true) : Run (ctx cfg) a (endState (pack (ctx cfg) fuel) s) := .pack fuel h (fits_iff hf).1

theorem run_retain {cfg : Config} {a s : St env} (h : Run (ctx cfg) a s) (fuel : Nat) (q : Query types)
    (hf : fits s fuel 0 = true) : Run (ctx cfg) a (endState (retain (ctx cfg) fuel q) s) := .retain fuel q h (fits_iff hf).1

theorem run_withRoom {cfg : Config} {a s : St env} (h : Run (ctx cfg) a s) (n : Nat) (hc : Coherent env (ctx cfg).sec s) :
    Run (ctx cfg) a (withRoom n s) :=
  Run.world (cx := ctx cfg) (s := s) (setRoom n s.store) s.cache h (fun _ _ h => h) (fun l b h => hc l b h)

theorem run_coherent {cfg : Config} {a s : St env} (h : Run (ctx cfg) a s) (hc : Coherent env (ctx cfg).sec a) :
    Coherent env (ctx cfg).sec s := (h.ext0 env_lawful).coherent hc

theorem failed_run : Run (ctx tiny) unpacked10 (endState (extend (ctx tiny) 10 (seq 7 5)) (withRoom 1 unpacked10)) :=
  run_extend (run_withRoom (.refl _) 1 unpacked10_coherent) 10 _ (by decide +kernel)

theorem busy_run : Run (ctx tiny) unpacked10 busy :=
  run_extend (run_retain (run_pack (run_withRoom failed_run 100 (run_coherent failed_run unpacked10_coherent)) 10
    (by decide +kernel)) 10 _ (by decide +kernel)) 10 _ (by decide +kernel)

example : ∃ new, busy.puts = unpacked10.puts ++ new ∧ 10 ≤ new.length ∧ NoReuse env new := by
  obtain ⟨new, h1, h2, _⟩ := C21_no_reuse tiny_ok busy_run
  refine ⟨new, h1, ?_, h2⟩
  have h3 : unpacked10.puts.length + 10 ≤ busy.puts.length := by decide +kernel
  rw [h1, List.length_append] at h3
  omega

/-! ### C22 -/

theorem createIndex_range (h : E.Lawful) {σ : E.σ} {l : T.Link} {isSealed : List (Index T) → Nat → Bool} {o : Nat}
    {links : List Cid} {d : Bytes} (hg : E.get σ l = .ok (E.encNode (o, links, d))) {idx : Index T} {r : Nat × Nat}
    (hc : createIndexFromLink E cx.sec isSealed σ l = .ok (idx, r)) : r.2 = o + d.length := by
  unfold createIndexFromLink deserializeCompressed decrypt at hc
  rw [getBlock_eq.mpr hg] at hc
  simp only [h.decNode_encNode] at hc
  by_cases ho : o + d.length < 2 ^ 64
  · rw [if_pos ho] at hc
    simp only at hc
    cases hz : ZSeq.itemsIpld E ⟨applyKeystream E cx.sec.indexKey o d, links⟩ with
    | error e => rw [hz] at hc; cases hc
    | ok items =>
      rw [hz] at hc
      simp only at hc
      cases hm : maxLevel items with
      | none => rw [hm] at hc; cases hc
      | some m => rw [hm] at hc; cases hc; rfl
  · rw [if_neg ho] at hc
    cases hc

/-- If the block of the root is the last one written, re-creating the builder restores the cipher offset. -/
theorem reload_offset (h : E.Lawful) {i : Index T} {l : T.Link} (hl : i.link = some l) (hw : LastWritten s i)
    (hload : loadStreamBuilder cx l s = .ok () s') : s'.offset = s.offset := by
  obtain ⟨l2, h1, o, links, d, h2, h3⟩ := hw
  rw [hl] at h1
  cases h1
  unfold loadStreamBuilder at hload
  split at hload
  · next idx r hc =>
    cases hload
    show r.2 = s.offset
    rw [createIndex_range h h2 hc, h3]
  · cases hload

/-- The blocks of a history with a reload that restores the offset. -/
theorem noReuse_reload (ok : cx.Ok) {a z s1 : St E} (hrun : Run cx a s) (h1 : s1.offset = s.offset) (h2 : s1.puts = s.puts)
    (hrun2 : Run cx s1 z) : ∃ new, z.puts = a.puts ++ new ∧ NoReuse E new := by
  obtain ⟨n1, h3, h4⟩ := (hrun.ext0 ok.env).puts
  obtain ⟨n2, h5, h6⟩ := (hrun2.ext0 ok.env).puts
  rw [h1] at h6
  exact ⟨n1 ++ n2, by rw [h5, h2, h3, List.append_assoc], (h4.append h6).noReuse ok.env⟩

theorem loadStreamBuilder_puts {l : T.Link} (hload : loadStreamBuilder cx l s = .ok () s') : s'.puts = s.puts := by
  unfold loadStreamBuilder at hload
  split at hload
  · cases hload; rfl
  · cases hload

/-- C22, partial: consider any execution of a builder (including failed operations and transactions that were rolled
back) that ends with a successful `extend` of at least one element. If the builder is then re-created from the link of
the root, whatever it does afterwards, no part of the key stream is used twice, before and after the reload taken
together. Missing: reloads of a root that was written before an operation that failed or was rolled back, for which it
is false (`C22_refuted`), and reloads after other operations than those shown here. -/
theorem C22_reload_after_extend_partial (ok : cx.Ok) {a : St E} (hr : Reach cx a) (hrun : Run cx a s) (fuel : Nat)
    (xs : List (T.Key × V)) (hf : rootLevel s.root < fuel) (hxs : xs ≠ [])
    (hn : rootCount s.root + xs.length ≤ maxElements) (he : extend cx fuel xs s = .ok () s') (hs : Small E s')
    {i : BranchIndex T} {l : T.Link} (hi : s'.root = some (.branch i)) (hl : i.link = some l) :
    ∃ s1, loadStreamBuilder cx l s' = .ok () s1 ∧ s1.offset = s'.offset ∧
      ∀ z, Run cx s1 z → ∃ new, z.puts = a.puts ++ new ∧ NoReuse E new := by
  have hrun' : Run cx a s' := by
    have := Run.extend fuel xs hrun hf hn
    unfold endState at this
    rwa [he] at this
  obtain ⟨t, hinv⟩ := ok.inv (hr.run hrun') hs
  obtain ⟨s1, t1, h1, _⟩ := load_inv ok.cfg ok.types (NodeInv.trivial_rewrites cx).reload hinv hi hl
  have hlast : LastWritten s' (.branch i) := by
    obtain ⟨i2, h2, h3⟩ := extend_last ok.env hxs he
    rw [hi] at h2
    cases h2
    rcases h3 with h3 | h3
    · exact h3
    · exfalso
      have hss : Small E s := ((frame0_extend ok.env fuel xs).ok he).small hs
      have hr' := hr.run hrun
      have h5 := C28_extend_count ok hr' fuel xs hf hn he hs
      rw [h3] at h5
      have := List.length_pos_iff.mpr hxs
      omega
  have ho := reload_offset ok.env (i := .branch i) hl hlast h1
  exact ⟨s1, h1, ho, fun z hz => noReuse_reload ok hrun' ho (loadStreamBuilder_puts h1) hz⟩

/-- C22, partial: the same for `extend_unpacked`. -/
theorem C22_reload_after_extendUnpacked_partial (ok : cx.Ok) {a : St E} (hr : Reach cx a) (hrun : Run cx a s) (fuel : Nat)
    (xs : List (T.Key × V)) (hf : rootLevel s.root < fuel) (hxs : xs ≠ [])
    (hn : rootCount s.root + xs.length ≤ maxElements) (he : extendUnpacked cx fuel xs s = .ok () s') (hs : Small E s')
    {i : BranchIndex T} {l : T.Link} (hi : s'.root = some (.branch i)) (hl : i.link = some l) :
    ∃ s1, loadStreamBuilder cx l s' = .ok () s1 ∧ s1.offset = s'.offset ∧
      ∀ z, Run cx s1 z → ∃ new, z.puts = a.puts ++ new ∧ NoReuse E new := by
  have hrun' : Run cx a s' := by
    have := Run.extendUnpacked fuel xs hrun hf hn
    unfold endState at this
    rwa [he] at this
  obtain ⟨t, hinv⟩ := ok.inv (hr.run hrun') hs
  obtain ⟨s1, t1, h1, _⟩ := load_inv ok.cfg ok.types (NodeInv.trivial_rewrites cx).reload hinv hi hl
  have hlast : LastWritten s' (.branch i) := by
    obtain ⟨i2, h2, h3⟩ := extendUnpacked_last ok.env hxs he
    rw [hi] at h2
    cases h2
    exact h3
  have ho := reload_offset ok.env (i := .branch i) hl hlast h1
  exact ⟨s1, h1, ho, fun z hz => noReuse_reload ok hrun' ho (loadStreamBuilder_puts h1) hz⟩

/-- Link of the root. -/
def linkOf (s : St env) : Option Nat :=
  match s.root with
  | some (.branch i) => i.link
  | _ => none

theorem linkOf_spec {s : St env} {l : Nat} (h : linkOf s = some l) :
    ∃ i, s.root = some (.branch i) ∧ i.link = some l := by
  unfold linkOf at h
  cases hr : s.root with
  | none => rw [hr] at h; cases h
  | some idx =>
    rw [hr] at h
    cases idx with
    | leaf _ => cases h
    | branch i => exact ⟨i, rfl, h⟩

/-- The hypotheses of `C22_reload_after_extend_partial` are met after a history with a failed operation. -/
example : ∃ (l : Nat) (s1 : St env), linkOf busy = some l ∧ loadStreamBuilder (ctx tiny) l busy = .ok () s1 ∧
    s1.offset = busy.offset ∧ ∀ z, Run (ctx tiny) s1 z → ∃ new, z.puts = unpacked10.puts ++ new ∧ NoReuse env new := by
  have h0 : (linkOf busy).isSome = true := by decide +kernel
  obtain ⟨l, hl⟩ := Option.isSome_iff_exists.mp h0
  obtain ⟨i, h1, h2⟩ := linkOf_spec hl
  obtain ⟨s1, h3, h4, h5⟩ := C22_reload_after_extend_partial tiny_ok unpacked10_reach
    (run_retain (run_pack (run_withRoom failed_run 100 (run_coherent failed_run unpacked10_coherent)) 10
      (by decide +kernel)) 10 (keyRange 5 5) (by decide +kernel)) 10 (seq 20 3) (fits_iff (n := 0) (by decide +kernel)).1
    (List.cons_ne_nil _ _) (fits_iff (fuel := 10) (by decide +kernel)).2 (ok_of_succeeds (by decide +kernel)) (small_of (by decide +kernel)) h1 h2
  exact ⟨l, s1, hl, h3, h4, h5⟩

/-- Seven elements; then three more, in a transaction that is not committed. -/
def rolledBack : St env := endState (transaction dropped) packed7

/-- The builder is then re-created from the link of its root, and three other elements are appended. -/
def reloaded : St env := endState (loadStreamBuilder (ctx tiny) (6 : Nat)) rolledBack

def reused : St env := endState (extend (ctx tiny) 10 (seq 20 3)) reloaded

theorem transaction_end {body : M env Bool} {s : St env} (h : ∀ s1, body s ≠ .ok true s1) :
    endState (transaction body) s = { endState body s with root := s.root } := by
  unfold endState transaction
  cases hx : body s with
  | ok b s1 =>
    cases b with
    | true => exact absurd hx (h s1)
    | false => rfl
  | error e s1 => rfl

theorem dropped_rollback : rolledBack = { endState dropped packed7 with root := packed7.root } :=
  transaction_end (by
    intro s1 h
    unfold dropped at h
    rw [bind_apply] at h
    split at h <;> cases h)

/-- The part of the key stream a block uses. -/
def bytesOf (b : Bytes) : Option (Nat × Nat) :=
  match env.decNode b with
  | .ok (o, _, d) => some (o, o + d.length)
  | .error _ => none

theorem bytesOf_spec {b : Bytes} {lo hi : Nat} (h : bytesOf b = some (lo, hi)) : UsesBytes env b lo hi := by
  unfold bytesOf at h
  cases hd : env.decNode b with
  | ok x =>
    obtain ⟨o, links, d⟩ := x
    rw [hd] at h
    cases h
    exact ⟨links, d, hd, rfl⟩
  | error m => rw [hd] at h; cases h

theorem overlap (bs : List Bytes) {i j lo hi lo' hi' : Nat} (hij : i ≠ j) (h1 : (bs[i]?).bind bytesOf = some (lo, hi))
    (h2 : (bs[j]?).bind bytesOf = some (lo', hi')) (h3 : lo < hi') (h4 : lo' < hi) : ¬ NoReuse env bs := by
  intro hn
  obtain ⟨b, hb, hb2⟩ := Option.bind_eq_some_iff.mp h1
  obtain ⟨b', hb', hb2'⟩ := Option.bind_eq_some_iff.mp h2
  have := hn.2 i j b b' lo hi lo' hi' hij hb hb' (bytesOf_spec hb2) (bytesOf_spec hb2')
  omega

/-- C22 is false: a builder with seven elements starts a transaction, appends three elements and drops the transaction.
When the builder is then re-created from the link of its root, the offset goes back to the end of the root block, and
the next append encrypts a different leaf with the same bytes of the key stream: blocks 7 (dropped) and 14 (new), both
from offset 85, with different payloads. -/
theorem C22_refuted : Reach (ctx tiny) packed7 ∧ Run (ctx tiny) packed7 rolledBack ∧ linkOf rolledBack = some 6 ∧
    loadStreamBuilder (ctx tiny) (6 : Nat) rolledBack = .ok () reloaded ∧ Run (ctx tiny) reloaded reused ∧
    reloaded.offset < rolledBack.offset ∧ ¬ NoReuse env reused.puts ∧
    (reused.puts[7]?).bind bytesOf = some (85, 92) ∧ (reused.puts[14]?).bind bytesOf = some (85, 93) ∧
    (reused.puts[7]?).isSome ∧ reused.puts[7]? ≠ reused.puts[14]? := by
  refine ⟨packed7_reach, ?_, by decide +kernel, ok_of_succeeds (by decide +kernel),
    run_extend (.refl _) 10 _ (by decide +kernel), by decide +kernel,
    overlap _ (i := 7) (j := 14) (by decide) (lo := 85) (hi := 92) (lo' := 85) (hi' := 93) (by decide +kernel)
      (by decide +kernel) (by decide) (by decide), by decide +kernel, by decide +kernel, by decide +kernel, by decide +kernel⟩
  have h1 : Run (ctx tiny) packed7 (endState dropped packed7) := by
    rw [dropped_end]
    exact run_extend (.refl _) 10 _ (by decide +kernel)
  have h2 : rolledBack = { endState dropped packed7 with root := packed7.root } := dropped_rollback
  rw [h2]
  exact .rollback (.refl _) h1

/-! ### C23 -/

/-- C23: the block made from a payload holds the payload, each byte combined with the byte of the key stream at its
position, and decrypting it gives the payload and the part of the key stream that was reserved. -/
theorem C23_round_trip (h : E.Lawful) (z : ZSeq) (key : E.CKey) {b : Bytes} (he : intoEncrypted z key s = .ok b s') :
    decrypt E b key = .ok (z, (s.offset, s'.offset)) ∧ s'.offset = s.offset + z.data.length ∧
    UsesBytes E b s.offset s'.offset ∧
    ∃ d, E.decNode b = .ok (s.offset, z.links, d) ∧ d.length = z.data.length ∧
      ∀ n x, z.data[n]? = some x → d[n]? = some (x ^^^ E.ks key (s.offset + n)) := by
  have hks : ∀ (bs : Bytes) (o n : Nat) (x : UInt8), bs[n]? = some x →
      (applyKeystream E key o bs)[n]? = some (x ^^^ E.ks key (o + n)) := by
    intro bs
    induction bs with
    | nil => intro o n x hx; simp at hx
    | cons b bs ih =>
      intro o n x hx
      cases n with
      | zero =>
        rw [List.getElem?_cons_zero] at hx
        cases hx
        rfl
      | succ n =>
        rw [List.getElem?_cons_succ] at hx
        have := ih (o + 1) n x hx
        unfold applyKeystream
        rw [List.getElem?_cons_succ, this, Nat.add_assoc, Nat.add_comm 1 n]
  unfold intoEncrypted at he
  rw [bind_apply] at he
  unfold reserve at he
  by_cases ho : s.offset + z.data.length < 2 ^ 64
  · rw [if_pos ho] at he
    cases he
    refine ⟨decrypt_encNode h key _ z ho, rfl, ⟨z.links, applyKeystream E key s.offset z.data, h.decNode_encNode _, ?_⟩,
      applyKeystream E key s.offset z.data, h.decNode_encNode _, applyKeystream_length .., hks z.data s.offset⟩
    show s.offset + z.data.length = _
    rw [applyKeystream_length]
  · rw [if_neg ho] at he
    cases he

/-- C23: encryption at a given offset. -/
theorem C23_encrypt (h : E.Lawful) (z : ZSeq) (key : E.CKey) (o : Nat) (ho : o + z.data.length < 2 ^ 64) :
    ∃ b, encryptAt z key o = .ok b ∧ decrypt E b key = .ok (z, (o, o + z.data.length)) := by
  unfold encryptAt
  rw [if_pos ho]
  exact ⟨_, rfl, decrypt_encNode h key o z ho⟩

/-- C23: if the key stream is exhausted there is an error and no block. -/
theorem C23_exhausted (z : ZSeq) (key : E.CKey) (ho : ¬ s.offset + z.data.length < 2 ^ 64) :
    intoEncrypted z key s = .error .offsets s := by
  unfold intoEncrypted
  rw [bind_apply]
  unfold reserve
  rw [if_neg ho]

end Banyan
