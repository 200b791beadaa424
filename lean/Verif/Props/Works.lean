import Verif.Proofs.Pool
import Verif.Props.Append
import Verif.Props.Pack
import Verif.Props.Retain
import Verif.Props.Cipher
import Verif.Props.Atomic
import Verif.Props.Threads
/-
Builders at work while other threads use the same store and the same branch cache: C89.
-/
set_option autoImplicit false
namespace Banyan

open PTree Concrete

variable {T : TreeTypes} {V : Type} {E : Env T V} {cx : Ctx E} {s s' : St E} {c : List (Option (T.Key × V))} {α : Type}

/-- C89: the programs whose accesses are interleaved are the writing operations: executed alone they are the operations of the model. -/
theorem C89_programs (cx : Ctx E) (fuel : Nat) (xs : List (T.Key × V)) (q : Query T) :
    (WProg.extend cx fuel xs).run cx.sec = extend cx fuel xs ∧
    (WProg.extendUnpacked cx fuel xs).run cx.sec = extendUnpacked cx fuel xs ∧
    (WProg.pack cx fuel).run cx.sec = pack cx fuel ∧
    (WProg.retain cx fuel q).run cx.sec = retain cx fuel q :=
  ⟨WProg.run_extend fuel xs, WProg.run_extendUnpacked fuel xs, WProg.run_pack fuel, WProg.run_retain fuel q⟩

/-- C89: an operation among other threads, successful or not, leads to a reachable state, so that all that is proved of reachable states
holds afterwards; and the cache still holds nothing but what was read with the key. -/
theorem C89_reach (ok : cx.Ok) (hr : Reach cx s) (hc : Exact E cx.sec s) {p : WProg T Unit} (hp : Job cx s p) {r : Except Err Unit}
    (hx : p.Runs cx.sec s r s') : Reach cx s' ∧ Exact E cx.sec s' ∧ StoreLe E s.store s'.store :=
  ⟨hr.run (.threaded (.refl s) hc hp hx), (hx.exact ok.env).2 hc, (hx.exact ok.env).1⟩

/-! ### the operations -/

/-- The tree of the state before, in the environment of the end. -/
theorem Job.before (ok : cx.Ok) (hr : Reach cx s) (hc : Exact E cx.sec s) {p : WProg T Unit} (hp : Job cx s p) {r : Except Err Unit}
    (hx : p.Runs cx.sec s r s') (hs : Small E s') (m0 : String) :
    ∃ t, Inv (NodeInv.trivial cx) s t ∧
      ∀ q : Script E (s'.store, m0), Inv ((NodeInv.trivial cx).final (s'.store, m0)) (s.final q) t := by
  obtain ⟨t, hi⟩ := ok.inv hr ((hp.ext0 ok.env hx hc).small hs)
  exact ⟨t, hi, fun q => hi.final q (hx.exact ok.env).1⟩

theorem HoldsI.ofFinal {t : Option (PTree T V)} {m0 : String} {q : Script E (s.store, m0)}
    (hi : HoldsI ((NodeInv.trivial cx).final (s.store, m0)) (s.final q) t) (hc : Exact E cx.sec s) : HoldsI (NodeInv.trivial cx) s t where
  root := hi.root
  coherent := hc.coherent
  good := by
    intro t' ht' n hn
    obtain ⟨h1, h2, h3⟩ := hi.good t' ht' n hn
    exact ⟨(StoredAt.final (cx := cx) (p := q) n).mp h1, (WFAt.final (F := (s.store, m0)) n).mp h2, h3⟩

/-- A message other than the given one. -/
def otherMessage (m : String) : String := if m = "" then "x" else ""

theorem otherMessage_ne (m : String) : otherMessage m ≠ m := by
  unfold otherMessage
  split
  · rename_i h; subst h; decide
  · rename_i h; exact fun h' => h h'.symm

/-- The message of an error. -/
def Err.message : Err → String
  | .fail m => m
  | _ => ""

/-- Causes outside of the tree, in the environment of the end, are causes outside of the tree. -/
theorem Allowed.ofFinal {F : E.σ × String} {cfg : Config} {vals : V → Prop} {e : Err} (h : Allowed (E.final F) cfg vals e)
    (hF : F.2 ≠ e.message) : Allowed E cfg vals e := by
  cases h with
  | offsets => exact .offsets
  | put q d m hq =>
    obtain ⟨⟨p, m1⟩, hp, hm⟩ := q
    have h1 : m = m1 := by
      change (Script.put (E := E) (F := F) ⟨(p, m1), hp, hm⟩ d).1 = .error m at hq
      cases p with
      | nil => simp only [Script.put] at hq; cases hq; rfl
      | cons x p =>
        obtain ⟨d', l'⟩ := x
        by_cases hd : d' = d
        · simp only [Script.put, if_pos hd] at hq; cases hq
        · simp only [Script.put, if_neg hd] at hq; cases hq; rfl
    subst h1
    rcases hm with hm | ⟨σ, d', hm⟩
    · exact absurd hm.symm hF
    · exact .put σ d' m hm
  | scrapeVal v m h => exact .scrapeVal v m h
  | scrapeIdx i m h => exact .scrapeIdx i m h
  | tooLarge v m h1 h2 => exact .tooLarge v m h1 h2

/-- C89: `extend` among other threads appends its elements, and keeps packed trees packed. -/
theorem C89_extend (ok : cx.Ok) (hr : Reach cx s) (hx : Exact E cx.sec s) (fuel : Nat) (xs : List (T.Key × V))
    (hf : rootLevel s.root < fuel) (hn : rootCount s.root + xs.length ≤ maxElements)
    (he : (WProg.extend cx fuel xs).Runs cx.sec s (.ok ()) s') (hs : Small E s') (hc : Contains cx s c) :
    Contains cx s' (c ++ xs.map some) ∧ (ReportsPacked cx s → ReportsPacked cx s') := by
  obtain ⟨t, hi, hq⟩ := Job.before ok hr hx (.extend fuel xs hf hn) he hs ""
  obtain ⟨q, q', h0⟩ := he.op ok.env hx (m0 := "") (wextend_final fuel xs) (WProg.run_extend (cx := cx.final (s'.store, "")) fuel xs)
  have h1 := hi.level
  have h2 := hi.count
  have h3 := rootCount_eq ok.types hi.holds
  have hm : maxElements = 2147483645 := rfl
  have hu : u32max = 4294967295 := rfl
  obtain ⟨t', k1, k2, k3, _⟩ := (extend_spec (I := (NodeInv.trivial cx).final (s'.store, "")) (vals := fun _ => True) (R := fun _ => True)
    (Env.final_lawful ok.env _) ok.types ok.cfg (fun _ _ => trivial) fuel xs t (s.final q) (hq q).holds (fun _ _ => trivial) hf
    (by show max 1 (rootLevel s.root) + xs.length < u32max; omega) (Or.inr fun _ => trivial)).ok h0 hs.final
  have k4 := k1.ofFinal ((he.exact ok.env).2 hx)
  rw [hi.holds.contains ok.env ok.types] at hc
  refine ⟨by rw [k4.contains ok.env ok.types, k2, hc], fun hp => ?_⟩
  rw [hi.holds.packed ok.env] at hp
  rw [k4.packed ok.env]
  exact k3 hp

/-- C89: if `extend` fails among other threads, root and content are as before; on a packed tree it fails only for a cause outside of the
tree, and never because of what the others do. -/
theorem C89_extend_fails (ok : cx.Ok) (hr : Reach cx s) (hx : Exact E cx.sec s) (fuel : Nat) (xs : List (T.Key × V))
    (hf : rootLevel s.root < fuel) (hn : rootCount s.root + xs.length ≤ maxElements) {e : Err}
    (he : (WProg.extend cx fuel xs).Runs cx.sec s (.error e) s') (hs : Small E s') (hc : Contains cx s c) :
    s'.root = s.root ∧ Contains cx s' c ∧ (ReportsPacked cx s → Allowed E cx.cfg (fun v => ∃ k, (k, v) ∈ xs) e) := by
  let m0 := otherMessage e.message
  have hp : Job cx s _ := .extend fuel xs hf hn
  obtain ⟨t, hi, hq⟩ := Job.before ok hr hx hp he hs m0
  obtain ⟨q, q', h0⟩ := he.op ok.env hx (m0 := m0) (wextend_final fuel xs) (WProg.run_extend (cx := cx.final (s'.store, m0)) fuel xs)
  have hroot : s'.root = s.root := (extend_error (cx := cx.final (s'.store, m0)) (Env.final_lawful ok.env _) h0).root
  have hx0 := hp.ext0 ok.env he hx
  refine ⟨hroot, contains_of_ext0 ok hr (hx0.small hs) hx0 hroot hc, fun hp => ?_⟩
  have h1 := hi.level
  have h2 := hi.count
  have h3 := rootCount_eq ok.types hi.holds
  have hm : maxElements = 2147483645 := rfl
  have hu : u32max = 4294967295 := rfl
  rw [hi.holds.packed ok.env] at hp
  exact ((extend_spec (I := (NodeInv.trivial cx).final (s'.store, m0)) (vals := fun v => ∃ k, (k, v) ∈ xs)
    (R := Allowed (E.final (s'.store, m0)) cx.cfg (fun v => ∃ k, (k, v) ∈ xs)) (Env.final_lawful ok.env _) ok.types ok.cfg (fun _ h => h)
    fuel xs t (s.final q) (hq q).holds (fun kv h => ⟨kv.1, h⟩) hf (by show max 1 (rootLevel s.root) + xs.length < u32max; omega)
    (Or.inl hp)).err h0 hs.final).ofFinal (otherMessage_ne _)

/-- C89: `extend_unpacked` among other threads appends its elements; if it fails, root and content are as before, and the cause is outside
of the tree. -/
theorem C89_extendUnpacked (ok : cx.Ok) (hr : Reach cx s) (hx : Exact E cx.sec s) (fuel : Nat) (xs : List (T.Key × V))
    (hf : rootLevel s.root < fuel) (hn : rootCount s.root + xs.length ≤ maxElements) {r : Except Err Unit}
    (he : (WProg.extendUnpacked cx fuel xs).Runs cx.sec s r s') (hs : Small E s') (hc : Contains cx s c) :
    match r with
    | .ok _ => Contains cx s' (c ++ xs.map some)
    | .error e => s'.root = s.root ∧ Contains cx s' c ∧ Allowed E cx.cfg (fun v => ∃ k, (k, v) ∈ xs) e := by
  have hp : Job cx s _ := .extendUnpacked fuel xs hf hn
  have hm : maxElements = 2147483645 := rfl
  have hu : u32max = 4294967295 := rfl
  cases r with
  | ok u =>
    obtain ⟨t, hi, hq⟩ := Job.before ok hr hx hp he hs ""
    obtain ⟨q, q', h0⟩ := he.op ok.env hx (m0 := "") (wextendUnpacked_final fuel xs)
      (WProg.run_extendUnpacked (cx := cx.final (s'.store, "")) fuel xs)
    obtain ⟨t', k1, k2, _⟩ := (extendUnpacked_spec (I := (NodeInv.trivial cx).final (s'.store, "")) (vals := fun _ => True) (R := fun _ => True)
      (Env.final_lawful ok.env _) ok.types ok.cfg (fun _ _ => trivial) fuel xs t (s.final q) (hq q).holds (fun _ _ => trivial)
      (by omega)).ok h0 hs.final
    rw [hi.holds.contains ok.env ok.types] at hc
    show Contains _ _ _
    rw [(k1.ofFinal ((he.exact ok.env).2 hx)).contains ok.env ok.types, k2, hc]
  | error e =>
    let m0 := otherMessage e.message
    obtain ⟨t, hi, hq⟩ := Job.before ok hr hx hp he hs m0
    obtain ⟨q, q', h0⟩ := he.op ok.env hx (m0 := m0) (wextendUnpacked_final fuel xs)
      (WProg.run_extendUnpacked (cx := cx.final (s'.store, m0)) fuel xs)
    have hroot : s'.root = s.root := (extendUnpacked_error (cx := cx.final (s'.store, m0)) (Env.final_lawful ok.env _) h0).root
    have hx0 := hp.ext0 ok.env he hx
    refine ⟨hroot, contains_of_ext0 ok hr (hx0.small hs) hx0 hroot hc, ?_⟩
    exact ((extendUnpacked_spec (I := (NodeInv.trivial cx).final (s'.store, m0)) (vals := fun v => ∃ k, (k, v) ∈ xs)
      (R := Allowed (E.final (s'.store, m0)) cx.cfg (fun v => ∃ k, (k, v) ∈ xs)) (Env.final_lawful ok.env _) ok.types ok.cfg (fun _ h => h)
      fuel xs t (s.final q) (hq q).holds (fun kv h => ⟨kv.1, h⟩) (by omega)).err h0 hs.final).ofFinal (otherMessage_ne _)

/-- C89: `pack` among other threads keeps the content and packs the tree; if it fails, the cause is outside of the tree, or a value of the
tree is larger than a limit that was changed since, and the content is as before or a prefix of it (as without other threads, C25). -/
theorem C89_pack (ok : cx.Ok) (hr : Reach cx s) (hx : Exact E cx.sec s) (fuel : Nat) (hf : rootLevel s.root < fuel) {r : Except Err Unit}
    (he : (WProg.pack cx fuel).Runs cx.sec s r s') (hs : Small E s') (hc : Contains cx s c) :
    match r with
    | .ok _ => Contains cx s' c ∧ ReportsPacked cx s'
    | .error e => (∃ c', Contains cx s' c' ∧ c' <+: c) ∧ Allowed E cx.cfg (fun v => ∃ k, some (k, v) ∈ c) e := by
  have hp : Job cx s _ := .pack fuel hf
  have hm : maxElements = 2147483645 := rfl
  have hu : u32max = 4294967295 := rfl
  cases r with
  | ok u =>
    obtain ⟨t, hi, hq⟩ := Job.before ok hr hx hp he hs ""
    obtain ⟨q, q', h0⟩ := he.op ok.env hx (m0 := "") (wpack_final fuel) (WProg.run_pack (cx := cx.final (s'.store, "")) fuel)
    have h2 := hi.count
    obtain ⟨t', k1, k2, k3, _⟩ := (pack_spec (I := (NodeInv.trivial cx).final (s'.store, "")) (R := fun _ => True)
      (Env.final_lawful ok.env _) ok.types ok.cfg fuel t (fun _ _ => trivial) (s.final q) (hq q).holds (hq q).purge hf (hq q).level_lt
      (by omega)).ok h0 hs.final
    have k4 := k1.ofFinal ((he.exact ok.env).2 hx)
    rw [hi.holds.contains ok.env ok.types] at hc
    refine ⟨by rw [k4.contains ok.env ok.types, k2, hc], ?_⟩
    rw [k4.packed ok.env]
    exact k3
  | error e =>
    let m0 := otherMessage e.message
    obtain ⟨t, hi, hq⟩ := Job.before ok hr hx hp he hs m0
    obtain ⟨q, q', h0⟩ := he.op ok.env hx (m0 := m0) (wpack_final fuel) (WProg.run_pack (cx := cx.final (s'.store, m0)) fuel)
    have h2 := hi.count
    rw [hi.holds.contains ok.env ok.types] at hc
    subst hc
    refine ⟨?_, ?_⟩
    · obtain ⟨t', k1, k2⟩ := pack_error (Env.final_lawful ok.env _) ok.types ok.cfg (hq q).holds hf h0 hs.final
      refine ⟨optContent t', ((k1.ofFinal ((he.exact ok.env).2 hx)).contains ok.env ok.types).mpr rfl, ?_⟩
      rcases k2 with rfl | ⟨k2, _⟩
      · exact List.prefix_rfl
      · rw [k2]
        obtain ⟨rest, h3⟩ := optRoots_content hi.purge (by
          rintro t2 rfl
          have := hi.level_lt
          rwa [hi.holds.level] at this)
        exact ⟨rest.map some, h3.symm⟩
    · exact ((pack_spec (I := (NodeInv.trivial cx).final (s'.store, m0))
        (R := Allowed (E.final (s'.store, m0)) cx.cfg (fun v => ∃ k, some (k, v) ∈ optContent t))
        (Env.final_lawful ok.env _) ok.types ok.cfg fuel t (fun _ h => h) (s.final q) (hq q).holds (hq q).purge hf (hq q).level_lt
        (by omega)).err h0 hs.final).ofFinal (otherMessage_ne _)

/-- C89: `retain` among other threads keeps all elements that satisfy the predicate of the query in their places; if it fails, root and
content are as before, and the cause is outside of the tree. -/
theorem C89_retain (ok : cx.Ok) (hr : Reach cx s) (hx : Exact E cx.sec s) (fuel : Nat) (hf : rootLevel s.root < fuel)
    (qu : Query T) (covers : T.Summary → T.Key → Prop) (p : Nat → T.Key → Bool) (hcov : Covering T covers) (hqu : QueryFor qu covers p)
    {r : Except Err Unit} (he : (WProg.retain cx fuel qu).Runs cx.sec s r s') (hs : Small E s') (hc : Contains cx s c) :
    match r with
    | .ok _ => ∃ c', Contains cx s' c' ∧ c'.length = c.length ∧
        ∀ n : Nat, c'[n]? = c[n]? ∨ (c'[n]? = some none ∧ ∀ k v, c[n]? = some (some (k, v)) → p n k = false)
    | .error e => s'.root = s.root ∧ Contains cx s' c ∧ Allowed E cx.cfg (fun _ => False) e := by
  have hp : Job cx s _ := .retain fuel qu hf
  cases r with
  | ok u =>
    obtain ⟨t, hi, hq⟩ := Job.before ok hr hx hp he hs ""
    obtain ⟨q, q', h0⟩ := he.op ok.env hx (m0 := "") (wretain_final fuel qu) (WProg.run_retain (cx := cx.final (s'.store, "")) fuel qu)
    obtain ⟨t', k1, k2⟩ := (retain_spec (I := (NodeInv.trivial cx).final (s'.store, "")) (vals := fun _ => True) (R := fun _ => True)
      (Env.final_lawful ok.env _) ok.types ok.cfg ((NodeInv.trivial_rewrites cx).final _) (fun _ _ => trivial) qu fuel t (s.final q)
      (hq q).holds hf).ok h0 hs.final
    rw [hi.holds.contains ok.env ok.types] at hc
    subst hc
    have h1 := k2.erased hcov hqu
    refine ⟨optContent t', ((k1.ofFinal ((he.exact ok.env).2 hx)).contains ok.env ok.types).mpr rfl, h1.length_eq, fun n => ?_⟩
    have := h1.get n
    rwa [Nat.zero_add] at this
  | error e =>
    let m0 := otherMessage e.message
    obtain ⟨t, hi, hq⟩ := Job.before ok hr hx hp he hs m0
    obtain ⟨q, q', h0⟩ := he.op ok.env hx (m0 := m0) (wretain_final fuel qu) (WProg.run_retain (cx := cx.final (s'.store, m0)) fuel qu)
    have hroot : s'.root = s.root := (retain_error (cx := cx.final (s'.store, m0)) (Env.final_lawful ok.env _) h0).root
    have hx0 := hp.ext0 ok.env he hx
    refine ⟨hroot, contains_of_ext0 ok hr (hx0.small hs) hx0 hroot hc, ?_⟩
    exact ((retain_spec (I := (NodeInv.trivial cx).final (s'.store, m0)) (vals := fun _ => False)
      (R := Allowed (E.final (s'.store, m0)) cx.cfg (fun _ => False)) (Env.final_lawful ok.env _) ok.types ok.cfg
      ((NodeInv.trivial_rewrites cx).final _) (fun _ h => h) qu fuel t (s.final q) (hq q).holds hf).err h0 hs.final).ofFinal (otherMessage_ne _)

/-- C89: the blocks written by an operation among other threads use fresh parts of the key stream of the builder. -/
theorem C89_no_reuse (ok : cx.Ok) (hx : Exact E cx.sec s) {p : WProg T Unit} (hp : Job cx s p) {r : Except Err Unit}
    (he : p.Runs cx.sec s r s') : ∃ new, s'.puts = s.puts ++ new ∧ NoReuse E new ∧
      ∀ b ∈ new, ∀ lo hi, UsesBytes E b lo hi → s.offset ≤ lo ∧ hi ≤ s'.offset :=
  C21_no_reuse ok (.threaded (.refl s) hx hp he)

/-! ### readers -/

theorem Prog.plain_mono {sec : Secrets E} {σ τ : E.σ} (h : StoreLe E σ τ) {p : Prog T α} {x : α} (hp : p.plain sec σ = .ok x) :
    p.plain sec τ = .ok x := by
  induction p with
  | ret a => exact hp
  | stop e => cases hp
  | branch l k ih =>
    unfold Prog.plain at hp ⊢
    rcases hl : loadBranchFromLink E sec σ l with e | b <;> simp only [hl] at hp
    · cases hp
    · simp only [loadBranchFromLink_mono h hl]
      exact ih b hp
  | leaf l k ih =>
    unfold Prog.plain at hp ⊢
    rcases hl : loadLeafFromLink E sec σ l with e | b <;> simp only [hl] at hp
    · cases hp
    · simp only [loadLeafFromLink_mono h hl]
      exact ih b hp

theorem Prog.run_final {sec : Secrets E} {F : E.σ × String} {p : Prog T α} {x : α} (hp : p.plain sec F.1 = .ok x) (q : Script E F) :
    p.run (sec.final F) (s.final q) = .ok x (s.final q) := by
  induction p with
  | ret a => cases hp; rfl
  | stop e => cases hp
  | branch l k ih =>
    unfold Prog.plain at hp
    unfold Prog.run
    rw [bind_apply, Banyan.loadBranchCached_final]
    rcases hl : loadBranchFromLink E sec F.1 l with e | b <;> simp only [hl] at hp ⊢
    · cases hp
    · exact ih b hp
  | leaf l k ih =>
    unfold Prog.plain at hp
    unfold Prog.run
    rw [bind_apply, Banyan.loadLeafM_final]
    rcases hl : loadLeafFromLink E sec F.1 l with e | b <;> simp only [hl] at hp ⊢
    · cases hp
    · exact ih b hp

/-- A reader among other threads gets what it would get alone. -/
theorem WProg.Runs.reader (h : E.Lawful) {sec : Secrets E} {p : Prog T α} {x : α} {r : Except Err α} (hr : (WProg.ofProg p).Runs sec s r s')
    (hx : Exact E sec s) (hp : p.plain sec s.store = .ok x) : r = .ok x := by
  obtain ⟨q, q', h0⟩ := hr.alone h hx ""
  rw [WProg.run_ofProg, Prog.run_final (Prog.plain_mono (hr.exact h).1 hp)] at h0
  cases r with
  | ok y =>
    simp only [resultAt, EStateM.Result.ok.injEq] at h0
    rw [h0.1]
  | error e => cases h0

/-- C89: `get` among other threads. -/
theorem C89_get (ok : cx.Ok) (hr : Reach cx s) (hs : Small E s) (hx : Exact E cx.sec s) (hc : Contains cx s c) (o fuel : Nat)
    (hf : rootLevel s.root < fuel) {r : Except Err (Option (T.Key × V))}
    (he : (WProg.ofProg (Prog.get fuel (snapshot cx s) o)).Runs cx.sec s r s') : r = .ok (c[o]?.join) := by
  obtain ⟨t, hi⟩ := ok.inv hr hs
  rw [hi.holds.contains ok.env ok.types] at hc
  subst hc
  exact he.reader ok.env hx (hi.holds.snap.plain_get ok.env ok.types o fuel hf)

/-- C89: `collect_from` among other threads. -/
theorem C89_collectFrom (ok : cx.Ok) (hr : Reach cx s) (hs : Small E s) (hx : Exact E cx.sec s) (hc : Contains cx s c) (o fuel : Nat)
    (hf : rootLevel s.root < fuel) {r : Except Err (List (Option (T.Key × V)))}
    (he : (WProg.ofProg (Prog.collectFrom fuel (snapshot cx s) o)).Runs cx.sec s r s') : r = .ok (c.drop o) := by
  obtain ⟨t, hi⟩ := ok.inv hr hs
  rw [hi.holds.contains ok.env ok.types] at hc
  subst hc
  exact he.reader ok.env hx (hi.holds.snap.plain_collectFrom ok.env ok.types o fuel hf)

/-! ### threads working at the same time -/

section Pool
variable {ι : Type} {α : ι → Type} {cxs : ι → Ctx E}

theorem Pool.fine_start {a : Pool E α} (h : ∀ i, ∃ p, (a.threads i).1 = .running p) : a.Fine fun i => (cxs i).sec := by
  intro i
  obtain ⟨p, hp⟩ := h i
  rw [hp]
  exact trivial

/-- C89: whatever programs any number of threads run on the same store and the same cache, with the same index key, and in whatever order
they make their accesses: to each of them all others are other threads in the sense of `WProg.Runs`. -/
theorem C89_pool (hE : E.Lawful) {a b : Pool E α} (h : Pool.Steps (fun i => (cxs i).sec) a b)
    (hstart : ∀ i, ∃ p, (a.threads i).1 = .running p) {i : ι} (hk : ∀ j, (cxs j).sec.indexKey = (cxs i).sec.indexKey)
    {p : WProg T (α i)} (hp : (a.threads i).1 = .running p) {r : Except Err (α i)} (hd : (b.threads i).1 = .done r) :
    p.Runs (cxs i).sec (a.state i) r (b.threads i).2 := by
  have := h.ends hE (Pool.fine_start hstart) hk hd
  rw [hp] at this
  exact this

/-- What has been done by a thread that has finished is not undone by the others. -/
theorem Pool.Steps.settled {a b : Pool E α} (h : Pool.Steps (fun i => (cxs i).sec) a b)
    (hstart : ∀ i, ∃ p, (a.threads i).1 = .running p) {i : ι} (ok : (cxs i).Ok) (hk : ∀ j, (cxs j).sec.indexKey = (cxs i).sec.indexKey)
    {r : Except Err (α i)} (hd : (b.threads i).1 = .done r) (hx : Exact E (cxs i).sec (b.threads i).2) :
    Exact E (cxs i).sec (b.state i) ∧ Ext0 (cxs i) (b.threads i).2 (b.state i) := by
  have h1 : Peers (cxs i).sec (b.threads i).2.world b.world := by
    rcases h.moved ok.env (Pool.fine_start hstart) i hk with h1 | h1
    · obtain ⟨p, hp⟩ := hstart i
      rw [h1, hp] at hd
      cases hd
    · exact h1
  have h2 : Exact E (cxs i).sec (b.state i) := h1.exact ok.env hx
  exact ⟨h2, h1.grows ok.env, fun _ => h2.coherent, ⟨[], (List.append_nil _).symm, Nat.le_refl _⟩, ⟨[], (List.append_nil _).symm⟩⟩

/-- C89: a builder that has finished an operation, while any number of threads did anything at the same time, is in a reachable state,
with the store and the cache as they are after all of it. -/
theorem C89_pool_reach {a b : Pool E (fun _ : ι => Unit)} (h : Pool.Steps (fun i => (cxs i).sec) a b)
    (hstart : ∀ i, ∃ p, (a.threads i).1 = .running p) {i : ι} (ok : (cxs i).Ok) (hk : ∀ j, (cxs j).sec.indexKey = (cxs i).sec.indexKey)
    {p : WProg T Unit} (hp : (a.threads i).1 = .running p) (ht : Job (cxs i) (a.state i) p)
    (hr : Reach (cxs i) (a.state i)) (hx : Exact E (cxs i).sec (a.state i)) {r : Except Err Unit} (hd : (b.threads i).1 = .done r) :
    Reach (cxs i) (b.state i) ∧ Exact E (cxs i).sec (b.state i) := by
  have h1 := C89_pool ok.env h hstart hk hp hd
  have h2 := h.settled hstart ok hk hd ((h1.exact ok.env).2 hx)
  exact ⟨(C89_reach ok hr hx ht h1).1.run (.world b.world.1 b.world.2 (.refl _) h2.2.store h2.1.coherent), h2.1⟩

theorem reportsPacked_of_ext0 (ok : cx.Ok) (hr : Reach cx s) (hs : Small E s) (hx : Ext0 cx s s') (hroot : s'.root = s.root)
    (hp : ReportsPacked cx s) : ReportsPacked cx s' := by
  obtain ⟨t, hi⟩ := ok.inv hr hs
  rw [hi.holds.packed ok.env] at hp
  exact ((hi.holds.mono hx hroot).packed ok.env).mpr hp

/-- C89: threads working at the same time. One of them appends elements to its tree; whatever the others do, in whatever order the
accesses are made: when it is done, its tree contains the elements, and what others do later does not change this. -/
theorem C89_together {cxs : ι → Ctx E} {a b : Pool E (fun _ : ι => Unit)} (h : Pool.Steps (fun i => (cxs i).sec) a b)
    (hstart : ∀ i, ∃ p, (a.threads i).1 = .running p) {i : ι} (ok : (cxs i).Ok) (hk : ∀ j, (cxs j).sec.indexKey = (cxs i).sec.indexKey)
    (fuel : Nat) (xs : List (T.Key × V)) (hp : (a.threads i).1 = .running (WProg.extend (cxs i) fuel xs))
    (hf : rootLevel (a.state i).root < fuel) (hn : rootCount (a.state i).root + xs.length ≤ maxElements)
    (hr : Reach (cxs i) (a.state i)) (hx : Exact E (cxs i).sec (a.state i)) (hc : Contains (cxs i) (a.state i) c)
    (hd : (b.threads i).1 = .done (.ok ())) (hs : Small E (b.state i)) : Contains (cxs i) (b.state i) (c ++ xs.map some) := by
  have h1 := C89_pool ok.env h hstart hk hp hd
  have h2 := h.settled hstart ok hk hd ((h1.exact ok.env).2 hx)
  exact contains_of_ext0 ok (C89_reach ok hr hx (.extend fuel xs hf hn) h1).1 hs h2.2 rfl (C89_extend ok hr hx fuel xs hf hn h1 hs hc).1

/-- C89: the same for `extend_unpacked`, with both outcomes. -/
theorem C89_together_extendUnpacked {cxs : ι → Ctx E} {a b : Pool E (fun _ : ι => Unit)} (h : Pool.Steps (fun i => (cxs i).sec) a b)
    (hstart : ∀ i, ∃ p, (a.threads i).1 = .running p) {i : ι} (ok : (cxs i).Ok) (hk : ∀ j, (cxs j).sec.indexKey = (cxs i).sec.indexKey)
    (fuel : Nat) (xs : List (T.Key × V)) (hp : (a.threads i).1 = .running (WProg.extendUnpacked (cxs i) fuel xs))
    (hf : rootLevel (a.state i).root < fuel) (hn : rootCount (a.state i).root + xs.length ≤ maxElements)
    (hr : Reach (cxs i) (a.state i)) (hx : Exact E (cxs i).sec (a.state i)) (hc : Contains (cxs i) (a.state i) c) {r : Except Err Unit}
    (hd : (b.threads i).1 = .done r) (hs : Small E (b.state i)) :
    match r with
    | .ok _ => Contains (cxs i) (b.state i) (c ++ xs.map some)
    | .error e => (b.state i).root = (a.state i).root ∧ Contains (cxs i) (b.state i) c ∧
        Allowed E (cxs i).cfg (fun v => ∃ k, (k, v) ∈ xs) e := by
  have h1 := C89_pool ok.env h hstart hk hp hd
  have h2 := h.settled hstart ok hk hd ((h1.exact ok.env).2 hx)
  have h3 := (C89_reach ok hr hx (.extendUnpacked fuel xs hf hn) h1).1
  have h4 := C89_extendUnpacked ok hr hx fuel xs hf hn h1 hs hc
  cases r with
  | ok u => exact contains_of_ext0 ok h3 hs h2.2 rfl h4
  | error e => exact ⟨h4.1, contains_of_ext0 ok h3 hs h2.2 rfl h4.2.1, h4.2.2⟩

/-- C89: the same for `pack`: the content is what it was and the tree is packed; after a failure it is a prefix of what it was. -/
theorem C89_together_pack {cxs : ι → Ctx E} {a b : Pool E (fun _ : ι => Unit)} (h : Pool.Steps (fun i => (cxs i).sec) a b)
    (hstart : ∀ i, ∃ p, (a.threads i).1 = .running p) {i : ι} (ok : (cxs i).Ok) (hk : ∀ j, (cxs j).sec.indexKey = (cxs i).sec.indexKey)
    (fuel : Nat) (hp : (a.threads i).1 = .running (WProg.pack (cxs i) fuel)) (hf : rootLevel (a.state i).root < fuel)
    (hr : Reach (cxs i) (a.state i)) (hx : Exact E (cxs i).sec (a.state i)) (hc : Contains (cxs i) (a.state i) c) {r : Except Err Unit}
    (hd : (b.threads i).1 = .done r) (hs : Small E (b.state i)) :
    match r with
    | .ok _ => Contains (cxs i) (b.state i) c ∧ ReportsPacked (cxs i) (b.state i)
    | .error e => (∃ c', Contains (cxs i) (b.state i) c' ∧ c' <+: c) ∧ Allowed E (cxs i).cfg (fun v => ∃ k, some (k, v) ∈ c) e := by
  have h1 := C89_pool ok.env h hstart hk hp hd
  have h2 := h.settled hstart ok hk hd ((h1.exact ok.env).2 hx)
  have h3 := (C89_reach ok hr hx (.pack fuel hf) h1).1
  have h4 := C89_pack ok hr hx fuel hf h1 hs hc
  cases r with
  | ok u => exact ⟨contains_of_ext0 ok h3 hs h2.2 rfl h4.1, reportsPacked_of_ext0 ok h3 hs h2.2 rfl h4.2⟩
  | error e =>
    obtain ⟨⟨c', h5, h6⟩, h7⟩ := h4
    exact ⟨⟨c', contains_of_ext0 ok h3 hs h2.2 rfl h5, h6⟩, h7⟩

/-- C89: the same for `retain`. -/
theorem C89_together_retain {cxs : ι → Ctx E} {a b : Pool E (fun _ : ι => Unit)} (h : Pool.Steps (fun i => (cxs i).sec) a b)
    (hstart : ∀ i, ∃ p, (a.threads i).1 = .running p) {i : ι} (ok : (cxs i).Ok) (hk : ∀ j, (cxs j).sec.indexKey = (cxs i).sec.indexKey)
    (fuel : Nat) (qu : Query T) (covers : T.Summary → T.Key → Prop) (p : Nat → T.Key → Bool) (hcov : Covering T covers)
    (hqu : QueryFor qu covers p) (hp : (a.threads i).1 = .running (WProg.retain (cxs i) fuel qu))
    (hf : rootLevel (a.state i).root < fuel)
    (hr : Reach (cxs i) (a.state i)) (hx : Exact E (cxs i).sec (a.state i)) (hc : Contains (cxs i) (a.state i) c) {r : Except Err Unit}
    (hd : (b.threads i).1 = .done r) (hs : Small E (b.state i)) :
    match r with
    | .ok _ => ∃ c', Contains (cxs i) (b.state i) c' ∧ c'.length = c.length ∧
        ∀ n : Nat, c'[n]? = c[n]? ∨ (c'[n]? = some none ∧ ∀ k v, c[n]? = some (some (k, v)) → p n k = false)
    | .error e => (b.state i).root = (a.state i).root ∧ Contains (cxs i) (b.state i) c ∧ Allowed E (cxs i).cfg (fun _ => False) e := by
  have h1 := C89_pool ok.env h hstart hk hp hd
  have h2 := h.settled hstart ok hk hd ((h1.exact ok.env).2 hx)
  have h3 := (C89_reach ok hr hx (.retain fuel qu hf) h1).1
  have h4 := C89_retain ok hr hx fuel hf qu covers p hcov hqu h1 hs hc
  cases r with
  | ok u =>
    obtain ⟨c', h5, h6⟩ := h4
    exact ⟨c', contains_of_ext0 ok h3 hs h2.2 rfl h5, h6⟩
  | error e => exact ⟨h4.1, contains_of_ext0 ok h3 hs h2.2 rfl h4.2.1, h4.2.2⟩

/-- C89: the assumptions about the cache, made at the beginning for every thread, are the same for all threads. -/
theorem C89_exact_shared {cxs : ι → Ctx E} {a : Pool E α} {i j : ι} (hk : (cxs j).sec.indexKey = (cxs i).sec.indexKey)
    (h : Exact E (cxs i).sec (a.state i)) : Exact E (cxs j).sec (a.state j) := by
  intro l b hl
  rw [loadBranch_same_key hk]
  exact h l b hl

end Pool

/-! ### examples -/

/-- The next step of a thread. -/
def Phase.next (sec : Secrets E) : Phase T α → St E → Phase T α × St E
  | .running (.ret a), s => (.done (.ok a), s)
  | .running (.stop e), s => (.done (.error e), s)
  | .running (.branch l k), s =>
    match (E.cacheGet s.cache l).1 with
    | some b => (.running (k b), { s with cache := (E.cacheGet s.cache l).2 })
    | none => (.loading l k, { s with cache := (E.cacheGet s.cache l).2 })
  | .running (.read l k), s =>
    match loadBranchFromLink E sec s.store l with
    | .ok b => (.running (k b), s)
    | .error e => (.done (.error e), s)
  | .running (.leaf l k), s =>
    match loadLeafFromLink E sec s.store l with
    | .ok b => (.running (k b), s)
    | .error e => (.done (.error e), s)
  | .running (.put d k), s =>
    match E.put s.store d with
    | (.ok l, σ) => (.running (k l), { s with store := σ, puts := s.puts ++ [d] })
    | (.error m, σ) => (.done (.error (.fail m)), { s with store := σ, puts := s.puts ++ [d] })
  | .running (.reserve n k), s =>
    if s.offset + n < 2 ^ 64 then (.running (k s.offset), { s with offset := s.offset + n }) else (.done (.error .offsets), s)
  | .running (.log items k), s => (.running k, { s with written := s.written ++ [items] })
  | .running (.getIndex k), s => (.running (k s.root), s)
  | .running (.setIndex i k), s => (.running k, { s with root := i })
  | .loading l k, s =>
    match loadBranchFromLink E sec s.store l with
    | .ok b => (.loaded l b k, s)
    | .error e => (.done (.error e), s)
  | .loaded l b k, s => (.running (k b), { s with cache := E.cachePut s.cache l b })
  | .done r, s => (.done r, s)

/-- Every thread that is not done can make a step. -/
theorem Phase.next_step (sec : Secrets E) (ph : Phase T α) (s : St E) (h : ∀ r, ph ≠ .done r) :
    Phase.Step sec ph s (ph.next sec s).1 (ph.next sec s).2 := by
  cases ph with
  | running p =>
    cases p with
    | ret a => exact .ret a s
    | stop e => exact .stop e s
    | branch l k =>
      unfold Phase.next
      rcases hg : (E.cacheGet s.cache l).1 with _ | b
      · simp only [hg]; exact .miss hg
      · simp only [hg]; exact .hit b hg
    | read l k =>
      unfold Phase.next
      rcases hg : loadBranchFromLink E sec s.store l with e | b
      · simp only [hg]; exact .noRead e hg
      · simp only [hg]; exact .read b hg
    | leaf l k =>
      unfold Phase.next
      rcases hg : loadLeafFromLink E sec s.store l with e | b
      · simp only [hg]; exact .noLeaf e hg
      · simp only [hg]; exact .leaf b hg
    | put d k =>
      unfold Phase.next
      rcases hg : E.put s.store d with ⟨m | l, σ⟩
      · simp only [hg]; exact .noPut m hg
      · simp only [hg]; exact .put l hg
    | reserve n k =>
      unfold Phase.next
      by_cases hn : s.offset + n < 2 ^ 64
      · simp only [if_pos hn]; exact .reserve hn
      · simp only [if_neg hn]; exact .noReserve hn
    | log items k => exact .log s items k
    | getIndex k => exact .getIndex s k
    | setIndex i k => exact .setIndex s i k
  | loading l k =>
    unfold Phase.next
    rcases hg : loadBranchFromLink E sec s.store l with e | b
    · simp only [hg]; exact .noLoad e hg
    · simp only [hg]; exact .load b hg
  | loaded l b k => exact .insert s l b k
  | done r => exact absurd rfl (h r)

def Phase.isDone : Phase T α → Bool
  | .done _ => true
  | _ => false

/-- Two threads taking turns as prescribed. -/
def Pool.scheduled (secs : Bool → Secrets E) : List Bool → Pool E (fun _ : Bool => Unit) → Pool E (fun _ : Bool => Unit)
  | [], a => a
  | i :: is, a =>
    if (a.threads i).1.isDone then scheduled secs is a
    else
      let n := (a.threads i).1.next (secs i) (a.state i)
      scheduled secs is ⟨n.2.world, fun j => if j = i then n else a.threads j⟩

theorem Pool.scheduled_steps (secs : Bool → Secrets E) (is : List Bool) (a : Pool E (fun _ : Bool => Unit)) :
    Pool.Steps secs a (a.scheduled secs is) := by
  induction is generalizing a with
  | nil => exact .refl a
  | cons i is ih =>
    unfold Pool.scheduled
    by_cases hd : (a.threads i).1.isDone = true
    · rw [if_pos hd]; exact ih a
    · rw [if_neg hd]
      refine .step (.thread i ?_ ?_ ?_) (ih _)
      · simp only [if_true]
        exact Phase.next_step _ _ _ fun r hr => hd (by rw [hr]; rfl)
      · simp only [if_true]
      · intro j hj
        simp only [if_neg hj]

def Phase.succeeded : Phase T Unit → Bool
  | .done (.ok _) => true
  | _ => false

theorem Phase.succeeded_iff {ph : Phase T Unit} (h : ph.succeeded = true) : ph = .done (.ok ()) := by
  cases ph with
  | done r =>
    cases r with
    | ok u => rfl
    | error e => cases h
  | _ => cases h

theorem Ext0.within {w : World E} (h : StoreLe E s.store w.1) (hx : Exact E cx.sec (s.within w)) : Ext0 cx s (s.within w) :=
  ⟨h, fun _ => hx.coherent, ⟨[], (List.append_nil _).symm, Nat.le_refl _⟩, ⟨[], (List.append_nil _).symm⟩⟩

theorem Reach.within {w : World E} (hr : Reach cx s) (h : StoreLe E s.store w.1) (hx : Exact E cx.sec (s.within w)) :
    Reach cx (s.within w) := hr.run (.world w.1 w.2 (.refl _) h hx.coherent)

theorem contains_within {w : World E} (ok : cx.Ok) (hr : Reach cx s) (hs : Small E s) (h : StoreLe E s.store w.1)
    (hx : Exact E cx.sec (s.within w)) (hc : Contains cx s c) : Contains cx (s.within w) c :=
  contains_of_ext0 ok hr hs (Ext0.within h hx) rfl hc

/-- Two threads at the beginning of their programs. -/
def Pool.pair (w : World E) (p0 : WProg T Unit) (s0 : St E) (p1 : WProg T Unit) (s1 : St E) : Pool E (fun _ : Bool => Unit) :=
  ⟨w, fun i => bif i then (.running p1, s1) else (.running p0, s0)⟩

theorem Pool.pair_false (w : World E) (p0 : WProg T Unit) (s0 : St E) (p1 : WProg T Unit) (s1 : St E) :
    (Pool.pair w p0 s0 p1 s1).state false = s0.within w ∧ ((Pool.pair w p0 s0 p1 s1).threads false).1 = .running p0 := ⟨rfl, rfl⟩

theorem Pool.pair_true (w : World E) (p0 : WProg T Unit) (s0 : St E) (p1 : WProg T Unit) (s1 : St E) :
    (Pool.pair w p0 s0 p1 s1).state true = s1.within w ∧ ((Pool.pair w p0 s0 p1 s1).threads true).1 = .running p1 := ⟨rfl, rfl⟩

/-- The store of a state, with another cache. -/
def St.cold (s : St E) (γ : E.γ) : World E := (s.store, γ)

theorem St.cold_grown (s : St E) (γ : E.γ) : StoreLe E s.store (s.cold γ).1 := StoreLe.refl s.store

/-- The store after seven elements were appended, and an empty cache. -/
def sharedWorld : World env := packed7.cold ([] : List (Nat × Branch types))

theorem sharedWorld_grown : StoreLe env packed7.store sharedWorld.1 := St.cold_grown packed7 _

/-- Another builder, without elements. -/
def secondBuilder : St env := { packed7 with root := none, offset := 5000 }

/-- Two threads: one appends three elements to the tree of seven elements, one appends five elements to an empty tree. -/
def twoBuilders : Pool env (fun _ : Bool => Unit) :=
  Pool.pair sharedWorld (WProg.extend (ctx tiny) 10 (seq 7 3)) packed7 (WProg.extend (ctx tiny) 10 (seq 20 5)) secondBuilder

/-- The threads take turns after every access. -/
def bothDone : Pool env (fun _ : Bool => Unit) := twoBuilders.scheduled (fun _ => (ctx tiny).sec) ((List.range 120).map fun i => i % 2 == 0)

theorem bothDone_steps : Pool.Steps (fun _ : Bool => (ctx tiny).sec) twoBuilders bothDone := Pool.scheduled_steps _ _ _

theorem sharedWorld_exact (s : St env) : Exact env (ctx tiny).sec (s.within sharedWorld) := by
  intro l b h
  cases h

/-- Both trees contain their elements when both threads are done, although the accesses of the two were mixed all the time. -/
example : Contains (ctx tiny) (bothDone.state false) ((seq 0 7).map some ++ (seq 7 3).map some) ∧
    Contains (ctx tiny) (bothDone.state true) ([] ++ (seq 20 5).map some) := by
  have hr : Reach (ctx tiny) (packed7.within sharedWorld) := packed7_reach.within sharedWorld_grown (sharedWorld_exact packed7)
  have hc : Contains (ctx tiny) (packed7.within sharedWorld) ((seq 0 7).map some) :=
    contains_within tiny_ok packed7_reach packed7_small sharedWorld_grown (sharedWorld_exact packed7) packed7_contains
  have h0 := Pool.pair_false sharedWorld (WProg.extend (ctx tiny) 10 (seq 7 3)) packed7 (WProg.extend (ctx tiny) 10 (seq 20 5)) secondBuilder
  have h1 := Pool.pair_true sharedWorld (WProg.extend (ctx tiny) 10 (seq 7 3)) packed7 (WProg.extend (ctx tiny) 10 (seq 20 5)) secondBuilder
  have hstart : ∀ i, ∃ p, (twoBuilders.threads i).1 = .running p := by
    intro i
    cases i
    · exact ⟨_, h0.2⟩
    · exact ⟨_, h1.2⟩
  exact ⟨C89_together (cxs := fun _ => ctx tiny) bothDone_steps hstart (i := false) tiny_ok (fun _ => rfl) 10 (seq 7 3) h0.2
      (by decide +kernel) (by decide +kernel) (h0.1 ▸ hr) (h0.1 ▸ sharedWorld_exact packed7) (h0.1 ▸ hc) (Phase.succeeded_iff (by decide +kernel))
      (small_of (by decide +kernel)),
    C89_together (cxs := fun _ => ctx tiny) bothDone_steps hstart (i := true) tiny_ok (fun _ => rfl) 10 (seq 20 5) h1.2
      (by decide +kernel) (by decide +kernel) (h1.1 ▸ .fresh _ rfl (sharedWorld_exact secondBuilder).coherent) (h1.1 ▸ sharedWorld_exact secondBuilder)
      (h1.1 ▸ contains_start tiny_ok rfl (sharedWorld_exact secondBuilder).coherent) (Phase.succeeded_iff (by decide +kernel))
      (small_of (by decide +kernel))⟩

/-- The store of the unpacked tree of ten elements, and an empty cache. -/
def unpackedWorld : World env := unpacked10.cold ([] : List (Nat × Branch types))

theorem unpackedWorld_grown : StoreLe env unpacked10.store unpackedWorld.1 := St.cold_grown unpacked10 _

theorem unpackedWorld_exact (s : St env) : Exact env (ctx tiny).sec (s.within unpackedWorld) := by
  intro l b h
  cases h

/-- Two threads with copies of the same tree: one packs it, one removes elements. -/
def packAndPurge : Pool env (fun _ : Bool => Unit) :=
  Pool.pair unpackedWorld (WProg.pack (ctx tiny) 10) unpacked10 (WProg.retain (ctx tiny) 10 (keyRange 5 5)) unpacked10

def packAndPurgeDone : Pool env (fun _ : Bool => Unit) :=
  packAndPurge.scheduled (fun _ => (ctx tiny).sec) ((List.range 200).map fun i => i % 2 == 0)

/-- The copy of the one is packed and has all elements, the copy of the other has the element with key 5. -/
example : Contains (ctx tiny) (packAndPurgeDone.state false) ((seq 0 10).map some) ∧
    ReportsPacked (ctx tiny) (packAndPurgeDone.state false) ∧
    ∃ c' : List (Option (Nat × Nat)), Contains (ctx tiny) (packAndPurgeDone.state true) c' ∧ c'.length = 10 ∧
      c'[5]? = some (some (5, 50)) := by
  have hr : Reach (ctx tiny) (unpacked10.within unpackedWorld) := unpacked10_reach.within unpackedWorld_grown (unpackedWorld_exact _)
  have hc : Contains (ctx tiny) (unpacked10.within unpackedWorld) ((seq 0 10).map some) :=
    contains_within tiny_ok unpacked10_reach unpacked10_small unpackedWorld_grown (unpackedWorld_exact _) unpacked10_contains
  have h0 := Pool.pair_false unpackedWorld (WProg.pack (ctx tiny) 10) unpacked10 (WProg.retain (ctx tiny) 10 (keyRange 5 5)) unpacked10
  have h1 := Pool.pair_true unpackedWorld (WProg.pack (ctx tiny) 10) unpacked10 (WProg.retain (ctx tiny) 10 (keyRange 5 5)) unpacked10
  have hstart : ∀ i, ∃ p, (packAndPurge.threads i).1 = .running p := by
    intro i
    cases i
    · exact ⟨_, h0.2⟩
    · exact ⟨_, h1.2⟩
  have steps : Pool.Steps (fun _ : Bool => (ctx tiny).sec) packAndPurge packAndPurgeDone := Pool.scheduled_steps _ _ _
  have h2 := C89_together_pack (cxs := fun _ => ctx tiny) steps hstart (i := false) tiny_ok (fun _ => rfl) 10 h0.2
    (by decide +kernel) (h0.1 ▸ hr) (h0.1 ▸ unpackedWorld_exact _) (h0.1 ▸ hc) (Phase.succeeded_iff (by decide +kernel))
    (small_of (by decide +kernel))
  obtain ⟨c', h3, h4, h5⟩ := C89_together_retain (cxs := fun _ => ctx tiny) steps hstart (i := true) tiny_ok (fun _ => rfl) 10
    (keyRange 5 5) covers _ covering (keyRange_queryFor 5 5) h1.2 (by decide +kernel) (h1.1 ▸ hr) (h1.1 ▸ unpackedWorld_exact _)
    (h1.1 ▸ hc) (Phase.succeeded_iff (by decide +kernel)) (small_of (by decide +kernel))
  refine ⟨h2.1, h2.2, c', h3, h4, ?_⟩
  rcases h5 5 with h | ⟨_, h⟩
  · exact h
  · exact absurd (h (5 : Nat) 50 rfl) (by decide)

/-- Two threads with copies of the same tree: both append, without packing. -/
def bothAppend : Pool env (fun _ : Bool => Unit) :=
  Pool.pair unpackedWorld (WProg.extendUnpacked (ctx tiny) 10 (seq 30 2)) unpacked10 (WProg.extendUnpacked (ctx tiny) 10 (seq 40 3)) unpacked10

def bothAppendDone : Pool env (fun _ : Bool => Unit) :=
  bothAppend.scheduled (fun _ => (ctx tiny).sec) ((List.range 200).map fun i => i % 2 == 0)

example : Contains (ctx tiny) (bothAppendDone.state false) ((seq 0 10).map some ++ (seq 30 2).map some) := by
  have hr : Reach (ctx tiny) (unpacked10.within unpackedWorld) := unpacked10_reach.within unpackedWorld_grown (unpackedWorld_exact _)
  have hc : Contains (ctx tiny) (unpacked10.within unpackedWorld) ((seq 0 10).map some) :=
    contains_within tiny_ok unpacked10_reach unpacked10_small unpackedWorld_grown (unpackedWorld_exact _) unpacked10_contains
  have h0 := Pool.pair_false unpackedWorld (WProg.extendUnpacked (ctx tiny) 10 (seq 30 2)) unpacked10
    (WProg.extendUnpacked (ctx tiny) 10 (seq 40 3)) unpacked10
  have h1 := Pool.pair_true unpackedWorld (WProg.extendUnpacked (ctx tiny) 10 (seq 30 2)) unpacked10
    (WProg.extendUnpacked (ctx tiny) 10 (seq 40 3)) unpacked10
  have hstart : ∀ i, ∃ p, (bothAppend.threads i).1 = .running p := by
    intro i
    cases i
    · exact ⟨_, h0.2⟩
    · exact ⟨_, h1.2⟩
  have steps : Pool.Steps (fun _ : Bool => (ctx tiny).sec) bothAppend bothAppendDone := Pool.scheduled_steps _ _ _
  exact C89_together_extendUnpacked (cxs := fun _ => ctx tiny) steps hstart (i := false) tiny_ok (fun _ => rfl) 10 (seq 30 2) h0.2
    (by decide +kernel) (by decide +kernel) (h0.1 ▸ hr) (h0.1 ▸ unpackedWorld_exact _) (h0.1 ▸ hc) (Phase.succeeded_iff (by decide +kernel))
    (small_of (by decide +kernel))

end Banyan
