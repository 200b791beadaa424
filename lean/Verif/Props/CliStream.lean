import Verif.Props.Cli
import Verif.Props.Damage
import Verif.Props.Pubsub
/-
Commands of the tool that stream elements: C83, C84.
-/
set_option autoImplicit false
namespace Banyan

open PTree Concrete

variable {T : TreeTypes} {V : Type} {E : Env T V} {cx : Ctx E} {s s' d : St E} {c : List (Option (T.Key × V))}

/-! ### C83 -/

/-- The elements at the positions 0, 1000, 2000, ... -/
def Sampled {α : Type} (l printed : List α) : Prop := ∀ k : Nat, printed[k]? = l[1000 * k]?

theorem printSome_at (l : List (Nat × T.Key × V)) (i k : Nat) :
    (Tool.printSome i (l.map .ok))[k]? = l[1000 * k + (1000 - i % 1000) % 1000]? := by
  induction l generalizing i k with
  | nil => rfl
  | cons x l ih =>
    rw [List.map_cons, Tool.printSome]
    split
    · rename_i h
      cases k with
      | zero => rw [h]; rfl
      | succ k =>
        rw [List.getElem?_cons_succ, ih]
        have e : 1000 * (k + 1) + (1000 - i % 1000) % 1000 = (1000 * k + (1000 - (i + 1) % 1000) % 1000) + 1 := by omega
        rw [e, List.getElem?_cons_succ]
    · rename_i h
      rw [ih]
      have e : 1000 * k + (1000 - i % 1000) % 1000 = (1000 * k + (1000 - (i + 1) % 1000) % 1000) + 1 := by omega
      rw [e, List.getElem?_cons_succ]

theorem printSome_sampled (l : List (Nat × T.Key × V)) : Sampled l (Tool.printSome 0 (l.map .ok)) := fun k => printSome_at l 0 k

theorem printSome_error (pre : List (Nat × T.Key × V)) (e : String) (post : List (Except String (Nat × T.Key × V))) (i : Nat) :
    Tool.printSome i (pre.map .ok ++ .error e :: post) = Tool.printSome i (pre.map .ok) := by
  induction pre generalizing i with
  | nil => rfl
  | cons x pre ih =>
    rw [List.map_cons, List.cons_append, Tool.printSome, Tool.printSome, ih]

/-- C83: `Stream` prints every thousandth element of the tree, with its offset, in ascending order. -/
theorem C83_stream (hE : E.Lawful) (hT : T.Lawful) (tl : Tool E) (pw : Passwords) {cfg : Config} (hv : cfg.Valid) (hr : Reach ⟨cfg, tl.secrets pw⟩ s) (hs : Small E s)
    (hc : Contains ⟨cfg, tl.secrets pw⟩ s c) {i : BranchIndex T} {l : T.Link} (hi : s.root = some (.branch i)) (hl : i.link = some l)
    (between : Nat → St E → St E) (hb : Harmless (tl.secrets pw) between) (n fuel : Nat) (hf : 2 * i.level + 4 ≤ fuel) (hn : i.count ≤ n) :
    ∃ printed s', tl.stream pw between n fuel l s = .ok printed s' ∧ Sampled (matching (fun _ _ => true) 0 c) printed := by
  have ok : (⟨cfg, tl.secrets pw⟩ : Ctx E).Ok := ⟨hE, hT, hv⟩
  obtain ⟨t, h1, h2⟩ := C26_loaded_elements_partial ok hr hs hc hi hl allQuery (fun _ _ => True) (fun _ _ => true)
    ⟨fun _ _ _ => trivial, fun _ _ _ _ _ => trivial⟩ C13_all
  obtain ⟨s', h3⟩ := h2 between hb n fuel (by rw [hi]; exact hf) (by rw [hi]; exact hn)
  refine ⟨_, s', ?_, printSome_sampled _⟩
  unfold Tool.stream
  rw [bind_apply, h1]
  simp only
  rw [bind_apply, h3]
  rfl

theorem filter_eq (tl : Tool E) (pw : Passwords) (q : Query T) (between : Nat → St E → St E) (n fuel : Nat) (l : T.Link) :
    tl.filter pw q between n fuel l = (loadStreamBuilder tl.settings l >>= fun _ => onTree tl.settings (Tree.dump fuel) >>= fun lines =>
      onTree tl.settings (fun t => Tree.elements q .forward between n fuel t) >>= fun items => pure (lines, Tool.printSome 0 items)) := rfl

/-- C83: `Filter` prints the dump of the tree, and every thousandth of the elements that the query selects, in ascending order. -/
theorem C83_filter (hE : E.Lawful) (hT : T.Lawful) (tl : Tool E) (pw : Passwords) (l : T.Link) (hw : Written tl s l c) (hs : Small E s)
    (q : Query T) (covers : T.Summary → T.Key → Prop) (m : Nat → T.Key → Bool) (hcov : Covering T covers) (hq : QueryFor q covers m)
    (between : Nat → St E → St E) (hb : Harmless tl.defaultSecrets between) (n fuel : Nat) (hf : 2 * rootLevel s.root + 4 ≤ fuel) (hn : c.length ≤ n) :
    ∃ lines printed s', tl.filter pw q between n fuel l s = .ok (lines, printed) s' ∧ Sampled (matching m 0 c) printed ∧
      ∃ i i' cs, Shows tl.settings s (.branch i cs) ∧ i' = { i with keyBytes := i'.keyBytes } ∧ lines = (PTree.branch i' cs).lines 0 := by
  have ok := tl.settings_ok hE hT
  obtain ⟨i, hi, hl⟩ := hw.root
  obtain ⟨s1, h1, h2, h3, h4, h5, h6, i', cs, h7, h8, hii⟩ := load_for ok hw.steady hs hw.content hi hl
  obtain ⟨t, hinv⟩ := ok.inv (h2.reach ok.cfg) h3
  obtain rfl := hinv.holds.loaded.unique ok.env h8
  obtain ⟨γ, h9, h10⟩ := dump_reads ok hinv.holds.snap (show rootLevel s1.root < fuel by omega)
  have hr2 := (h2.cached h9).reach ok.cfg
  have hc2 := h4.cached ok (h2.reach ok.cfg) h3 h9
  obtain ⟨s2, r, k1, _, k2⟩ := C09_filtered_exact ok hr2 h3 hc2 q covers m hcov hq between hb n fuel (show 2 * rootLevel s1.root + 4 ≤ fuel by omega)
  have hcount := (Contains.count ok hr2 h3 hc2).1
  rw [k2 (by omega)] at k1
  refine ⟨_, _, s2, ?_, printSome_sampled _, i, i', cs, h7, hii, rfl⟩
  rw [filter_eq, bind_apply, h1]
  simp only
  rw [bind_apply, h10]
  simp only
  have k1' : onTree tl.settings (fun t => Tree.elements q .forward between n fuel t) { s1 with cache := γ } = _ := k1
  rw [bind_apply, k1']
  rfl

/-! #### damaged stores -/

theorem printValues_error (xs : List (Nat × T.Key × V)) (e : String) (st : St E) :
    (Tool.printValues (xs.map .ok ++ [.error e]) : M E _) st = .error (.fail e) st := by
  induction xs with
  | nil => rfl
  | cons x xs ih =>
    rw [List.map_cons, List.cons_append, Tool.printValues, bind_apply, ih]

/-- Iterating over a tree some of whose blocks cannot be read. -/
theorem elements_faulty (ok : cx.Ok) {s0 : St E} {t : PTree T V} (hst : Stored E cx.sec s0.store t) (hf : Formed t) (hco : Coherent E cx.sec s0)
    (hpos : t.All fun n => 0 < n.index.count) (o : Nat) (q : Query T) (covers : T.Summary → T.Key → Prop) (m : Nat → T.Key → Bool)
    (hcov : Covering T covers) (hq : QueryFor q covers m) (hd : Faulty cx.sec s0.store d) (between : Nat → St E → St E)
    (hb : Tolerable cx.sec s0.store between) (n fuel : Nat) (hfu : 2 * t.index.level + 4 ≤ fuel) (hn : t.index.count ≤ n) :
    ∃ r s', Tree.elements q .forward between n fuel (some (t.index, cx.sec, o)) d = .ok r s' ∧
      (r = (matching m 0 t.content).map .ok ∨ ∃ pre e, pre <+: matching m 0 t.content ∧ r = pre.map .ok ++ [.error e]) := by
  have hseen : Seen cx.sec s0.store t := ⟨hst, hf.iterOk ok.types⟩
  have h2 := consecutive_length (chunksOf_consecutive (q := q) (mkExtra := fun _ => ()) t hseen.ok hpos 0)
  have hm := chunksOf_matching (mkExtra := fun _ => ()) ok.types hcov hq t hf 0
  obtain ⟨r, s', h3, _, h4⟩ := iterTake_faulty ok.env ok.types (q := q) (mkExtra := fun _ => ()) hb n hd (live_new (m := .forward) hseen) hfu
  refine ⟨flattenChunks r, s', ?_, ?_⟩
  · unfold Tree.elements Tree.chunks chunkedTake
    rw [bind_apply]
    simp only
    rw [h3]
    rfl
  · rcases h4 with rfl | ⟨j, e, j1, _, rfl⟩
    · left
      rw [flattenChunks_ok, List.take_of_length_le, ← hm]
      · rfl
      · show (chunksOf q (fun _ => ()) t 0).length ≤ n
        omega
    · refine .inr ⟨((ordered .forward (chunksOf q (fun _ => ()) t 0)).take j).flatMap Chunk.data, e, ?_, ?_⟩
      · rw [← hm]
        refine ⟨((chunksOf q (fun _ => ()) t 0).drop j).flatMap Chunk.data, ?_⟩
        rw [← List.flatMap_append]
        show ((chunksOf q (fun _ => ()) t 0).take j ++ _).flatMap _ = _
        rw [List.take_append_drop]
      · rw [← flattenChunks_ok]
        unfold flattenChunks
        rw [List.flatMap_append]
        rfl

/-- Loading a tree some of whose blocks cannot be read. -/
theorem loadTree_faulty {sec : Secrets E} {l : T.Link} {t : Tree E} (hd : Faulty sec s.store d) (h : loadTree sec l s = .ok t s) :
    loadTree sec l d = .ok t d ∨ ∃ e, E.get d.store l = .error e ∧ loadTree sec l d = .error (.fail e) d := by
  cases hg' : E.get d.store l with
  | error e =>
    refine .inr ⟨e, rfl, ?_⟩
    unfold loadTree createIndexFromLink getBlock
    rw [hg']
    rfl
  | ok b =>
    left
    have hg := hd.store l b hg'
    unfold loadTree createIndexFromLink getBlock at h ⊢
    rw [hg] at h
    rw [hg']
    revert h
    simp only
    split
    · intro h
      cases h
      rfl
    · exact nofun

/-- What is printed out of a beginning is a beginning of what is printed. -/
theorem printSome_prefix {a b : List (Nat × T.Key × V)} (h : a <+: b) (i : Nat) : Tool.printSome i (a.map .ok) <+: Tool.printSome i (b.map .ok) := by
  induction a generalizing b i with
  | nil => exact List.nil_prefix
  | cons x a ih =>
    obtain ⟨z, rfl⟩ := h
    rw [List.cons_append, List.map_cons, List.map_cons, Tool.printSome, Tool.printSome]
    have := ih (List.prefix_append a z) (i + 1)
    split
    · exact (List.prefix_cons_inj x).mpr this
    · exact this

/-- C83, for `DumpValues`, whatever blocks cannot be read: all elements are printed, or there is an error. -/
theorem C83_dump_values (hE : E.Lawful) (hT : T.Lawful) (tl : Tool E) (pw : Passwords) {cfg : Config} (hv : cfg.Valid) (hr : Reach ⟨cfg, tl.secrets pw⟩ s) (hs : Small E s)
    (hc : Contains ⟨cfg, tl.secrets pw⟩ s c) {i : BranchIndex T} {l : T.Link} (hi : s.root = some (.branch i)) (hl : i.link = some l)
    (hd : Faulty (tl.secrets pw) s.store d) (between : Nat → St E → St E) (hb : Tolerable (tl.secrets pw) s.store between) (n fuel : Nat)
    (hf : 2 * i.level + 4 ≤ fuel) (hn : i.count ≤ n) :
    (∃ s', tl.dumpValues pw between n fuel l d = .ok (matching (fun _ _ => true) 0 c) s') ∨ ∃ e s', tl.dumpValues pw between n fuel l d = .error (.fail e) s' := by
  have ok : (⟨cfg, tl.secrets pw⟩ : Ctx E).Ok := ⟨hE, hT, hv⟩
  obtain ⟨cs, i', o, _, h2, h3, h4, h5, h6, h7, h8⟩ := loadTree_seen ok hr hs hi hl
  unfold Tool.dumpValues
  rw [bind_apply]
  rcases loadTree_faulty hd h3 with h9 | ⟨e, _, h9⟩
  · rw [h9]
    simp only
    have hlev : i'.level = i.level := by rw [h2]
    have hcnt : i'.count = i.count := by rw [h2]
    obtain ⟨r, s', k1, k2⟩ := elements_faulty ok h4 h5 h6 h7 o allQuery (fun _ _ => True) (fun _ _ => true)
      ⟨fun _ _ _ => trivial, fun _ _ _ _ _ => trivial⟩ C13_all hd between hb n fuel
      (show 2 * i'.level + 4 ≤ fuel by rw [hlev]; exact hf) (show i'.count ≤ n by rw [hcnt]; exact hn)
    rw [bind_apply]
    have k1' : Tree.elements allQuery .forward between n fuel (some (.branch i', tl.secrets pw, o)) d = .ok r s' := k1
    rw [k1']
    simp only
    rw [(h8 c).mp hc]
    rcases k2 with rfl | ⟨pre, e, _, rfl⟩
    · exact .inl ⟨s', by rw [printValues_ok]; rfl⟩
    · exact .inr ⟨e, s', by rw [printValues_error]⟩
  · rw [h9]
    exact .inr ⟨e, d, rfl⟩

/-- C83, partial, for `Stream`, whatever blocks cannot be read: nothing wrong is printed, and nothing in the wrong order; what is printed is
a beginning of what is printed if all blocks can be read. The command fails only if the block of the root cannot be read. What is missing: an
error if elements are missing (`C83_refuted`). -/
theorem C83_stream_partial (hE : E.Lawful) (hT : T.Lawful) (tl : Tool E) (pw : Passwords) {cfg : Config} (hv : cfg.Valid) (hr : Reach ⟨cfg, tl.secrets pw⟩ s) (hs : Small E s)
    (hc : Contains ⟨cfg, tl.secrets pw⟩ s c) {i : BranchIndex T} {l : T.Link} (hi : s.root = some (.branch i)) (hl : i.link = some l)
    (hd : Faulty (tl.secrets pw) s.store d) (between : Nat → St E → St E) (hb : Tolerable (tl.secrets pw) s.store between) (n fuel : Nat)
    (hf : 2 * i.level + 4 ≤ fuel) (hn : i.count ≤ n) :
    (∃ printed all s', tl.stream pw between n fuel l d = .ok printed s' ∧ printed <+: all ∧ Sampled (matching (fun _ _ => true) 0 c) all) ∨
      ∃ e, E.get d.store l = .error e ∧ tl.stream pw between n fuel l d = .error (.fail e) d := by
  have ok : (⟨cfg, tl.secrets pw⟩ : Ctx E).Ok := ⟨hE, hT, hv⟩
  obtain ⟨cs, i', o, _, h2, h3, h4, h5, h6, h7, h8⟩ := loadTree_seen ok hr hs hi hl
  unfold Tool.stream
  rw [bind_apply]
  rcases loadTree_faulty hd h3 with h9 | ⟨e, h0, h9⟩
  · rw [h9]
    simp only
    have hlev : i'.level = i.level := by rw [h2]
    have hcnt : i'.count = i.count := by rw [h2]
    obtain ⟨r, s', k1, k2⟩ := elements_faulty ok h4 h5 h6 h7 o allQuery (fun _ _ => True) (fun _ _ => true)
      ⟨fun _ _ _ => trivial, fun _ _ _ _ _ => trivial⟩ C13_all hd between hb n fuel
      (show 2 * i'.level + 4 ≤ fuel by rw [hlev]; exact hf) (show i'.count ≤ n by rw [hcnt]; exact hn)
    rw [bind_apply]
    have k1' : Tree.elements allQuery .forward between n fuel (some (.branch i', tl.secrets pw, o)) d = .ok r s' := k1
    rw [k1']
    refine .inl ⟨Tool.printSome 0 r, Tool.printSome 0 ((matching (fun _ _ => true) 0 c).map .ok), s', rfl, ?_, printSome_sampled _⟩
    rw [(h8 c).mp hc]
    rcases k2 with rfl | ⟨pre, e, hp, rfl⟩
    · exact List.prefix_refl _
    · rw [printSome_error]
      exact printSome_prefix hp 0
  · rw [h9]
    exact .inr ⟨e, h0, rfl⟩

/-! ### C84 -/

/-- `SendStream` with these passwords has sent the elements `xs`; compare `Sends`. -/
inductive Tool.Sends (tl : Tool E) (pw : Passwords) : St E → List (T.Key × V) → List (T.Link × St E) → St E → Prop
  | done (s : St E) : Tool.Sends tl pw s [] [] s
  | tick {s s1 s' : St E} {l : Option T.Link} {xs : List (T.Key × V)} {sent : List (T.Link × St E)} (fuel : Nat) (x : T.Key × V) :
      rootLevel s.root + 4 ≤ fuel → rootCount s.root + 1 ≤ maxElements → tl.send pw fuel x s = .ok l s1 →
      Tool.Sends tl pw s1 xs sent s' → Tool.Sends tl pw s (x :: xs) ((l.map fun l => (l, s1)).toList ++ sent) s'
  | world {s s' : St E} {xs : List (T.Key × V)} {sent : List (T.Link × St E)} (σ : E.σ) (γ : E.γ) : StoreLe E s.store σ →
      Coherent E (tl.secrets pw) { s with store := σ, cache := γ } → Tool.Sends tl pw { s with store := σ, cache := γ } xs sent s' →
      Tool.Sends tl pw s xs sent s'

theorem Tool.Sends.sends {tl : Tool E} {pw : Passwords} {xs : List (T.Key × V)} {sent : List (T.Link × St E)} (h : tl.Sends pw s xs sent s') :
    Banyan.Sends (tl.fast pw) s xs sent s' := by
  induction h with
  | done s => exact .done s
  | tick fuel x h1 h2 h3 _ ih => exact .tick fuel x h1 h2 h3 ih
  | world σ γ h1 h2 _ ih => exact .world σ γ h1 h2 ih

theorem debugFast_valid : Config.debugFast.Valid := ⟨by decide, by decide, by decide, by decide⟩

/-- C84, partial: without passwords, `RecvStream` prints all elements that `SendStream` has sent once the link that was sent last has arrived,
each once and in order, whichever other links arrive. Missing: the case with passwords, in which nothing is printed (`C84_refuted`). -/
theorem C84_received_partial (hE : E.Lawful) (hT : T.Lawful) (tl : Tool E) (pw : Passwords) (hp : pw.index = none ∧ pw.value = none)
    (h0 : s.root = none) (hco : Coherent E (tl.secrets pw) s) {xs : List (T.Key × V)} {sent : List (T.Link × St E)}
    (hx : tl.Sends pw s xs sent s') (hs : Small E s') {lo hi : E.σ} {fuel n : Nat}
    (hlv : ∀ l s1, (l, s1) ∈ sent → (IsTree s1 ∨ NotATree (tl.secrets pw) hi l) ∧ 2 * rootLevel s1.root + 4 ≤ fuel ∧ rootCount s1.root < n)
    {links : List (St E × (Nat → St E → St E) × T.Link)} {states : List (St E)} (hrec : Each (Received (tl.fast pw) lo hi sent) links states)
    {l : T.Link} {s1 : St E} (hlast : sent.getLast? = some (l, s1)) (hmem : s1 ∈ states) (htree : IsTree s1) {f : St E} (hf : Between (tl.secrets pw) lo hi f) :
    ∃ f', tl.receive pw fuel n links f = .ok ((withOffsets xs).map .ok) f' := by
  have ok : (tl.fast pw).Ok := ⟨hE, hT, debugFast_valid⟩
  obtain ⟨f', h⟩ := C72_complete ok h0 hco hx.sends hs hlv hrec hlast hmem htree hf
  refine ⟨f', ?_⟩
  have : tl.secrets pw = tl.defaultSecrets := by
    unfold Tool.secrets Tool.defaultSecrets
    rw [hp.1, hp.2]
    rfl
  unfold Tool.receive
  rw [← this]
  exact h

/-! ### examples -/

namespace Concrete

/-- What `Stream` prints. -/
def streamed (s : St env) : Option (List (Nat × Nat × Nat)) := valueOf (tool.stream ⟨none, none⟩ idle 10 20 (linkOf built)) s

/-- C83 is false for `Stream`: the block of the first leaf is lost. Instead of the first element, nothing is printed, and there is no error.
`DumpValues` reports an error. -/
theorem C83_refuted : streamed built = some [(0, 0, 0)] ∧ streamed (hole [0] built) = some [] ∧
    (errorOf (tool.dumpValues ⟨none, none⟩ idle 10 20 (linkOf built)) (hole [0] built)).isSome = true := by
  decide +kernel

theorem built_reach : Reach (⟨Config.debug, tool.secrets ⟨none, none⟩⟩ : Ctx env) built := by
  obtain ⟨lines, h⟩ := built_leaves
  exact h.steady.reach debug_valid

theorem built_contains : Contains (⟨Config.debug, tool.secrets ⟨none, none⟩⟩ : Ctx env) built ((seq 0 6).map some) := by
  obtain ⟨lines, h⟩ := built_leaves
  exact h.content

/-- All blocks can be read. -/
example : ∃ printed s', tool.stream ⟨none, none⟩ idle 10 20 (linkOf built) built = .ok printed s' ∧
    Sampled (matching (T := types) (fun _ _ => true) 0 ((seq 0 6).map some)) printed := by
  obtain ⟨i, h1, h2, h3, h4⟩ := built_root
  exact C83_stream env_lawful types_lawful tool ⟨none, none⟩ debug_valid built_reach built_small built_contains h1 h2 idle (idle_harmless _) 10 20
    (by omega) (by omega)

/-- Of the elements with keys from 2 to 4 the first is printed. -/
example : ∃ lines printed s', tool.filter given (keyRange 2 4) idle 10 20 (linkOf built) built = .ok (lines, printed) s' ∧
    Sampled (matching (T := types) (fun _ (k : Nat) => decide (2 ≤ k ∧ k ≤ 4)) 0 ((seq 0 6).map some)) printed := by
  obtain ⟨lines, printed, s', h1, h2, _⟩ := C83_filter env_lawful types_lawful tool given (linkOf built) built_written built_small (keyRange 2 4) covers _
    covering (keyRange_queryFor 2 4) idle (idle_harmless _) 10 20 (by decide +kernel) (by decide)
  exact ⟨lines, printed, s', h1, h2⟩

def filtered : Option (List (Nat × Nat × Nat)) := (valueOf (tool.filter given (keyRange 2 4) idle 10 20 (linkOf built)) built).map Prod.snd

example : filtered = some [(2, 2, 20)] := by
  decide +kernel

theorem hole_faulty0 (ns : List Nat) (s : St env) : Faulty (tool.secrets ⟨none, none⟩) s.store (hole ns s) :=
  ⟨fun l b h => punch_get ns s.store l b h, fun l b h => by cases h⟩

theorem lose_tolerable0 (ns : List Nat) (σ : Store) : Tolerable (tool.secrets ⟨none, none⟩) σ (lose ns σ) :=
  fun _ s _ => hole_faulty0 ns { s with store := σ }

/-- A block is lost while the elements are printed. -/
example : (∃ s', tool.dumpValues ⟨none, none⟩ (lose [2] built.store) 10 20 (linkOf built) (hole [3] built) = .ok (matching (fun _ _ => true) 0 ((seq 0 6).map some)) s') ∨
    ∃ e s', tool.dumpValues ⟨none, none⟩ (lose [2] built.store) 10 20 (linkOf built) (hole [3] built) = .error (.fail e) s' := by
  obtain ⟨i, h1, h2, h3, h4⟩ := built_root
  exact C83_dump_values env_lawful types_lawful tool ⟨none, none⟩ debug_valid built_reach built_small built_contains h1 h2 (hole_faulty0 [3] built) _
    (lose_tolerable0 [2] built.store) 10 20 (by omega) (by omega)

/-- The same for `Stream`. -/
example : (∃ printed all s', tool.stream ⟨none, none⟩ idle 10 20 (linkOf built) (hole [0] built) = .ok printed s' ∧ printed <+: all ∧
      Sampled (matching (T := types) (fun _ _ => true) 0 ((seq 0 6).map some)) all) ∨
    ∃ e, env.get (hole [0] built).store (linkOf built) = .error e ∧
      tool.stream ⟨none, none⟩ idle 10 20 (linkOf built) (hole [0] built) = .error (.fail e) (hole [0] built) := by
  obtain ⟨i, h1, h2, h3, h4⟩ := built_root
  exact C83_stream_partial env_lawful types_lawful tool ⟨none, none⟩ debug_valid built_reach built_small built_contains h1 h2 (hole_faulty0 [0] built)
    idle (fun _ _ h => h) 10 20 (by omega) (by omega)

/-- The state of the sender after a number of turns. -/
def sending (pw : Passwords) : Nat → St env
  | 0 => start 100
  | n + 1 => endState (tool.send pw 20 (n, 10 * n)) (sending pw n)

/-- The link published in a turn. -/
def sendingLink (pw : Passwords) (n : Nat) : Option Nat := (valueOf (tool.send pw 20 (n, 10 * n)) (sending pw n)).join

/-- What `RecvStream` prints after three turns, if the link that was sent last has arrived: the offsets. -/
def receiving (pw : Passwords) : Option (List (Option Nat)) :=
  (valueOf (tool.receive pw 20 20 [(sending pw 3, idle, ((sendingLink pw 2).getD 0 : Nat))]) { sending pw 3 with cache := (start 100).cache }).map fun l =>
    l.map fun x => x.toOption.map Prod.fst

/-- C84 is false: with passwords, what `SendStream` has sent is not printed by `RecvStream` with the same passwords. -/
theorem C84_refuted : given.index.isSome = true ∧ given.value.isSome = true ∧ (List.range 3).map (sendingLink given) = [some 1, some 4, some 7] ∧
    receiving given = some [] ∧ receiving ⟨none, none⟩ = some [some 0, some 1, some 2] := by
  decide +kernel

theorem Tool.Sends.next {tl : Tool E} {pw : Passwords} {s s1 s' : St E} {fuel : Nat} {x : T.Key × V} {l : T.Link} {xs : List (T.Key × V)}
    {sent : List (T.Link × St E)} (h1 : rootLevel s.root + 4 ≤ fuel) (h2 : rootCount s.root + 1 ≤ maxElements) (h3 : tl.send pw fuel x s = .ok (some l) s1)
    (h : tl.Sends pw s1 xs sent s') : tl.Sends pw s (x :: xs) ((l, s1) :: sent) s' :=
  .tick fuel x h1 h2 h3 h

theorem sending_step {pw : Passwords} {n l : Nat} {xs : List (types.Key × Nat)} {sent : List (types.Link × St env)} {s' : St env}
    (h1 : rootLevel (sending pw n).root + 4 ≤ 20) (h2 : rootCount (sending pw n).root + 1 ≤ maxElements) (h3 : sendingLink pw n = some l)
    (h : tool.Sends pw (sending pw (n + 1)) xs sent s') : tool.Sends pw (sending pw n) ((n, 10 * n) :: xs) ((l, sending pw (n + 1)) :: sent) s' :=
  Tool.Sends.next (fuel := 20) h1 h2 (value_of (Option.join_eq_some_iff.mp h3)) h

def sending3 : List (Nat × St env) := [(1, sending ⟨none, none⟩ 1), (4, sending ⟨none, none⟩ 2), (7, sending ⟨none, none⟩ 3)]

theorem sending3_sends : tool.Sends ⟨none, none⟩ (sending ⟨none, none⟩ 0) (seq 0 3) sending3 (sending ⟨none, none⟩ 3) :=
  sending_step (by decide +kernel) (by decide +kernel) (by decide +kernel)
    (sending_step (by decide +kernel) (by decide +kernel) (by decide +kernel)
      (sending_step (by decide +kernel) (by decide +kernel) (by decide +kernel) (.done _)))

theorem sending3_levels (l : Nat) (s1 : St env) (h : (l, s1) ∈ sending3) :
    (IsTree s1 ∨ NotATree (tool.secrets ⟨none, none⟩) (sending ⟨none, none⟩ 3).store l) ∧ 2 * rootLevel s1.root + 4 ≤ 20 ∧ rootCount s1.root < 20 := by
  have key : IsTree s1 ∧ 2 * rootLevel s1.root + 4 ≤ 20 ∧ rootCount s1.root < 20 := by
    simp only [sending3, List.mem_cons, List.not_mem_nil, or_false, Prod.mk.injEq] at h
    rcases h with ⟨_, rfl⟩ | ⟨_, rfl⟩ | ⟨_, rfl⟩ <;> decide +kernel
  exact ⟨.inl key.1, key.2⟩

/-- Without passwords all elements are printed. -/
example : ∃ f', tool.receive ⟨none, none⟩ 20 20 [(sending ⟨none, none⟩ 3, idle, (7 : Nat))] { sending ⟨none, none⟩ 3 with cache := (start 100).cache } =
    .ok ([((0 : Nat), (0 : Nat), (0 : Nat)), (1, 1, 10), (2, 2, 20)].map .ok) f' :=
  C84_received_partial env_lawful types_lawful tool ⟨none, none⟩ ⟨rfl, rfl⟩ (s := sending ⟨none, none⟩ 0) rfl (new_coherent 100) sending3_sends
    (small_of (by decide +kernel)) sending3_levels (states := [sending ⟨none, none⟩ 3]) (links := [(sending ⟨none, none⟩ 3, idle, (7 : Nat))]) (lo := (sending ⟨none, none⟩ 3).store)
    ⟨⟨List.mem_cons_of_mem _ (List.mem_cons_of_mem _ List.mem_cons_self), fun _ _ h => h, fun _ _ h => h, fun _ _ h => ⟨h, fun _ _ hg => h.lo _ _ hg⟩⟩, trivial⟩
    (l := (7 : Nat)) rfl (by simp) (by decide +kernel) ⟨fun _ _ h => h, fun _ _ h => h, by intro l b h; cases h⟩

end Concrete

/-- The block of a leaf is not the block of a branch if loading it fails. -/
theorem notATree_of {sec : Secrets E} {σ : E.σ} {l : T.Link} {msg : String}
    (h : createIndexFromLink E sec (fun _ _ => true) σ l = .error (.fail msg)) : NotATree sec σ l := by
  intro w hw
  unfold loadTree
  cases hg : E.get w.store l with
  | error e =>
    refine ⟨e, ?_⟩
    unfold createIndexFromLink getBlock
    rw [hg]
    rfl
  | ok b' =>
    have : createIndexFromLink E sec (fun _ _ => true) w.store l = createIndexFromLink E sec (fun _ _ => true) σ l := by
      unfold createIndexFromLink getBlock
      rw [hg, hw _ _ hg]
    rw [this, h]
    exact ⟨msg, rfl⟩

theorem Concrete.notATree_of {sec : Secrets env} {σ : Store} {l : Nat}
    (h : (match createIndexFromLink env sec (fun _ _ => true) σ l with | .error (.fail _) => true | _ => false) = true) : NotATree (E := env) sec σ l := by
  split at h
  · exact Banyan.notATree_of (by assumption)
  · cases h

/-- The first leaf of a tree. -/
example : NotATree (ctx tiny).sec packed7.store (0 : Nat) := Concrete.notATree_of (by decide +kernel)

end Banyan
