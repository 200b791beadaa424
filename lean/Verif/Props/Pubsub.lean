import Verif.Props.Stream
import Verif.Props.Pack
import Verif.Spec.Pubsub
/-
Sending and receiving trees by links: C72.
-/
set_option autoImplicit false
namespace Banyan

open PTree Concrete

variable {T : TreeTypes} {V : Type} {E : Env T V} {cx : Ctx E} {s s' : St E} {c : List (Option (T.Key × V))} {fuel n : Nat} {lo hi σ : E.σ}

/-! ### the sender -/

/-- One turn of the sender. -/
theorem sendTick_spec (ok : cx.Ok) (hr : Reach cx s) {fuel : Nat} {x : T.Key × V} (hf : rootLevel s.root + 4 ≤ fuel)
    (hn : rootCount s.root + 1 ≤ maxElements) {l : Option T.Link} (he : sendTick cx fuel x s = .ok l s') (hs : Small E s') :
    Run cx s s' ∧ l = rootLink s'.root ∧ Small E s ∧ (∀ c, Contains cx s c → Contains cx s' (c ++ [some x])) ∧
      (0 < rootLevel s'.root ∨ packAbove ≤ rootCount s'.root) ∧ (rootLevel s.root + 4 ≤ packAbove → 0 < rootLevel s'.root) := by
  unfold sendTick at he
  rw [bind_apply] at he
  cases h1 : extendUnpacked cx fuel [x] s with
  | error e a => rw [h1] at he; cases he
  | ok u s1 =>
    rw [h1] at he
    have hrun : Run cx s s1 := by
      have := Run.extendUnpacked fuel [x] (Run.refl s) (cx := cx) (by omega) hn
      unfold endState at this
      rwa [h1] at this
    have hr1 : Reach cx s1 := hr.run hrun
    have hsm1 : Small E s1 → Small E s := ((frame0_extendUnpacked ok.env fuel [x]).ok h1).small
    have hl1 : Small E s1 → rootLevel s1.root < fuel ∧ 0 < rootLevel s1.root ∧ rootLevel s1.root < rootLevel s.root + 4 := by
      intro hs
      obtain ⟨t, hi⟩ := ok.inv hr (hsm1 hs)
      obtain ⟨_, _, _, _, _, k, _, _, k'⟩ := (extendUnpacked_spec (I := NodeInv.trivial cx) (vals := fun _ => True) (R := fun _ => True)
        ok.env ok.types ok.cfg (fun _ _ => trivial) fuel [x] t s hi.holds (fun _ _ => trivial) (by have : u32max = 4294967295 := rfl; simp only [List.length_cons, List.length_nil]; omega)).ok h1 hs
      simp only [List.length_cons, List.length_nil] at k
      have := k' (by simp)
      exact ⟨by omega, by omega, by omega⟩
    have hg : (getIndex : M E (Option (Index T))) s1 = .ok s1.root s1 := rfl
    simp only at he
    rw [bind_apply, hg] at he
    simp only at he
    by_cases hd : rootLevel s1.root > packAbove
    · rw [if_pos hd, bind_apply] at he
      cases h2 : pack cx fuel s1 with
      | error e a => rw [h2] at he; cases he
      | ok u s2 =>
        rw [h2] at he
        cases he
        have hs1 : Small E s1 := ((frame0_pack ok.env fuel).ok h2).small hs
        have hrun2 : Run cx s s' := by
          have := Run.pack fuel hrun (hl1 hs1).1
          unfold endState at this
          rwa [h2] at this
        refine ⟨hrun2, rfl, hsm1 hs1, fun c hc => ?_, .inr ?_, fun h => by have := (hl1 hs1).2.2; omega⟩
        · exact C03_pack_preserves ok hr1 fuel (hl1 hs1).1 h2 hs (C02_extendUnpacked_appends ok hr fuel [x] hn h1 hs1 hc)
        · obtain ⟨t, hi⟩ := ok.inv hr1 hs1
          obtain ⟨t2, hi2⟩ := ok.inv (hr.run hrun2) hs
          have h3 := C03_pack_preserves ok hr1 fuel (hl1 hs1).1 h2 hs ((hi.holds.contains ok.env ok.types).mpr rfl)
          rw [hi2.holds.contains ok.env ok.types] at h3
          rw [rootCount_eq ok.types hi2.holds, ← h3]
          have := hi.level
          omega
    · rw [if_neg hd] at he
      cases he
      exact ⟨hrun, rfl, hsm1 hs, (fun c hc => C02_extendUnpacked_appends ok hr fuel [x] hn h1 hs hc), .inl (hl1 hs).2.1, fun _ => (hl1 hs).2.1⟩

theorem frame0_sendTick (h : E.Lawful) (fuel : Nat) (x : T.Key × V) : Frame0 cx (sendTick cx fuel x) := by
  unfold sendTick
  refine (frame0_extendUnpacked h fuel [x]).bind fun _ => frame_getIndex.frame0.bind fun r => ?_
  split
  · exact (frame0_pack h fuel).bind fun _ => frame_getIndex.frame0.bind fun _ => (Frame.pure _).frame0
  · exact frame_getIndex.frame0.bind fun _ => (Frame.pure _).frame0

theorem Sends.small (h : E.Lawful) {xs : List (T.Key × V)} {sent : List (T.Link × St E)} (hx : Sends cx s xs sent s') (hs : Small E s') : Small E s := by
  induction hx with
  | done s => exact hs
  | tick fuel x _ _ he _ ih => exact ((frame0_sendTick h fuel x).ok he).small (ih hs)
  | world σ γ _ _ _ ih => exact ih hs

/-- Every published link is the link of a tree with the elements sent so far. -/
theorem Sends.contains (ok : cx.Ok) {xs : List (T.Key × V)} {sent : List (T.Link × St E)} (hx : Sends cx s xs sent s') (hr : Reach cx s)
    (hs : Small E s') (hc : Contains cx s c) :
    Contains cx s' (c ++ xs.map some) ∧ Reach cx s' ∧ ∀ l s1, (l, s1) ∈ sent → Reach cx s1 ∧ Small E s1 ∧ rootLink s1.root = some l ∧
      ∃ c1, Contains cx s1 c1 ∧ c1 <+: c ++ xs.map some := by
  induction hx generalizing c with
  | done s => exact ⟨by simpa using hc, hr, fun l s1 h => by cases h⟩
  | @tick s s1 s' l xs sent fuel x hf hn he hx ih =>
    have hs1 : Small E s1 := hx.small ok.env hs
    obtain ⟨k1, k2, _, k3, _, _⟩ := sendTick_spec ok hr hf hn he hs1
    have k1 : Reach cx s1 := hr.run k1
    obtain ⟨i1, i2, i3⟩ := ih k1 hs (k3 c hc)
    simp only [List.append_assoc, List.map_cons, List.cons_append, List.nil_append] at i1 i3 ⊢
    refine ⟨i1, i2, fun l2 s2 h2 => ?_⟩
    rcases List.mem_append.mp h2 with h2 | h2
    · cases l with
      | none => cases h2
      | some l =>
        cases List.mem_singleton.mp h2
        exact ⟨k1, hs1, k2.symm, c ++ [some x], k3 c hc, ⟨xs.map some, by simp⟩⟩
    · exact i3 l2 s2 h2
  | @world s s' xs sent σ γ h1 h2 hx ih =>
    have hsm := hx.small ok.env hs
    obtain ⟨t, hi⟩ := ok.inv hr hsm
    have hh : HoldsI (NodeInv.trivial cx) { s with store := σ, cache := γ } t := ⟨hi.holds.root, h2, fun t' ht => (hi.holds.good t' ht).mono h1⟩
    refine ih (hr.run (.world σ γ (.refl s) h1 h2)) hs ?_
    rw [hh.contains ok.env ok.types]
    exact (hi.holds.contains ok.env ok.types).mp hc

/-! ### the receiver -/

/-- Trees in any order. -/
theorem news_prefixes (m : Nat → T.Key → Bool) (stop : Nat) (c : List (Option (T.Key × V))) (cs : List (List (Option (T.Key × V))))
    (hg : ∀ d ∈ cs, d <+: c) (hst : c.length ≤ stop) (start : Nat) :
    news m stop cs start = matching (fun o k => decide (o < (cs.map List.length).foldr max 0) && inRange m start stop o k) 0 c := by
  induction cs generalizing start with
  | nil => exact (matching_false (fun o k => by simp) 0 c).symm
  | cons d cs ih =>
    have hdc : d <+: c := hg d (by simp)
    have hlen := hdc.length_le
    simp only [news]
    rw [matching_prefix _ hdc, if_neg (by omega), ih (fun d hd => hg d (by simp [hd]))]
    simp only [List.map_cons, List.foldr_cons]
    refine Eq.trans (congrArg _ (matching_ext (fun o k => ?_) 0 c)) (matching_parts m start stop d.length _ (.inr (Nat.le_max_left _ _)) c)
    unfold inRange
    rw [← Bool.and_assoc, ← Bool.and_assoc, ← Bool.decide_and, ← Bool.decide_and]
    congr 1
    apply decide_eq_decide.mpr
    omega

/-- A tree whose link was published can be loaded. -/
theorem recv_load (ok : cx.Ok) {s1 w : St E} {l : T.Link} {c1 : List (Option (T.Key × V))} (hr : Reach cx s1) (hs : Small E s1)
    (hl : rootLink s1.root = some l) (hb : 0 < rootLevel s1.root) (hc : Contains cx s1 c1) (h1 : StoreLe E s1.store σ) (h2 : StoreLe E w.store σ) :
    (∃ t, loadTree cx.sec l w = .ok t w ∧ ∀ fuel n world, 2 * rootLevel s1.root + 4 ≤ fuel → rootCount s1.root < n → Feed cx fuel n (world, t) c1 s1) ∨
    ((∀ b, E.get w.store l ≠ .ok b) ∧ ∃ msg, loadTree cx.sec l w = .error (.fail msg) w) := by
  unfold rootLink at hl
  cases hroot : s1.root with
  | none => rw [hroot] at hl; cases hl
  | some i =>
    rw [hroot] at hl hb
    cases i with
    | leaf i => exact absurd hb (Nat.lt_irrefl 0)
    | branch i =>
      obtain ⟨t, o, k1, _, _⟩ := loadTree_spec ok hr hs hroot hl h1 h2
      refine k1.imp (fun k1 => ⟨_, k1, fun fuel n world hf hn => ⟨hr, hs, hc, .inr ⟨i, l, w, σ, hroot, hl, h1, h2, k1⟩, by rw [hroot]; exact hf, ?_⟩⟩) id
      obtain ⟨t', hi'⟩ := ok.inv hr hs
      rw [(hi'.holds.contains ok.env ok.types).mp hc, ← rootCount_eq ok.types hi'.holds, hroot]
      exact hn

theorem Contains.count (ok : cx.Ok) (hr : Reach cx s) (hs : Small E s) (hc : Contains cx s c) : rootCount s.root = c.length ∧ c.length ≤ maxElements := by
  obtain ⟨t, hi⟩ := ok.inv hr hs
  rw [(hi.holds.contains ok.env ok.types).mp hc]
  exact ⟨rootCount_eq ok.types hi.holds, hi.count⟩

/-- All links are loaded. -/
theorem recvTrees_fed (ok : cx.Ok) {sent : List (T.Link × St E)} {whole : List (Option (T.Key × V))}
    (hsent : ∀ l s1, (l, s1) ∈ sent → Reach cx s1 ∧ Small E s1 ∧ rootLink s1.root = some l ∧ ∃ c1, Contains cx s1 c1 ∧ c1 <+: whole)
    (hlv : ∀ l s1, (l, s1) ∈ sent → (IsTree s1 ∨ NotATree cx.sec hi l) ∧ 2 * rootLevel s1.root + 4 ≤ fuel ∧ rootCount s1.root < n)
    {links : List (St E × (Nat → St E → St E) × T.Link)} {states : List (St E)} (hrec : Each (Received cx lo hi sent) links states) :
    ∃ contents, Each (Fed cx fuel n lo hi) (recvTrees cx.sec links) contents ∧ (∀ d ∈ contents, d <+: whole) ∧
      contents.map List.length = (states.filter fun s1 => IsTree s1).map fun s1 => rootCount s1.root := by
  induction links generalizing states with
  | nil =>
    cases states with
    | nil => exact ⟨[], trivial, (fun d hd => by cases hd), rfl⟩
    | cons _ _ => exact False.elim hrec
  | cons a links ih =>
    cases states with
    | nil => exact False.elim hrec
    | cons s1 states =>
      obtain ⟨contents, i1, i2, i3⟩ := ih hrec.2
      obtain ⟨w, world, l⟩ := a
      obtain ⟨g1, g2, g3, g4⟩ := hrec.1
      obtain ⟨k1, k2, k3, c1, k4, k5⟩ := hsent l s1 g1
      obtain ⟨j1, j2, j3⟩ := hlv l s1 g1
      by_cases j1' : IsTree s1
      · rcases recv_load (w := w) ok k1 k2 k3 j1' k4 (σ := w.store) g2 (fun _ _ h => h) with ⟨t, e1, e2⟩ | ⟨e1, _⟩
        · have hcnt := (Contains.count ok k1 k2 k4).1
          refine ⟨c1 :: contents, ?_, ?_, ?_⟩
          · unfold recvTrees
            rw [e1]
            exact ⟨⟨s1, e2 fuel n world j2 j3, g4⟩, i1⟩
          · intro d hd
            rcases List.mem_cons.mp hd with rfl | hd
            · exact k5
            · exact i2 d hd
          · rw [List.filter_cons_of_pos (by simpa using j1'), List.map_cons, List.map_cons, hcnt, i3]
        · exfalso
          unfold rootLink at k3
          cases hroot : s1.root with
          | none => rw [hroot] at k3; cases k3
          | some i =>
            unfold IsTree at j1'
            rw [hroot] at k3 j1'
            cases i with
            | leaf i => exact absurd j1' (Nat.lt_irrefl 0)
            | branch i =>
              obtain ⟨_, _, _, ⟨b, hb⟩, _⟩ := loadTree_spec (w := s1) ok k1 k2 hroot k3 (σ := s1.store) (fun _ _ h => h) (fun _ _ h => h)
              exact e1 b (g2 _ _ hb)
      · obtain ⟨msg, e1⟩ := (j1.resolve_left j1') w g3
        refine ⟨contents, ?_, i2, ?_⟩
        · unfold recvTrees
          rw [e1]
          exact i1
        · rw [List.filter_cons_of_neg (by simpa using j1'), i3]

theorem recvTrees_faulty (ok : cx.Ok) {sent : List (T.Link × St E)} {whole : List (Option (T.Key × V))}
    (hsent : ∀ l s1, (l, s1) ∈ sent → Reach cx s1 ∧ Small E s1 ∧ rootLink s1.root = some l ∧ ∃ c1, Contains cx s1 c1 ∧ c1 <+: whole)
    (hlv : ∀ l s1, (l, s1) ∈ sent → (IsTree s1 ∨ NotATree cx.sec σ l) ∧ 2 * rootLevel s1.root + 4 ≤ fuel ∧ rootCount s1.root < n)
    {links : List (St E × (Nat → St E → St E) × T.Link)} {states : List (St E)} (hrec : Each (ReceivedFaulty cx σ sent) links states) :
    ∃ contents, Each (FedFaulty cx fuel n σ) (recvTrees cx.sec links) contents ∧ ∀ d ∈ contents, d <+: whole := by
  induction links generalizing states with
  | nil => exact ⟨[], trivial, fun d hd => by cases hd⟩
  | cons a links ih =>
    cases states with
    | nil => exact False.elim hrec
    | cons s1 states =>
      obtain ⟨contents, i1, i2⟩ := ih hrec.2
      obtain ⟨w, world, l⟩ := a
      obtain ⟨g1, g2, g3, g4⟩ := hrec.1
      obtain ⟨k1, k2, k3, c1, k4, k5⟩ := hsent l s1 g1
      obtain ⟨j1, j2, j3⟩ := hlv l s1 g1
      by_cases j1' : IsTree s1
      · rcases recv_load (w := w) ok k1 k2 k3 j1' k4 (σ := σ) g2 g3 with ⟨t, e1, e2⟩ | ⟨_, msg, e1⟩
        · refine ⟨c1 :: contents, ?_, ?_⟩
          · unfold recvTrees
            rw [e1]
            exact ⟨⟨s1, e2 fuel n world j2 j3, g2, g4⟩, i1⟩
          · intro d hd
            rcases List.mem_cons.mp hd with rfl | hd
            · exact k5
            · exact i2 d hd
        · refine ⟨contents, ?_, i2⟩
          unfold recvTrees
          rw [e1]
          exact i1
      · obtain ⟨msg, e1⟩ := (j1.resolve_left j1') w g3
        refine ⟨contents, ?_, i2⟩
        unfold recvTrees
        rw [e1]
        exact i1

/-! ### C72 -/

theorem take_of_matching {m : Nat → T.Key → Bool} {whole : List (Option (T.Key × V))} (hw : whole.length < 2 ^ 64) (k : Nat) :
    matching (fun o key => decide (o < k) && inRange m 0 (2 ^ 64 - 1) o key) 0 whole = matching m 0 (whole.take k) := by
  rw [matching_prefix m (List.take_prefix k whole)]
  refine matching_congr fun o key _ ho => ?_
  unfold inRange
  have h1 : 0 ≤ o ∧ o ≤ 2 ^ 64 - 1 := by omega
  have h2 : decide (o < (whole.take k).length) = decide (o < k) := by
    apply decide_eq_decide.mpr
    rw [List.length_take]
    omega
  rw [decide_eq_true h1, h2, Bool.true_and]

theorem maxElements_lt : maxElements < 2 ^ 64 := by decide

/-- C72: a receiver delivers the elements of the largest of the trees whose links have arrived, each once and in order, no
matter which of the published links arrive, in which order and how often. Links of roots that are leaves are left out: no tree
can be loaded from them. -/
theorem C72_received (ok : cx.Ok) (hr : Reach cx s) (hc : Contains cx s c) {xs : List (T.Key × V)} {sent : List (T.Link × St E)}
    (hx : Sends cx s xs sent s') (hs : Small E s')
    (hlv : ∀ l s1, (l, s1) ∈ sent → (IsTree s1 ∨ NotATree cx.sec hi l) ∧ 2 * rootLevel s1.root + 4 ≤ fuel ∧ rootCount s1.root < n)
    {links : List (St E × (Nat → St E → St E) × T.Link)} {states : List (St E)} (hrec : Each (Received cx lo hi sent) links states)
    {f : St E} (hf : Between cx.sec lo hi f) :
    ∃ f', recvStream cx.sec fuel n links f = .ok ((matching (fun _ _ => true) 0
      ((c ++ xs.map some).take (((states.filter fun s1 => IsTree s1).map fun s1 => rootCount s1.root).foldr max 0))).map .ok) f' := by
  obtain ⟨h1, h2, h3⟩ := hx.contains ok hr hs hc
  obtain ⟨contents, k1, k2, k3⟩ := recvTrees_fed ok h3 hlv hrec
  have hlen := (Contains.count ok h2 hs h1).2
  have hmax := maxElements_lt
  obtain ⟨chunks, f', e1, _, e2⟩ := C29_stream ok (covers := fun _ _ => True) ⟨fun _ _ _ => trivial, fun _ _ _ _ _ => trivial⟩ C13_all (fun _ => ()) k1 0 (2 ^ 64 - 1) hf
  refine ⟨f', ?_⟩
  unfold recvStream streamTrees
  rw [bind_apply, e1]
  rw [news_prefixes _ _ _ _ k2 (by omega), k3, take_of_matching (by omega)] at e2
  rw [← e2, ← flattenChunks_ok]
  rfl

/-- C72: whatever blocks the receiver cannot read, and whenever: what it delivers are the first elements, without holes, each once and
in order. -/
theorem C72_faulty (ok : cx.Ok) (hr : Reach cx s) (hc : Contains cx s c) {xs : List (T.Key × V)} {sent : List (T.Link × St E)}
    (hx : Sends cx s xs sent s') (hs : Small E s')
    (hlv : ∀ l s1, (l, s1) ∈ sent → (IsTree s1 ∨ NotATree cx.sec σ l) ∧ 2 * rootLevel s1.root + 4 ≤ fuel ∧ rootCount s1.root < n)
    {links : List (St E × (Nat → St E → St E) × T.Link)} {states : List (St E)} (hrec : Each (ReceivedFaulty cx σ sent) links states)
    {f : St E} (hf : Faulty cx.sec σ f) :
    ∃ k f', recvStream cx.sec fuel n links f = .ok ((matching (fun _ _ => true) 0 ((c ++ xs.map some).take k)).map .ok) f' := by
  obtain ⟨h1, h2, h3⟩ := hx.contains ok hr hs hc
  obtain ⟨contents, k1, k2⟩ := recvTrees_faulty ok h3 hlv hrec
  have hlen := (Contains.count ok h2 hs h1).2
  have hmax := maxElements_lt
  obtain ⟨chunks, f', k, e1, e2, _⟩ := C31_noticed_partial ok (covers := fun _ _ => True) ⟨fun _ _ _ => trivial, fun _ _ _ _ _ => trivial⟩ C13_all
    (fun _ => ()) k1 _ k2 0 (2 ^ 64 - 1) hf
  refine ⟨k, f', ?_⟩
  unfold recvStream streamTrees
  rw [bind_apply, e1]
  rw [take_of_matching (by omega)] at e2
  rw [← e2, ← flattenChunks_ok]
  rfl

/-- The root of a tree without purged elements has a link; it is a branch if the elements do not fit into one leaf. -/
theorem root_of_present (ok : cx.Ok) (hr : Steady cx s) (hs : Small E s) {zs : List (T.Key × V)} (hz : zs ≠ []) (hc : Contains cx s (zs.map some)) :
    (∃ l, rootLink s.root = some l) ∧ (cx.cfg.maxLeafCount < zs.length → 0 < rootLevel s.root) := by
  obtain ⟨t, hi⟩ := hr.inv ok.env ok.types ok.cfg withinInv_rewrites hs
  rw [hi.holds.contains ok.env ok.types] at hc
  cases t with
  | none => cases zs with | nil => exact absurd rfl hz | cons z zs => cases hc
  | some t =>
    have hg := hi.holds.good t rfl
    have hroot := hi.holds.root
    have hcc : t.content = zs.map some := hc.symm
    have hnp := noPurge_of_content hg.wf hcc
    have hlen : t.content.length = t.index.count := content_length ok.types hg.counts
    rw [hcc, List.length_map] at hlen
    rw [hroot]
    obtain ⟨g1, g2, g3⟩ := hg t (self_mem_nodes t)
    cases t with
    | leaf i vs =>
      obtain ⟨l, _, _, hl, _⟩ := g1
      refine ⟨⟨l, hl⟩, fun h => ?_⟩
      have h4 : vs.length ≤ cx.cfg.maxLeafCount := g3.1
      have h5 : T.keys.len i.keys = vs.length := g2.1
      have h6 : (PTree.leaf i vs : PTree T V).index.count = T.keys.len i.keys := rfl
      omega
    | branch i cs =>
      obtain ⟨l, _, hl, _⟩ := g1
      refine ⟨⟨l, hl⟩, fun _ => ?_⟩
      cases cs with
      | nil => exact absurd rfl g2.1
      | cons c cs => exact Nat.lt_of_le_of_lt (Nat.zero_le _) (g2.2.1 c (by simp))
    | purgedLeaf i => exact absurd hnp (by simp [NoPurge])
    | purgedBranch i => exact absurd hnp (by simp [NoPurge])

theorem Sends.published (ok : cx.Ok) {xs : List (T.Key × V)} {sent : List (T.Link × St E)} (hx : Sends cx s xs sent s') (hr : Steady cx s)
    (hs : Small E s') {ys : List (T.Key × V)} (hc : Contains cx s (ys.map some)) :
    sent.length = xs.length ∧ ∀ i l s1, sent[i]? = some (l, s1) → Contains cx s1 ((ys ++ xs.take (i + 1)).map some) ∧
      rootCount s1.root = ys.length + (i + 1) ∧ (cx.cfg.maxLeafCount < packAbove → IsTree s1) := by
  induction hx generalizing ys with
  | done s => exact ⟨rfl, fun i l s1 h => by simp at h⟩
  | @tick s s1 s' l xs sent fuel x hf hn he hx ih =>
    have hs1 : Small E s1 := hx.small ok.env hs
    have hr0 : Reach cx s := hr.reach ok.cfg
    obtain ⟨k1, k2, _, k3, k4, _⟩ := sendTick_spec ok hr0 hf hn he hs1
    have hst : Steady cx s1 := hr.run k1
    have hc1 : Contains cx s1 ((ys ++ [x]).map some) := by simpa using k3 _ hc
    obtain ⟨⟨l0, hl0⟩, hb⟩ := root_of_present ok hst hs1 (by simp) hc1
    rw [hl0] at k2
    subst k2
    obtain ⟨i1, i2⟩ := ih hst hs hc1
    have hcount := (Contains.count ok (hst.reach ok.cfg) hs1 hc1).1
    rw [List.length_map, List.length_append, List.length_singleton] at hcount
    refine ⟨by simp [i1], fun i l s2 h => ?_⟩
    cases i with
    | zero =>
      simp only [Option.map_some, Option.toList_some, List.singleton_append, List.getElem?_cons_zero, Option.some.injEq, Prod.mk.injEq] at h
      obtain ⟨rfl, rfl⟩ := h
      refine ⟨by simpa using hc1, by omega, fun hm => ?_⟩
      rcases k4 with k4 | k4
      · exact k4
      · exact hb (by rw [List.length_append, List.length_singleton]; omega)
    | succ i =>
      simp only [Option.map_some, Option.toList_some, List.singleton_append, List.getElem?_cons_succ] at h
      obtain ⟨j1, j2, j3⟩ := i2 i l s2 h
      refine ⟨by simpa using j1, ?_, j3⟩
      rw [j2, List.length_append, List.length_singleton]
      omega
  | @world s s' xs sent σ γ h1 h2 hx ih =>
    have hsm := hx.small ok.env hs
    obtain ⟨t, hi⟩ := ok.inv (hr.reach ok.cfg) hsm
    have hh : HoldsI (NodeInv.trivial cx) { s with store := σ, cache := γ } t := ⟨hi.holds.root, h2, fun t' ht => (hi.holds.good t' ht).mono h1⟩
    refine ih (hr.run (.world σ γ (.refl s) h1 h2)) hs ?_
    rw [hh.contains ok.env ok.types]
    exact (hi.holds.contains ok.env ok.types).mp hc

theorem matching_withOffsets (xs : List (T.Key × V)) : matching (fun _ _ => true) 0 (xs.map some) = withOffsets xs := by
  have h : ∀ o, matching (fun _ _ => true) o (xs.map some) = (xs.zipIdx o).map fun (x, o) => (o, x.1, x.2) := by
    induction xs with
    | nil => intro o; rfl
    | cons x xs ih =>
      intro o
      rw [List.map_cons, matching, if_pos rfl, ih, List.zipIdx_cons, List.map_cons]
  exact h 0

/-- C72: every turn of a sender that starts with an empty tree publishes a link. It is the link of a tree with the elements sent so
far. If the elements of a tree that gets packed do not fit into one leaf, then its root is a branch, so that the tree can be loaded. -/
theorem C72_published (ok : cx.Ok) (h0 : s.root = none) (hco : Coherent E cx.sec s) {xs : List (T.Key × V)} {sent : List (T.Link × St E)}
    (hx : Sends cx s xs sent s') (hs : Small E s') :
    sent.length = xs.length ∧ ∀ i l s1, sent[i]? = some (l, s1) → rootLink s1.root = some l ∧ Contains cx s1 ((xs.take (i + 1)).map some) ∧
      rootCount s1.root = i + 1 ∧ (cx.cfg.maxLeafCount < packAbove → IsTree s1) := by
  have hst : Steady cx s := Steady.fresh s h0 hco
  have hc : Contains cx s (([] : List (T.Key × V)).map some) := contains_start ok h0 hco
  obtain ⟨h1, h2⟩ := hx.published ok hst hs hc
  obtain ⟨_, _, h3⟩ := hx.contains ok (hst.reach ok.cfg) hs hc
  refine ⟨h1, fun i l s1 h => ?_⟩
  obtain ⟨k1, k2, k3⟩ := h2 i l s1 h
  obtain ⟨_, _, k4, _⟩ := h3 l s1 (List.mem_of_getElem? h)
  exact ⟨k4, by simpa using k1, by simpa using k2, k3⟩

/-- C72: only after packing the published link can be the link of a leaf. The next one is the link of a branch. -/
theorem C72_next (ok : cx.Ok) (hr : Reach cx s) (hleaf : ¬ IsTree s) {fuel : Nat} {x : T.Key × V} (hf : 4 ≤ fuel)
    (hn : rootCount s.root + 1 ≤ maxElements) {l : Option T.Link} (he : sendTick cx fuel x s = .ok l s') (hs : Small E s') : IsTree s' := by
  unfold IsTree at hleaf
  have h0 : rootLevel s.root = 0 := by omega
  exact (sendTick_spec ok hr (by omega) hn he hs).2.2.2.2.2 (by unfold packAbove; omega)

/-- C72: if the link that was sent last has arrived, then all elements that were sent have been delivered, each once
and in order. Which other links arrive does not matter. -/
theorem C72_complete (ok : cx.Ok) (h0 : s.root = none) (hco : Coherent E cx.sec s) {xs : List (T.Key × V)} {sent : List (T.Link × St E)}
    (hx : Sends cx s xs sent s') (hs : Small E s')
    (hlv : ∀ l s1, (l, s1) ∈ sent → (IsTree s1 ∨ NotATree cx.sec hi l) ∧ 2 * rootLevel s1.root + 4 ≤ fuel ∧ rootCount s1.root < n)
    {links : List (St E × (Nat → St E → St E) × T.Link)} {states : List (St E)} (hrec : Each (Received cx lo hi sent) links states)
    {l : T.Link} {s1 : St E} (hlast : sent.getLast? = some (l, s1)) (hmem : s1 ∈ states) (htree : IsTree s1) {f : St E} (hf : Between cx.sec lo hi f) :
    ∃ f', recvStream cx.sec fuel n links f = .ok ((withOffsets xs).map .ok) f' := by
  have hst : Steady cx s := Steady.fresh s h0 hco
  obtain ⟨f', h1⟩ := C72_received ok (hst.reach ok.cfg) (contains_start ok h0 hco) hx hs hlv hrec hf
  obtain ⟨h2, h3⟩ := C72_published ok h0 hco hx hs
  have hne : xs ≠ [] := by
    intro h
    rw [h, List.length_nil] at h2
    rw [List.eq_nil_of_length_eq_zero h2] at hlast
    cases hlast
  have hpos := List.length_pos_iff.mpr hne
  have hc : rootCount s1.root = xs.length := by
    rw [List.getLast?_eq_getElem?] at hlast
    rw [(h3 _ l s1 hlast).2.2.1, h2]
    omega
  have hk : xs.length ≤ ((states.filter fun s1 => IsTree s1).map fun s1 => rootCount s1.root).foldr max 0 := by
    rw [← hc]
    have hmem : s1 ∈ states.filter fun s1 => IsTree s1 := List.mem_filter.mpr ⟨hmem, by simpa using htree⟩
    clear hrec h1
    generalize (states.filter fun s1 => IsTree s1) = states at hmem ⊢
    induction states with
    | nil => cases hmem
    | cons a states ih =>
      rw [List.map_cons, List.foldr_cons]
      rcases List.mem_cons.mp hmem with rfl | hm
      · exact Nat.le_max_left _ _
      · exact Nat.le_trans (ih hm) (Nat.le_max_right _ _)
  refine ⟨f', ?_⟩
  rw [h1, List.nil_append, List.take_of_length_le (by rw [List.length_map]; exact hk), matching_withOffsets]

/-! ### examples -/

/-- The state after a number of turns. -/
def sender : Nat → St env
  | 0 => start 100
  | n + 1 => endState (sendTick (ctx tiny) 20 (n, 10 * n)) (sender n)

/-- The link published in a turn. -/
def sendLink (n : Nat) : Option Nat := (valueOf (sendTick (ctx tiny) 20 (n, 10 * n)) (sender n)).join

theorem tick_of {n l : Nat} (h : sendLink n = some l) : sendTick (ctx tiny) 20 (n, 10 * n) (sender n) = .ok (some l) (sender (n + 1)) :=
  value_of (Option.join_eq_some_iff.mp h)

def sent3 : List (Nat × St env) := [(1, sender 1), (4, sender 2), (7, sender 3)]

theorem Sends.next {cx : Ctx E} {s s1 s' : St E} {fuel : Nat} {x : T.Key × V} {l : T.Link} {xs : List (T.Key × V)} {sent : List (T.Link × St E)}
    (h1 : rootLevel s.root + 4 ≤ fuel) (h2 : rootCount s.root + 1 ≤ maxElements) (h3 : sendTick cx fuel x s = .ok (some l) s1)
    (h : Sends cx s1 xs sent s') : Sends cx s (x :: xs) ((l, s1) :: sent) s' :=
  .tick fuel x h1 h2 h3 h

theorem send_step {n l : Nat} {xs : List (types.Key × Nat)} {sent : List (types.Link × St env)} {s' : St env} (h1 : rootLevel (sender n).root + 4 ≤ 20)
    (h2 : rootCount (sender n).root + 1 ≤ maxElements) (h3 : sendLink n = some l) (h : Sends (ctx tiny) (sender (n + 1)) xs sent s') :
    Sends (ctx tiny) (sender n) ((n, 10 * n) :: xs) ((l, sender (n + 1)) :: sent) s' :=
  Sends.next (fuel := 20) h1 h2 (tick_of h3) h

theorem sends3 : Sends (ctx tiny) (sender 0) (seq 0 3) sent3 (sender 3) :=
  send_step (by decide +kernel) (by decide +kernel) (by decide +kernel)
    (send_step (by decide +kernel) (by decide +kernel) (by decide +kernel)
      (send_step (by decide +kernel) (by decide +kernel) (by decide +kernel) (.done (sender 3))))

theorem sender_small : Small env (sender 3) := small_of (by decide +kernel)

theorem sent3_levels (l : Nat) (s1 : St env) (h : (l, s1) ∈ sent3) :
    (IsTree s1 ∨ NotATree (ctx tiny).sec (sender 3).store l) ∧ 2 * rootLevel s1.root + 4 ≤ 20 ∧ rootCount s1.root < 20 := by
  have key : IsTree s1 ∧ 2 * rootLevel s1.root + 4 ≤ 20 ∧ rootCount s1.root < 20 := by
    simp only [sent3, List.mem_cons, List.not_mem_nil, or_false, Prod.mk.injEq] at h
    rcases h with ⟨_, rfl⟩ | ⟨_, rfl⟩ | ⟨_, rfl⟩ <;> decide +kernel
  exact ⟨.inl key.1, key.2⟩

theorem sender_le (n : Nat) (h : (sender n).store.blocks <+: (sender 3).store.blocks) : StoreLe env (sender n).store (sender 3).store := storeLe_of_prefix h

theorem received3 {l n : Nat} (h1 : (l, sender n) ∈ sent3) (h2 : (sender n).store.blocks <+: (sender 3).store.blocks) :
    Received (ctx tiny) (sender 3).store (sender 3).store sent3 (sender 3, idle, l) (sender n) :=
  ⟨h1, sender_le n h2, fun _ _ h => h, fun _ _ h => ⟨h, fun _ _ hg => h.lo _ _ (sender_le n h2 _ _ hg)⟩⟩

theorem start_coherent : Coherent env (ctx tiny).sec (start 100) := by intro l b h; cases h

theorem sender_between : Between (ctx tiny).sec (sender 3).store (sender 3).store { sender 3 with cache := (start 100).cache } :=
  ⟨fun _ _ h => h, fun _ _ h => h, by intro l b h; cases h⟩

/-- The links arrive in the wrong order, the second one not at all. -/
example : ∃ f', recvStream (ctx tiny).sec 20 20 [(sender 3, idle, (7 : Nat)), (sender 3, idle, (1 : Nat))] { sender 3 with cache := (start 100).cache } =
    .ok ([((0 : Nat), (0 : Nat), (0 : Nat)), (1, 1, 10), (2, 2, 20)].map .ok) f' :=
  C72_complete (cx := ctx tiny) (s := sender 0) tiny_ok rfl start_coherent sends3 sender_small sent3_levels
    (states := [sender 3, sender 1]) (links := [(sender 3, idle, (7 : Nat)), (sender 3, idle, (1 : Nat))])
    ⟨received3 (by simp [sent3]) (List.prefix_refl _), received3 (by simp [sent3]) (by decide +kernel), trivial⟩
    (l := (7 : Nat)) rfl (by simp) (by decide +kernel) sender_between

/-- Only the first two links arrive. -/
example : ∃ f', recvStream (ctx tiny).sec 20 20 [(sender 3, idle, (4 : Nat)), (sender 3, idle, (1 : Nat))] { sender 3 with cache := (start 100).cache } =
    .ok ([((0 : Nat), (0 : Nat), (0 : Nat)), (1, 1, 10)].map .ok) f' := by
  have h := C72_received (cx := ctx tiny) (s := sender 0) tiny_ok (Reach.fresh _ rfl start_coherent) (contains_start tiny_ok rfl start_coherent)
    sends3 sender_small sent3_levels (states := [sender 2, sender 1]) (links := [(sender 3, idle, (4 : Nat)), (sender 3, idle, (1 : Nat))])
    ⟨received3 (by simp [sent3]) (by decide +kernel), received3 (by simp [sent3]) (by decide +kernel), trivial⟩ sender_between
  have h2 : ((([sender 2, sender 1] : List (St env)).filter fun s1 => IsTree s1).map fun s1 => rootCount s1.root).foldr max 0 = 2 := by decide +kernel
  rw [h2] at h
  exact h

/-- The block of the second element cannot be read. -/
example : ∃ k f', recvStream (ctx tiny).sec 20 20 [(sender 3, lose [2] (sender 3).store, (7 : Nat))] (hole [2] { sender 3 with cache := (start 100).cache }) =
    .ok ((matching (fun _ _ => true) 0 (((seq 0 3).map some).take k)).map .ok) f' :=
  C72_faulty (cx := ctx tiny) (s := sender 0) tiny_ok (Reach.fresh _ rfl start_coherent) (contains_start tiny_ok rfl start_coherent)
    sends3 sender_small sent3_levels (states := [sender 3]) (σ := (sender 3).store) (links := [(sender 3, lose [2] (sender 3).store, (7 : Nat))])
    ⟨⟨List.mem_cons_of_mem _ (List.mem_cons_of_mem _ List.mem_cons_self), fun _ _ h => h, fun _ _ h => h, lose_tolerable tiny _ _⟩, trivial⟩ (hole_faulty tiny _ _)

end Banyan
