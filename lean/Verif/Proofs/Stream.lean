import Verif.Proofs.Damage
import Verif.Spec.Stream
import Verif.Props.Query
/-
Streams.
-/
set_option autoImplicit false
namespace Banyan

open PTree

variable {T : TreeTypes} {V : Type} {E : Env T V} {X : Type} {cx : Ctx E} {sec : Secrets E} {σ : E.σ} {q : Query T} {mkExtra : Index T → X} {L : Nat}

/-! ### consecutive chunks -/

theorem consecutive_le {o e : Nat} {l : List (Chunk T V X)} (h : Consecutive o l e) : o ≤ e := by
  have := consecutive_length h
  omega

theorem consecutive_split {o e : Nat} {a b : List (Chunk T V X)} (h : Consecutive o (a ++ b) e) : ∃ x, Consecutive o a x ∧ Consecutive x b e := by
  induction a generalizing o with
  | nil => exact ⟨o, rfl, h⟩
  | cons ch a ih =>
    obtain ⟨x, h1, h2⟩ := ih h.2.2
    exact ⟨x, ⟨h.1, h.2.1, h1⟩, h2⟩

/-- The data of a chunk is in its range. -/
def Confined (ch : Chunk T V X) : Prop := ∀ y ∈ ch.data, ch.range.1 ≤ y.1 ∧ y.1 < ch.range.2

theorem chunksOf_confined (ht : T.Lawful) {t : PTree T V} (hk : IterOk t) (o : Nat) : ∀ ch ∈ chunksOf q mkExtra t o, Confined ch := by
  intro ch hch y hy
  obtain ⟨h1, h2, h3⟩ := chunksOf_chunkOf ht t hk o ch hch
  have := matching_bounds _ _ _ y (h3.subset hy)
  refine ⟨this.1, ?_⟩
  have h4 := this.2
  rw [List.length_take, List.length_drop] at h4
  omega

theorem data_bounds {o e : Nat} {l : List (Chunk T V X)} (h : Consecutive o l e) (hc : ∀ ch ∈ l, Confined ch) :
    ∀ y ∈ l.flatMap Chunk.data, o ≤ y.1 ∧ y.1 < e := by
  induction l generalizing o with
  | nil => intro y hy; cases hy
  | cons ch l ih =>
    intro y hy
    rw [List.flatMap_cons, List.mem_append] at hy
    have hle := consecutive_le h.2.2
    rcases hy with hy | hy
    · have := hc ch (by simp) y hy
      have h1 := h.1
      omega
    · have := ih h.2.2 (fun ch' h' => hc ch' (List.mem_cons_of_mem _ h')) y hy
      have h1 := h.1
      have h2 := h.2.1
      omega

/-- The data of the first chunks is the data with small offsets. -/
theorem data_prefix {o x e : Nat} {a b : List (Chunk T V X)} (h1 : Consecutive o a x) (h2 : Consecutive x b e) (hc : ∀ ch ∈ a ++ b, Confined ch) :
    a.flatMap Chunk.data = ((a ++ b).flatMap Chunk.data).filter fun y => decide (y.1 < x) := by
  have ha := data_bounds h1 fun ch h => hc ch (List.mem_append_left _ h)
  have hb := data_bounds h2 fun ch h => hc ch (List.mem_append_right _ h)
  rw [List.flatMap_append, List.filter_append, List.filter_eq_self.mpr, List.filter_eq_nil_iff.mpr, List.append_nil]
  · intro y hy; have := hb y hy; simp only [decide_eq_true_eq]; omega
  · intro y hy; have := ha y hy; simp only [decide_eq_true_eq]; omega

theorem matching_filter (m p : Nat → T.Key → Bool) (o : Nat) (c : List (Option (T.Key × V))) :
    matching (fun n k => p n k && m n k) o c = (matching m o c).filter fun y => p y.1 y.2.1 := by
  induction c generalizing o with
  | nil => rfl
  | cons x c ih =>
    cases x with
    | none => exact ih (o + 1)
    | some kv =>
      obtain ⟨k, v⟩ := kv
      simp only [matching]
      rw [ih]
      by_cases hm : m o k = true <;> by_cases hp : p o k = true <;> simp [hm, hp]

theorem matching_congr {m m' : Nat → T.Key → Bool} {o : Nat} {c : List (Option (T.Key × V))}
    (h : ∀ n k, o ≤ n → n < o + c.length → m n k = m' n k) : matching m o c = matching m' o c := by
  induction c generalizing o with
  | nil => rfl
  | cons x c ih =>
    have ih := ih (o := o + 1) fun n k h1 h2 => h n k (by omega) (by simp only [List.length_cons]; omega)
    cases x with
    | none => exact ih
    | some kv =>
      obtain ⟨k, v⟩ := kv
      simp only [matching]
      rw [ih, h o k (Nat.le_refl _) (by simp only [List.length_cons]; omega)]

/-- Two adjacent ranges. -/
theorem matching_join (m : Nat → T.Key → Bool) {a b d : Nat} (hab : a ≤ b) (hbd : b ≤ d) (o : Nat) (c : List (Option (T.Key × V))) :
    matching (fun n k => decide (a ≤ n ∧ n < b) && m n k) o c ++ matching (fun n k => decide (b ≤ n ∧ n < d) && m n k) o c =
      matching (fun n k => decide (a ≤ n ∧ n < d) && m n k) o c := by
  induction c generalizing o with
  | nil => rfl
  | cons x c ih =>
    cases x with
    | none => exact ih (o + 1)
    | some kv =>
      obtain ⟨k, v⟩ := kv
      simp only [matching]
      by_cases hm : m o k = true
      case neg => simpa [hm] using ih (o + 1)
      case pos =>
        simp only [hm, Bool.and_true, decide_eq_true_eq]
        by_cases h1 : a ≤ o ∧ o < b
        · rw [if_pos h1, if_neg (by omega), if_pos (by omega), List.cons_append, ih]
        · rw [if_neg h1]
          by_cases h2 : b ≤ o ∧ o < d
          · have h3 : matching (fun n k => decide (a ≤ n ∧ n < b) && m n k) (o + 1) c = [] :=
              matching_none _ _ _ fun j k' v' _ => by
                rw [Bool.and_eq_false_iff]
                left
                simp only [decide_eq_false_iff_not]
                omega
            rw [if_pos h2, if_pos (by omega), ← ih, h3]
            rfl
          · rw [if_neg h2, if_neg (by omega), ih]

/-! ### one tree -/

theorem Between.cached {lo hi : E.σ} {s : St E} (h : Between sec lo hi s) {c : E.γ} (hc : Coherent E sec { s with cache := c }) :
    Between sec lo hi { s with cache := c } := ⟨h.lo, h.hi, hc⟩

theorem streamTree_spec (h : E.Lawful) (ht : T.Lawful) {world : Nat → St E → St E} {lo hi : E.σ} (hw : Provides sec lo hi σ world) {fuel stop : Nat}
    (hfu : 2 * L + 4 ≤ fuel) (n : Nat) {it : IterState T} {rem : List (Chunk T V X)} {o e start : Nat} {s : St E} (hco : Between sec lo hi s)
    (hl : Live sec σ q mkExtra L .forward it rem) (hc : Consecutive o rem e) (ho : o ≤ stop) (hos : o ≤ start) (hn : rem.length < n) :
    ∃ j x te s', streamTree world sec q mkExtra fuel stop n it start s = .ok ((rem.take j).map .ok, max start x, te) s' ∧ Between sec lo hi s' ∧
      Consecutive o (rem.take j) x ∧ ((te = .stop ∧ stop < x) ∨ (te = .next ∧ x ≤ stop ∧ rem.take j = rem)) := by
  induction n generalizing it rem o start s with
  | zero => omega
  | succ n ih =>
    obtain ⟨w1, w2⟩ := hw n s hco
    have hmod : (modify (world n) : M E Unit) s = .ok () (world n s) := rfl
    rcases iterNext_live h ht w2 w1.coherent hl hfu with ⟨h1, it', ⟨c, hc', hr⟩⟩ | ⟨ch, rem', it', ⟨c, hc', hr⟩, h2, h3⟩
    · subst h1
      refine ⟨0, o, .next, { (world n s) with cache := c }, ?_, w1.cached hc', rfl, .inr ⟨rfl, ho, rfl⟩⟩
      unfold streamTree
      rw [bind_apply, hmod]
      simp only
      rw [bind_apply, hr, Nat.max_eq_left hos]
      rfl
    · subst h2
      by_cases hstop : ch.range.2 > stop
      · refine ⟨1, ch.range.2, .stop, { (world n s) with cache := c }, ?_, w1.cached hc', ⟨hc.1, hc.2.1, rfl⟩, .inl ⟨rfl, hstop⟩⟩
        unfold streamTree
        rw [bind_apply, hmod]
        simp only
        rw [bind_apply, hr]
        simp only
        rw [if_pos hstop]
        rfl
      · have hpos := hc.1
        have hpos2 := hc.2.1
        obtain ⟨j, x, te, s', g1, g2, g3, g4⟩ := ih (start := max start ch.range.2) (w1.cached hc') h3 hc.2.2 (by omega) (Nat.le_max_right _ _) (by simpa using hn)
        have hx := consecutive_le g3
        refine ⟨j + 1, x, te, s', ?_, g2, ⟨hc.1, hc.2.1, g3⟩, ?_⟩
        · unfold streamTree
          rw [bind_apply, hmod]
          simp only
          rw [bind_apply, hr]
          simp only
          rw [if_neg hstop, bind_apply, g1]
          simp only
          rw [Nat.max_assoc, Nat.max_eq_right hx]
          rfl
        · rcases g4 with g4 | ⟨g5, g6, g7⟩
          · exact .inl g4
          · exact .inr ⟨g5, g6, by rw [List.take_succ_cons, g7]⟩

theorem streamTree_faulty (h : E.Lawful) (ht : T.Lawful) {world : Nat → St E → St E} (hw : Tolerable sec σ world) {fuel stop : Nat}
    (hfu : 2 * L + 4 ≤ fuel) (n : Nat) {it : IterState T} {rem : List (Chunk T V X)} {o e start : Nat} {s : St E} (hf : Faulty sec σ s)
    (hl : Live sec σ q mkExtra L .forward it rem) (hc : Consecutive o rem e) (ho : o ≤ stop) (hos : o ≤ start) (hn : rem.length < n) :
    ∃ j x te s', streamTree world sec q mkExtra fuel stop n it start s = .ok ((rem.take j).map .ok, max start x, te) s' ∧ Faulty sec σ s' ∧
      Consecutive o (rem.take j) x ∧ ((te = .stop ∧ stop < x) ∨ (te = .next ∧ x ≤ stop)) := by
  induction n generalizing it rem o start s with
  | zero => omega
  | succ n ih =>
    have w := hw n s hf
    have hmod : (modify (world n) : M E Unit) s = .ok () (world n s) := rfl
    rcases iterNext_faulty h ht w hl hfu with ⟨msg, s', g1, g2, _⟩ | ⟨h1, it', s', g1, g2⟩ |
      ⟨ch, rem', it', s1, h1, h1', h2, h3⟩
    · refine ⟨0, o, .next, s', ?_, g2, rfl, .inr ⟨rfl, ho⟩⟩
      unfold streamTree
      rw [bind_apply, hmod]
      simp only
      rw [bind_apply, g1, Nat.max_eq_left hos]
      rfl
    · refine ⟨0, o, .next, s', ?_, g2, rfl, .inr ⟨rfl, ho⟩⟩
      unfold streamTree
      rw [bind_apply, hmod]
      simp only
      rw [bind_apply, g1, Nat.max_eq_left hos]
      rfl
    · subst h2
      by_cases hstop : ch.range.2 > stop
      · refine ⟨1, ch.range.2, .stop, s1, ?_, h1', ⟨hc.1, hc.2.1, rfl⟩, .inl ⟨rfl, hstop⟩⟩
        unfold streamTree
        rw [bind_apply, hmod]
        simp only
        rw [bind_apply, h1]
        simp only
        rw [if_pos hstop]
        rfl
      · have hpos := hc.1
        have hpos2 := hc.2.1
        obtain ⟨j, x, te, s', g1, g2, g3, g4⟩ := ih (start := max start ch.range.2) h1' h3 hc.2.2 (by omega) (Nat.le_max_right _ _) (by simpa using hn)
        have hx := consecutive_le g3
        refine ⟨j + 1, x, te, s', ?_, g2, ⟨hc.1, hc.2.1, g3⟩, g4⟩
        unfold streamTree
        rw [bind_apply, hmod]
        simp only
        rw [bind_apply, h1]
        simp only
        rw [if_neg hstop, bind_apply, g1]
        simp only
        rw [Nat.max_assoc, Nat.max_eq_right hx]
        rfl

/-! ### many trees -/

theorem Consecutive.unique {o x y : Nat} {l : List (Chunk T V X)} (h1 : Consecutive o l x) (h2 : Consecutive o l y) : x = y := by
  induction l generalizing o with
  | nil => cases h1; exact h2
  | cons ch l ih => exact ih h1.2.2 h2.2.2

theorem consecutive_range {o x : Nat} {l : List (Chunk T V X)} (h : Consecutive o l x) : ∀ ch ∈ l, ch.range.2 ≤ x := by
  induction l generalizing o with
  | nil => intro ch hch; cases hch
  | cons c l ih =>
    intro ch hch
    rcases List.mem_cons.mp hch with rfl | hch
    · exact consecutive_le h.2.2
    · exact ih h.2.2 ch hch

theorem inRange_queryFor {covers : T.Summary → T.Key → Prop} {m : Nat → T.Key → Bool} (hq : QueryFor q covers m) (start stop : Nat) :
    QueryFor (andQuery (offsetRangeQuery (RangeB.closed start stop)) q) covers (inRange m start stop) :=
  C13_and (C14_offset_range _ (fun o _ => decide (start ≤ o ∧ o ≤ stop)) (by simp [RangeB.Mem, RangeB.closed])) hq

/-- Streaming goes on with the other trees unless the end has been reached. -/
theorem stream_rest {fuel n stop start x : Nat} {world : Nat → St E → St E} {i : Index T} {chunks : List (Except String (Chunk T V X))} {te : TreeEnd} {s s' : St E} {z}
    (h1 : streamTree world sec (andQuery (offsetRangeQuery (RangeB.closed start stop)) q) mkExtra fuel stop n (IterState.new .forward i) start s =
      .ok (chunks, max start x, te) s')
    (h2 : (te = .stop ∧ stop < x) ∨ (te = .next ∧ x ≤ stop)) (rest : List (Arrival E)) :
    streamTreesChunked q mkExtra fuel n stop ((world, some (i, sec, z)) :: rest) start s = if stop < x then .ok chunks s' else
      (streamTreesChunked q mkExtra fuel n stop rest (max start x) >>= fun r => pure (chunks ++ r)) s' := by
  conv => lhs; unfold streamTreesChunked
  simp only
  rw [bind_apply, h1]
  rcases h2 with ⟨rfl, h2⟩ | ⟨rfl, h2⟩
  · rw [if_pos h2]; rfl
  · rw [if_neg (by omega)]

/-- What is delivered from one tree: the elements before `x`. -/
theorem delivered (ht : T.Lawful) {covers : T.Summary → T.Key → Prop} {m : Nat → T.Key → Bool} (hcov : Covering T covers) (hq : QueryFor q covers m)
    {t : PTree T V} (hw : Formed t) {j x : Nat} (hx : Consecutive 0 ((chunksOf q mkExtra t 0).take j) x) :
    x ≤ t.content.length ∧
    ((chunksOf q mkExtra t 0).take j).flatMap Chunk.data = matching (fun o k => decide (o < x) && m o k) 0 t.content := by
  have hc := chunksOf_consecutive (q := q) (mkExtra := mkExtra) t (hw.iterOk ht)
    (fun n hn => Formed.count_pos (fun m hm => hw m (PTree.nodes_trans hn hm))) 0
  rw [← List.take_append_drop j (chunksOf q mkExtra t 0), Nat.zero_add] at hc
  obtain ⟨x', h1, h2⟩ := consecutive_split hc
  cases h1.unique hx
  have hle := consecutive_le h2
  have hlen : t.content.length = t.index.count := content_length ht hw.counts
  refine ⟨by omega, ?_⟩
  rw [data_prefix h1 h2 (by rw [List.take_append_drop]; exact chunksOf_confined ht (hw.iterOk ht) 0), List.take_append_drop,
    chunksOf_matching ht hcov hq t hw 0, matching_filter m (fun o _ => decide (o < x))]

/-- Loading the root of a tree by its link gives a tree that can be read, or fails if the block is not there. -/
theorem loadTree_spec (ok : cx.Ok) {s w : St E} (hr : Reach cx s) (hs : Small E s) {i : BranchIndex T} {l : T.Link}
    (hi : s.root = some (.branch i)) (hl : i.link = some l) (hle : StoreLe E s.store σ) (hlw : StoreLe E w.store σ) :
    ∃ t o, (loadTree cx.sec l w = .ok (some (t.index, cx.sec, o)) w ∨
        ((∀ b, E.get w.store l ≠ .ok b) ∧ ∃ msg, loadTree cx.sec l w = .error (.fail msg) w)) ∧ (∃ b, E.get s.store l = .ok b) ∧ (∀ c, Contains cx s c → c = t.content) ∧ t.index.level = rootLevel s.root ∧
      Stored E cx.sec s.store t ∧ Formed t := by
  obtain ⟨t, hinv⟩ := ok.inv hr hs
  obtain ⟨cs, rfl⟩ := hinv.branch hi hl
  have hg := hinv.holds.good _ rfl
  obtain ⟨bytes, r, hb, h1⟩ := createIndex_spec (hg.mono hle) hl (fun _ _ => true)
  obtain ⟨bytes', _, hb', _⟩ := createIndex_spec hg hl (fun _ _ => true)
  refine ⟨.branch { i with keyBytes := (cs.map fun c => c.index.keyBytes).sum + bytes.length, isSealed := true } cs, r.2, ?_, ⟨bytes', hb'⟩,
    fun c hc => (hinv.holds.contains ok.env ok.types).mp hc, by rw [hi]; rfl, ?_, ?_⟩
  · cases hw : E.get w.store l with
    | error e =>
      right
      refine ⟨(fun b hb => by cases hb), ?_⟩
      unfold loadTree createIndexFromLink getBlock
      rw [hw]
      exact ⟨_, rfl⟩
    | ok b =>
      left
      have hbb := hlw l b hw
      rw [hb] at hbb
      cases hbb
      unfold loadTree
      have : createIndexFromLink E cx.sec (fun _ _ => true) w.store l = createIndexFromLink E cx.sec (fun _ _ => true) σ l := by
        unfold createIndexFromLink getBlock
        rw [hw, hb]
      rw [this, h1]
      rfl
  · rw [Stored, all_branch]
    have := hg.stored
    rw [Stored, all_branch] at this
    exact this
  · rw [Formed, all_branch]
    have := hg.wf.formed
    rw [Formed, all_branch] at this
    exact this

/-- The tree behind an arrival. -/
theorem Feed.tree_cases (ok : cx.Ok) {fuel n : Nat} {a : Arrival E} {c : List (Option (T.Key × V))} {s : St E} (hf : Feed cx fuel n a c s) :
    (a = (a.1, none) ∧ c = []) ∨ ∃ t o, a = (a.1, some (t.index, cx.sec, o)) ∧ c = t.content ∧ Stored E cx.sec s.store t ∧ Formed t ∧
      2 * t.index.level + 4 ≤ fuel := by
  obtain ⟨t, hi⟩ := ok.inv hf.reach hf.small
  have hc := hf.contains
  rw [hi.holds.contains ok.env ok.types] at hc
  have hsn := hi.holds.snap
  have hroot := hsn.root
  rcases hf.tree with htr | ⟨i, l, w, σ, h1, h2, h3, h3', h4⟩
  · unfold snapshot at htr
    rw [hroot] at htr
    cases t with
    | none =>
      left
      exact ⟨Prod.ext rfl htr, hc⟩
    | some t =>
      right
      have hfu := hf.fuel
      rw [hsn.level] at hfu
      exact ⟨t, s.offset, Prod.ext rfl htr, hc, hsn.stored t rfl, (hsn.wf t rfl).formed, hfu⟩
  · right
    obtain ⟨t', o, g2, _, g3, g4, g5, g6⟩ := loadTree_spec ok hf.reach hf.small h1 h2 h3 h3'
    have g2 : loadTree cx.sec l w = .ok (some (t'.index, cx.sec, o)) w := by
      rcases g2 with g2 | ⟨_, msg, g2⟩
      · exact g2
      · rw [g2] at h4; cases h4
    rw [g2] at h4
    injection h4 with h4
    have hfu := hf.fuel
    exact ⟨t', o, Prod.ext rfl h4.symm, g3 _ hf.contains, g5, g6, by omega⟩

/-- Streaming from a store that has the blocks for the query. -/
theorem stream_cons_for (ok : cx.Ok) {covers : T.Summary → T.Key → Prop} {m : Nat → T.Key → Bool} (hcov : Covering T covers) (hq : QueryFor q covers m)
    {fuel n : Nat} {a : Arrival E} {c : List (Option (T.Key × V))} {lo hi : E.σ} (start stop : Nat) {s0 s : St E} (hf : Feed cx fuel n a c s0)
    (hp : Provides cx.sec lo hi σ a.1)
    (hn : ∀ t o, a.2 = some (t.index, cx.sec, o) → Stored E cx.sec s0.store t → Formed t →
      SeenFor cx.sec σ (andQuery (offsetRangeQuery (RangeB.closed start stop)) q) t 0) (hco : Between cx.sec lo hi s) :
    ∃ (chunks : List (Chunk T V X)) (s' : St E), Between cx.sec lo hi s' ∧ chunks.flatMap Chunk.data = matching (inRange m start stop) 0 c ∧
      ∀ rest, streamTreesChunked q mkExtra fuel n stop (a :: rest) start s = if stop < c.length then .ok (chunks.map .ok) s' else
        (streamTreesChunked q mkExtra fuel n stop rest (max start c.length) >>= fun r => pure (chunks.map .ok ++ r)) s' := by
  rcases hf.tree_cases ok with ⟨ha, hc⟩ | ⟨t, o, ha, hc, hst, hw, hfu⟩
  · subst hc
    refine ⟨[], s, hco, rfl, fun rest => ?_⟩
    rw [ha]
    conv => lhs; unfold streamTreesChunked
    rw [if_neg (by simp), List.length_nil, Nat.max_eq_left (Nat.zero_le _), bind_apply]
    cases streamTreesChunked q mkExtra fuel n stop rest start s <;> rfl
  · have hlen : t.content.length = t.index.count := content_length ok.types hw.counts
    have hcons := chunksOf_consecutive (q := andQuery (offsetRangeQuery (RangeB.closed start stop)) q) (mkExtra := mkExtra) t (hw.iterOk ok.types)
      (fun n hn => Formed.count_pos (fun m hm => hw m (PTree.nodes_trans hn hm))) 0
    rw [Nat.zero_add] at hcons
    have hlen2 := consecutive_length hcons
    have hcalls := hf.calls
    subst hc
    obtain ⟨j, x, te, s', g1, g2, g3, g4⟩ := streamTree_spec ok.env ok.types hp (stop := stop) hfu n (start := start) hco
      (live_for (q := andQuery (offsetRangeQuery (RangeB.closed start stop)) q) (mkExtra := mkExtra) (m := .forward) (hn t o (by rw [ha]) hst hw))
      hcons (Nat.zero_le _) (Nat.zero_le _) (by show (chunksOf _ _ _ _).length < n; omega)
    simp only [ordered] at g1 g3 g4
    obtain ⟨d1, d2⟩ := delivered ok.types hcov (inRange_queryFor hq start stop) hw g3
    refine ⟨(chunksOf (andQuery (offsetRangeQuery (RangeB.closed start stop)) q) mkExtra t 0).take j, s', g2, ?_, fun rest => ?_⟩
    · refine d2.trans (matching_congr fun o k _ ho => ?_)
      have hx : o < x ∨ stop < o := by
        rcases g4 with ⟨_, g4⟩ | ⟨_, g4, g5⟩
        · omega
        · rw [g5] at g3
          have := g3.unique hcons
          omega
      unfold inRange
      rcases hx with hx | hx
      · simp [hx]
      · have : ¬ (start ≤ o ∧ o ≤ stop) := by omega
        simp [this]
    · rw [ha, stream_rest g1 (g4.imp id fun h => ⟨h.1, h.2.1⟩)]
      rcases g4 with ⟨_, g4⟩ | ⟨_, g4, g5⟩
      · rw [if_pos g4, if_pos (by omega)]
      · rw [g5] at g3
        have hx := g3.unique hcons
        rw [if_neg (by omega), if_neg (by omega), hx, hlen]

/-- Streaming from an intact store. -/
theorem stream_cons (ok : cx.Ok) {covers : T.Summary → T.Key → Prop} {m : Nat → T.Key → Bool} (hcov : Covering T covers) (hq : QueryFor q covers m)
    {fuel n : Nat} {a : Arrival E} {c : List (Option (T.Key × V))} {lo hi : E.σ} (hf : Fed cx fuel n lo hi a c) (start stop : Nat) {s : St E} (hco : Between cx.sec lo hi s) :
    ∃ (chunks : List (Chunk T V X)) (s' : St E), Between cx.sec lo hi s' ∧ chunks.flatMap Chunk.data = matching (inRange m start stop) 0 c ∧
      ∀ rest, streamTreesChunked q mkExtra fuel n stop (a :: rest) start s = if stop < c.length then .ok (chunks.map .ok) s' else
        (streamTreesChunked q mkExtra fuel n stop rest (max start c.length) >>= fun r => pure (chunks.map .ok ++ r)) s' := by
  obtain ⟨s0, hf, hp⟩ := hf
  exact stream_cons_for ok hcov hq start stop hf hp (fun t _ _ hst hw => Seen.seenFor ⟨hst, hw.iterOk ok.types⟩ _ 0) hco

/-- Streaming from a damaged store. -/
theorem stream_cons_faulty (ok : cx.Ok) {covers : T.Summary → T.Key → Prop} {m : Nat → T.Key → Bool} (hcov : Covering T covers) (hq : QueryFor q covers m)
    {fuel n : Nat} {a : Arrival E} {c : List (Option (T.Key × V))} (hf : FedFaulty cx fuel n σ a c) (start stop : Nat) {s : St E}
    (hd : Faulty cx.sec σ s) :
    ∃ (chunks : List (Chunk T V X)) (x : Nat) (s' : St E), Faulty cx.sec σ s' ∧ x ≤ c.length ∧
      chunks.flatMap Chunk.data = matching (fun o k => decide (o < x) && inRange m start stop o k) 0 c ∧
      (∀ ch ∈ chunks, ch.range.2 ≤ x) ∧
      ∀ rest, streamTreesChunked q mkExtra fuel n stop (a :: rest) start s = if stop < x then .ok (chunks.map .ok) s' else
        (streamTreesChunked q mkExtra fuel n stop rest (max start x) >>= fun r => pure (chunks.map .ok ++ r)) s' := by
  obtain ⟨s0, hf, hle, hp⟩ := hf
  rcases hf.tree_cases ok with ⟨ha, hc⟩ | ⟨t, o, ha, hc, hst, hw, hfu⟩
  · subst hc
    refine ⟨[], 0, s, hd, Nat.le_refl _, rfl, (fun _ h => absurd h List.not_mem_nil), fun rest => ?_⟩
    rw [ha]
    conv => lhs; unfold streamTreesChunked
    rw [if_neg (by simp), Nat.max_eq_left (Nat.zero_le _), bind_apply]
    cases streamTreesChunked q mkExtra fuel n stop rest start s <;> rfl
  · have hlen : t.content.length = t.index.count := content_length ok.types hw.counts
    have hcons := chunksOf_consecutive (q := andQuery (offsetRangeQuery (RangeB.closed start stop)) q) (mkExtra := mkExtra) t (hw.iterOk ok.types)
      (fun n hn => Formed.count_pos (fun m hm => hw m (PTree.nodes_trans hn hm))) 0
    rw [Nat.zero_add] at hcons
    have hlen2 := consecutive_length hcons
    have hcalls := hf.calls
    subst hc
    obtain ⟨j, x, te, s', g1, g2, g3, g4⟩ := streamTree_faulty ok.env ok.types hp (stop := stop) hfu n (start := start) hd
      (live_new (q := andQuery (offsetRangeQuery (RangeB.closed start stop)) q) (mkExtra := mkExtra) (m := .forward) ⟨hst.mono hle, hw.iterOk ok.types⟩)
      hcons (Nat.zero_le _) (Nat.zero_le _) (by show (chunksOf _ _ _ _).length < n; omega)
    obtain ⟨d1, d2⟩ := delivered ok.types hcov (inRange_queryFor hq start stop) hw g3
    exact ⟨(chunksOf (andQuery (offsetRangeQuery (RangeB.closed start stop)) q) mkExtra t 0).take j, x, s', g2, d1, d2, consecutive_range g3, fun rest => by rw [ha]; exact stream_rest g1 g4 rest⟩

/-! ### backward -/

/-- The data of the last chunks is the data with large offsets. -/
theorem data_suffix {o x e : Nat} {a b : List (Chunk T V X)} (h1 : Consecutive o a x) (h2 : Consecutive x b e) (hc : ∀ ch ∈ a ++ b, Confined ch) :
    b.flatMap Chunk.data = ((a ++ b).flatMap Chunk.data).filter fun y => decide (x ≤ y.1) := by
  have ha := data_bounds h1 fun ch h => hc ch (List.mem_append_left _ h)
  have hb := data_bounds h2 fun ch h => hc ch (List.mem_append_right _ h)
  rw [List.flatMap_append, List.filter_append, List.filter_eq_nil_iff.mpr, List.filter_eq_self.mpr, List.nil_append]
  · intro y hy; have := hb y hy; simp only [decide_eq_true_eq]; omega
  · intro y hy; have := ha y hy; simp only [decide_eq_true_eq]; omega

theorem consecutive_snoc {o e : Nat} {l : List (Chunk T V X)} {ch : Chunk T V X} (h : Consecutive o (l ++ [ch]) e) :
    Consecutive o l ch.range.1 ∧ ch.range.1 < ch.range.2 ∧ ch.range.2 = e := by
  obtain ⟨x, h1, h2⟩ := consecutive_split h
  refine ⟨by rw [h2.1]; exact h1, by rw [h2.1]; exact h2.2.1, h2.2.2⟩

theorem streamTreeRev_spec (h : E.Lawful) (ht : T.Lawful) {world : Nat → St E → St E} {lo hi : E.σ} (hw : Provides sec lo hi σ world) {fuel start : Nat}
    (hfu : 2 * L + 4 ≤ fuel) (n : Nat) {it : IterState T} {rem : List (Chunk T V X)} {e stop : Nat} {s : St E} (hco : Between sec lo hi s)
    (hl : Live sec σ q mkExtra L .backward it rem) (hc : Consecutive 0 rem.reverse e) (he : rem ≠ []) (hn : rem.length < n) :
    ∃ j x stop' s', streamTreeRev world sec q mkExtra fuel start n it stop s = .ok ((rem.take j).map .ok, stop', .stop) s' ∧ Between sec lo hi s' ∧
      Consecutive x (rem.take j).reverse e ∧ x ≤ start := by
  induction n generalizing it rem e stop s with
  | zero => omega
  | succ n ih =>
    obtain ⟨w1, w2⟩ := hw n s hco
    have hmod : (modify (world n) : M E Unit) s = .ok () (world n s) := rfl
    rcases iterNext_live h ht w2 w1.coherent hl hfu with ⟨h1, _⟩ | ⟨ch, rem', it', ⟨c, hc', hr⟩, h2, h3⟩
    · exact absurd h1 he
    · subst h2
      rw [List.reverse_cons] at hc
      obtain ⟨c1, c2, c3⟩ := consecutive_snoc hc
      by_cases hstop : ch.range.1 ≤ start
      · refine ⟨1, ch.range.1, min stop ch.range.1, { (world n s) with cache := c }, ?_, w1.cached hc', ⟨rfl, c2, c3⟩, hstop⟩
        unfold streamTreeRev
        rw [bind_apply, hmod]
        simp only
        rw [bind_apply, hr]
        simp only
        rw [if_pos hstop]
        rfl
      · have he' : rem' ≠ [] := by
          rintro rfl
          have h0 : 0 = ch.range.1 := c1
          omega
        obtain ⟨j, x, stop', s', g1, g2, g3, g4⟩ := ih (stop := min stop ch.range.1) (w1.cached hc') h3 c1 he' (by simpa using hn)
        refine ⟨j + 1, x, stop', s', ?_, g2, ?_, g4⟩
        · unfold streamTreeRev
          rw [bind_apply, hmod]
          simp only
          rw [bind_apply, hr]
          simp only
          rw [if_neg hstop, bind_apply, g1]
          rfl
        · rw [List.take_succ_cons, List.reverse_cons]
          exact consecutive_append g3 ⟨rfl, c2, c3⟩

theorem streamTreeRev_faulty (h : E.Lawful) (ht : T.Lawful) {world : Nat → St E → St E} (hw : Tolerable sec σ world) {fuel start : Nat}
    (hfu : 2 * L + 4 ≤ fuel) (n : Nat) {it : IterState T} {rem : List (Chunk T V X)} {e stop : Nat} {s : St E} (hf : Faulty sec σ s)
    (hl : Live sec σ q mkExtra L .backward it rem) (hc : Consecutive 0 rem.reverse e) (hn : rem.length < n) :
    ∃ j x te stop' s', streamTreeRev world sec q mkExtra fuel start n it stop s = .ok ((rem.take j).map .ok, stop', te) s' ∧ Faulty sec σ s' ∧
      Consecutive x (rem.take j).reverse e ∧
      ((rem.take j ≠ [] ∧ x ≤ start ∧ te = .stop) ∨ (rem.take j ≠ [] ∧ start < x ∧ te = .next ∧ stop' = min stop x) ∨
        (rem.take j = [] ∧ te = .next ∧ stop' = stop)) := by
  induction n generalizing it rem e stop s with
  | zero => omega
  | succ n ih =>
    have w := hw n s hf
    have hmod : (modify (world n) : M E Unit) s = .ok () (world n s) := rfl
    rcases iterNext_faulty h ht w hl hfu with ⟨msg, s', g1, g2, _⟩ | ⟨h1, it', s', g1, g2⟩ |
      ⟨ch, rem', it', s1, h1, h1', h2, h3⟩
    · refine ⟨0, e, .next, stop, s', ?_, g2, rfl, .inr (.inr ⟨rfl, rfl, rfl⟩)⟩
      unfold streamTreeRev
      rw [bind_apply, hmod]
      simp only
      rw [bind_apply, g1]
      rfl
    · refine ⟨0, e, .next, stop, s', ?_, g2, rfl, .inr (.inr ⟨rfl, rfl, rfl⟩)⟩
      unfold streamTreeRev
      rw [bind_apply, hmod]
      simp only
      rw [bind_apply, g1]
      rfl
    · subst h2
      rw [List.reverse_cons] at hc
      obtain ⟨c1, c2, c3⟩ := consecutive_snoc hc
      by_cases hstop : ch.range.1 ≤ start
      · refine ⟨1, ch.range.1, .stop, min stop ch.range.1, s1, ?_, h1', ⟨rfl, c2, c3⟩, .inl ⟨by simp, hstop, rfl⟩⟩
        unfold streamTreeRev
        rw [bind_apply, hmod]
        simp only
        rw [bind_apply, h1]
        simp only
        rw [if_pos hstop]
        rfl
      · obtain ⟨j, x, te, stop', s', g1, g2, g3, g4⟩ := ih (stop := min stop ch.range.1) h1' h3 c1 (by simpa using hn)
        have hx := consecutive_le g3
        refine ⟨j + 1, x, te, stop', s', ?_, g2, ?_, ?_⟩
        · unfold streamTreeRev
          rw [bind_apply, hmod]
          simp only
          rw [bind_apply, h1]
          simp only
          rw [if_neg hstop, bind_apply, g1]
          rfl
        · rw [List.take_succ_cons, List.reverse_cons]
          exact consecutive_append g3 ⟨rfl, c2, c3⟩
        · rcases g4 with ⟨_, g4, g5⟩ | ⟨_, g4, g5, g6⟩ | ⟨g4, g5, g6⟩
          · exact .inl ⟨by simp, g4, g5⟩
          · exact .inr (.inl ⟨by simp, g4, g5, by rw [g6]; omega⟩)
          · rw [g4] at g3
            have hxe : x = ch.range.1 := g3
            exact .inr (.inl ⟨by simp, by omega, g5, by rw [g6, hxe]⟩)

/-- What is delivered from one tree: the elements from `x` on. -/
theorem delivered_reverse (ht : T.Lawful) {covers : T.Summary → T.Key → Prop} {m : Nat → T.Key → Bool} (hcov : Covering T covers)
    (hq : QueryFor q covers m) {t : PTree T V} (hw : Formed t) {j x : Nat}
    (hx : Consecutive x ((chunksOf q mkExtra t 0).reverse.take j).reverse t.index.count) :
    ((chunksOf q mkExtra t 0).reverse.take j).reverse.flatMap Chunk.data = matching (fun o k => decide (x ≤ o) && m o k) 0 t.content := by
  have hc := chunksOf_consecutive (q := q) (mkExtra := mkExtra) t (hw.iterOk ht)
    (fun n hn => Formed.count_pos (fun m hm => hw m (PTree.nodes_trans hn hm))) 0
  have hsplit : (chunksOf q mkExtra t 0) = ((chunksOf q mkExtra t 0).reverse.drop j).reverse ++ ((chunksOf q mkExtra t 0).reverse.take j).reverse := by
    rw [← List.reverse_append, List.take_append_drop, List.reverse_reverse]
  rw [hsplit, Nat.zero_add] at hc
  obtain ⟨x', h1, h2⟩ := consecutive_split hc
  have hxx : x' = x := by
    cases hl : ((chunksOf q mkExtra t 0).reverse.take j).reverse with
    | nil => rw [hl] at h2 hx; exact Eq.trans h2 (Eq.symm hx)
    | cons a l => rw [hl] at h2 hx; exact h2.1.symm.trans hx.1
  subst hxx
  rw [data_suffix h1 h2 (by rw [← hsplit]; exact chunksOf_confined ht (hw.iterOk ht) 0), ← hsplit,
    chunksOf_matching ht hcov hq t hw 0, matching_filter m (fun o _ => decide (x' ≤ o))]

/-- Streaming backward from an intact store: the first tree that is not empty is used. -/
theorem stream_reverse_cons_for (ok : cx.Ok) {covers : T.Summary → T.Key → Prop} {m : Nat → T.Key → Bool} (hcov : Covering T covers)
    (hq : QueryFor q covers m) {fuel n : Nat} {a : Arrival E} {c : List (Option (T.Key × V))} {lo hi : E.σ} (start stop : Nat) {s0 s : St E}
    (hf : Feed cx fuel n a c s0) (hp : Provides cx.sec lo hi σ a.1)
    (hn : ∀ t o, a.2 = some (t.index, cx.sec, o) → Stored E cx.sec s0.store t → Formed t →
      SeenFor cx.sec σ (andQuery (offsetRangeQuery (RangeB.closed start stop)) q) t 0) (hco : Between cx.sec lo hi s) :
    (c = [] ∧ ∀ rest, streamTreesChunkedReverse q mkExtra fuel n start (a :: rest) stop s =
      streamTreesChunkedReverse q mkExtra fuel n start rest stop s) ∨
    (c ≠ [] ∧ ∃ (chunks : List (Chunk T V X)) (s' : St E), chunks.reverse.flatMap Chunk.data = matching (inRange m start stop) 0 c ∧
      (∃ x, Consecutive x chunks.reverse c.length) ∧
      ∀ rest, streamTreesChunkedReverse q mkExtra fuel n start (a :: rest) stop s = .ok (chunks.map .ok) s') := by
  rcases hf.tree_cases ok with ⟨ha, hc⟩ | ⟨t, o, ha, hc, hst, hw, hfu⟩
  · refine .inl ⟨hc, fun rest => ?_⟩
    rw [ha]
    conv => lhs; unfold streamTreesChunkedReverse
  · have hlen : t.content.length = t.index.count := content_length ok.types hw.counts
    have hcons := chunksOf_consecutive (q := andQuery (offsetRangeQuery (RangeB.closed start stop)) q) (mkExtra := mkExtra) t (hw.iterOk ok.types)
      (fun n hn => Formed.count_pos (fun m hm => hw m (PTree.nodes_trans hn hm))) 0
    rw [Nat.zero_add] at hcons
    have hlen2 := consecutive_length hcons
    have hcalls := hf.calls
    have hpos : 0 < t.index.count := Formed.count_pos hw
    subst hc
    have hne : chunksOf (andQuery (offsetRangeQuery (RangeB.closed start stop)) q) mkExtra t 0 ≠ [] := by
      intro h0
      rw [h0] at hcons
      have : 0 = t.index.count := hcons
      omega
    obtain ⟨j, x, stop', s', g1, g2, g3, g4⟩ := streamTreeRev_spec ok.env ok.types hp (start := start) (stop := stop) hfu n hco
      (live_for (q := andQuery (offsetRangeQuery (RangeB.closed start stop)) q) (mkExtra := mkExtra) (m := .backward) (hn t o (by rw [ha]) hst hw))
      (by simp only [ordered]; rw [List.reverse_reverse]; exact hcons) (by simpa [ordered] using hne)
      (by simp only [ordered, List.length_reverse]; omega)
    simp only [ordered] at g1 g3
    refine .inr ⟨by intro h0; rw [h0] at hlen; simp at hlen; omega,
      (chunksOf (andQuery (offsetRangeQuery (RangeB.closed start stop)) q) mkExtra t 0).reverse.take j, s', ?_, ⟨x, by rw [hlen]; exact g3⟩, fun rest => ?_⟩
    · refine (delivered_reverse ok.types hcov (inRange_queryFor hq start stop) hw g3).trans (matching_congr fun o k _ ho => ?_)
      unfold inRange
      by_cases hx : x ≤ o
      · simp [hx]
      · have : ¬ (start ≤ o ∧ o ≤ stop) := by omega
        simp [this]
    · rw [ha]
      unfold streamTreesChunkedReverse
      simp only
      rw [bind_apply, g1]
      rfl

theorem stream_reverse_cons (ok : cx.Ok) {covers : T.Summary → T.Key → Prop} {m : Nat → T.Key → Bool} (hcov : Covering T covers)
    (hq : QueryFor q covers m) {fuel n : Nat} {a : Arrival E} {c : List (Option (T.Key × V))} {lo hi : E.σ} (hf : Fed cx fuel n lo hi a c) (start stop : Nat) {s : St E}
    (hco : Between cx.sec lo hi s) :
    (c = [] ∧ ∀ rest, streamTreesChunkedReverse q mkExtra fuel n start (a :: rest) stop s =
      streamTreesChunkedReverse q mkExtra fuel n start rest stop s) ∨
    (c ≠ [] ∧ ∃ (chunks : List (Chunk T V X)) (s' : St E), chunks.reverse.flatMap Chunk.data = matching (inRange m start stop) 0 c ∧
      (∃ x, Consecutive x chunks.reverse c.length) ∧
      ∀ rest, streamTreesChunkedReverse q mkExtra fuel n start (a :: rest) stop s = .ok (chunks.map .ok) s') := by
  obtain ⟨s0, hf, hp⟩ := hf
  exact stream_reverse_cons_for ok hcov hq start stop hf hp (fun t _ _ hst hw => Seen.seenFor ⟨hst, hw.iterOk ok.types⟩ _ 0) hco

/-- Streaming backward from a damaged store. -/
theorem stream_reverse_cons_faulty (ok : cx.Ok) {covers : T.Summary → T.Key → Prop} {m : Nat → T.Key → Bool} (hcov : Covering T covers)
    (hq : QueryFor q covers m) {fuel n : Nat} {a : Arrival E} {c : List (Option (T.Key × V))} (hf : FedFaulty cx fuel n σ a c) (start stop : Nat)
    {s : St E} (hd : Faulty cx.sec σ s) :
    ∃ (chunks : List (Chunk T V X)) (x stop' : Nat) (s' : St E), Faulty cx.sec σ s' ∧
      chunks.reverse.flatMap Chunk.data = matching (fun o k => decide (x ≤ o) && inRange m start stop o k) 0 c ∧
      ((chunks ≠ [] ∧ x ≤ start ∧ ∀ rest, streamTreesChunkedReverse q mkExtra fuel n start (a :: rest) stop s = .ok (chunks.map .ok) s') ∨
       (((chunks ≠ [] ∧ start < x ∧ stop' = min stop x) ∨ (chunks = [] ∧ stop' = stop)) ∧
        ∀ rest, streamTreesChunkedReverse q mkExtra fuel n start (a :: rest) stop s =
          (streamTreesChunkedReverse q mkExtra fuel n start rest stop' >>= fun r => pure (chunks.map .ok ++ r)) s')) := by
  obtain ⟨s0, hf, hle, hp⟩ := hf
  rcases hf.tree_cases ok with ⟨ha, hc⟩ | ⟨t, o, ha, hc, hst, hw, hfu⟩
  · subst hc
    refine ⟨[], 0, stop, s, hd, rfl, .inr ⟨.inr ⟨rfl, rfl⟩, fun rest => ?_⟩⟩
    rw [ha]
    conv => lhs; unfold streamTreesChunkedReverse
    rw [bind_apply]
    cases streamTreesChunkedReverse q mkExtra fuel n start rest stop s <;> rfl
  · have hlen : t.content.length = t.index.count := content_length ok.types hw.counts
    have hcons := chunksOf_consecutive (q := andQuery (offsetRangeQuery (RangeB.closed start stop)) q) (mkExtra := mkExtra) t (hw.iterOk ok.types)
      (fun n hn => Formed.count_pos (fun m hm => hw m (PTree.nodes_trans hn hm))) 0
    rw [Nat.zero_add] at hcons
    have hlen2 := consecutive_length hcons
    have hcalls := hf.calls
    subst hc
    obtain ⟨j, x, te, stop', s', g1, g2, g3, g4⟩ := streamTreeRev_faulty ok.env ok.types hp (start := start) (stop := stop) hfu n hd
      (live_new (q := andQuery (offsetRangeQuery (RangeB.closed start stop)) q) (mkExtra := mkExtra) (m := .backward) ⟨hst.mono hle, hw.iterOk ok.types⟩)
      (by simp only [ordered]; rw [List.reverse_reverse]; exact hcons) (by simp only [ordered, List.length_reverse]; omega)
    simp only [ordered] at g1 g3 g4
    refine ⟨(chunksOf (andQuery (offsetRangeQuery (RangeB.closed start stop)) q) mkExtra t 0).reverse.take j, x, stop', s', g2,
      delivered_reverse ok.types hcov (inRange_queryFor hq start stop) hw g3, ?_⟩
    rcases g4 with ⟨e1, e2, rfl⟩ | ⟨e1, e2, rfl, e3⟩ | ⟨e1, rfl, e3⟩
    · refine .inl ⟨e1, e2, fun rest => ?_⟩
      rw [ha]
      unfold streamTreesChunkedReverse
      simp only
      rw [bind_apply, g1]
      rfl
    · refine .inr ⟨.inl ⟨e1, e2, e3⟩, fun rest => ?_⟩
      rw [ha]
      conv => lhs; unfold streamTreesChunkedReverse
      simp only
      rw [bind_apply, g1]
    · refine .inr ⟨.inr ⟨e1, e3⟩, fun rest => ?_⟩
      rw [ha]
      conv => lhs; unfold streamTreesChunkedReverse
      simp only
      rw [bind_apply, g1]

end Banyan
