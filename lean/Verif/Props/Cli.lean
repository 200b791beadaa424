import Verif.Proofs.Cli
/-
Commands of the tool: C81, C82.
-/
set_option autoImplicit false
namespace Banyan

open PTree Concrete

variable {T : TreeTypes} {V : Type} {E : Env T V} {cx : Ctx E} {s s' : St E} {c : List (Option (T.Key × V))}

/-! ### C26 -/

/-- C26: iterating over a tree that was loaded with `load_tree` delivers the elements of the content that the query selects, with their
offsets, in ascending order. -/
theorem C26_loaded_elements_partial (ok : cx.Ok) (hr : Reach cx s) (hs : Small E s) (hc : Contains cx s c) {i : BranchIndex T} {l : T.Link}
    (hi : s.root = some (.branch i)) (hl : i.link = some l) (q : Query T) (covers : T.Summary → T.Key → Prop) (m : Nat → T.Key → Bool)
    (hcov : Covering T covers) (hq : QueryFor q covers m) :
    ∃ t, loadTree cx.sec l s = .ok t s ∧
      ∀ (between : Nat → St E → St E), Harmless cx.sec between → ∀ n fuel : Nat, 2 * rootLevel s.root + 4 ≤ fuel → rootCount s.root ≤ n →
        ∃ s', Tree.elements q .forward between n fuel t s = .ok ((matching m 0 c).map .ok) s' := by
  obtain ⟨cs, i', o, _, h2, h3, h4, h5, h6, h7, h8⟩ := loadTree_seen ok hr hs hi hl
  refine ⟨_, h3, fun between hb n fuel hf hn => ?_⟩
  rw [hi] at hf hn
  have hlev : i'.level = i.level := by rw [h2]
  have hcnt : i'.count = i.count := by rw [h2]
  obtain ⟨s', h9⟩ := elements_seen ok h4 h5 h6 h7 o q covers m hcov hq between hb n fuel
    (show 2 * i'.level + 4 ≤ fuel by rw [hlev]; exact hf) (show i'.count ≤ n by rw [hcnt]; exact hn)
  refine ⟨s', ?_⟩
  rw [(h8 c).mp hc]
  exact h9

/-! ### C81 -/

theorem frame0_ite {α : Type} {b : Bool} {m1 m2 : M E α} (h1 : Frame0 cx m1) (h2 : Frame0 cx m2) : Frame0 cx (if b then m1 else m2) := by
  cases b
  · exact h2
  · exact h1

/-- One batch. -/
def addBatch (cx : Ctx E) (fuel : Nat) (unbalanced : Bool) (xs : List (T.Key × V)) : M E Unit :=
  if unbalanced then extendUnpacked cx fuel xs else extend cx fuel xs

theorem frame0_addBatch (h : E.Lawful) (fuel : Nat) (b : Bool) (xs : List (T.Key × V)) : Frame0 cx (addBatch cx fuel b xs) :=
  frame0_ite (frame0_extendUnpacked h fuel xs) (frame0_extend h fuel xs)

theorem addBatch_spec (ok : cx.Ok) (hr : Steady cx s) {fuel : Nat} {b : Bool} {xs : List (T.Key × V)} (hf : rootLevel s.root < fuel)
    (hn : rootCount s.root + xs.length ≤ maxElements) (hc : Contains cx s c) (hp : b = false → ReportsPacked cx s) (hs : Small E s') :
    (addBatch cx fuel b xs s = .ok () s' → Steady cx s' ∧ Contains cx s' (c ++ xs.map some) ∧ (b = false → ReportsPacked cx s')) ∧
    ∀ e, addBatch cx fuel b xs s = .error e s' → Allowed E cx.cfg (fun v => ∃ k, (k, v) ∈ xs) e := by
  have hr' := hr.reach ok.cfg
  unfold addBatch
  cases b with
  | true =>
    simp only [if_true]
    refine ⟨fun he => ⟨?_, C02_extendUnpacked_appends ok hr' fuel xs hn he hs hc, nofun⟩, fun e he => C61_extendUnpacked_never_aborts ok hr' fuel xs hn he hs⟩
    have := hr.run (.extendUnpacked fuel xs (.refl s) hf hn)
    unfold endState at this
    rwa [he] at this
  | false =>
    simp only [Bool.false_eq_true, if_false]
    refine ⟨fun he => ⟨?_, C01_extend_appends ok hr' fuel xs hf hn he hs hc, fun _ => C05_extend_keeps_packed ok hr' fuel xs hf hn he hs (hp rfl)⟩,
      fun e he => C06_extend_never_aborts_partial ok hr' fuel xs hf hn (hp rfl) he hs⟩
    have := hr.run (.extend fuel xs (.refl s) hf hn)
    unfold endState at this
    rwa [he] at this

theorem buildLoop_succ (tl : Tool E) (fuel count : Nat) (b : Bool) (n off : Nat) :
    tl.buildLoop cx fuel count b (n + 1) off = (do
      addBatch cx fuel b ((List.range count).map fun i => tl.element (off + i))
      assertInvariants cx fuel
      tl.buildLoop cx fuel count b n (off + count)) := by
  rw [Tool.buildLoop]
  unfold addBatch
  cases b <;> rfl

theorem frame0_buildLoop (h : E.Lawful) (tl : Tool E) (fuel count : Nat) (b : Bool) (n off : Nat) : Frame0 cx (tl.buildLoop cx fuel count b n off) := by
  induction n generalizing off with
  | zero => exact (Frame.pure _).frame0
  | succ n ih =>
    rw [buildLoop_succ]
    exact Frame0.bind (frame0_addBatch h _ _ _) fun _ => Frame0.bind (frame0_assertInvariants h _) fun _ => ih _

/-- The level of a tree is bounded by the number of its elements. -/
theorem Contains.level (ok : cx.Ok) (hr : Reach cx s) (hs : Small E s) (hc : Contains cx s c) : rootLevel s.root ≤ c.length + 1 := by
  obtain ⟨t, hi⟩ := ok.inv hr hs
  rw [hi.holds.contains ok.env ok.types] at hc
  rw [hc]
  exact hi.level

/-- The elements with the given numbers. -/
def Tool.numbers (tl : Tool E) (off n : Nat) : List (T.Key × V) := (List.range n).map fun i => tl.element (off + i)

theorem Tool.numbers_add (tl : Tool E) (off a b : Nat) : tl.numbers off (a + b) = tl.numbers off a ++ tl.numbers (off + a) b := by
  unfold Tool.numbers
  rw [List.range_add, List.map_append, List.map_map]
  congr 1
  apply List.map_congr_left
  intro i _
  simp only [Function.comp_apply]
  rw [Nat.add_assoc]

theorem buildLoop_spec (ok : cx.Ok) (tl : Tool E) (fuel count : Nat) (b : Bool) (batches off : Nat) (hr : Steady cx s) (hc : Contains cx s c)
    (hn : c.length + batches * count ≤ maxElements) (hf : c.length + batches * count + 1 < fuel) (hp : b = false → ReportsPacked cx s) (hs : Small E s') :
    (tl.buildLoop cx fuel count b batches off s = .ok () s' → Steady cx s' ∧ Contains cx s' (c ++ (tl.numbers off (batches * count)).map some) ∧
      (b = false → ReportsPacked cx s')) ∧
    ∀ e, tl.buildLoop cx fuel count b batches off s = .error e s' →
      Allowed E cx.cfg (fun v => ∃ k, (k, v) ∈ tl.numbers off (batches * count)) e := by
  induction batches generalizing s c off with
  | zero =>
    refine ⟨fun he => ?_, fun e he => by cases he⟩
    cases he
    rw [Nat.zero_mul]
    refine ⟨hr, ?_, hp⟩
    rw [show (tl.numbers off 0) = [] from rfl, List.map_nil, List.append_nil]
    exact hc
  | succ n ih =>
    rw [Nat.succ_mul] at hn hf
    have hmul : (n + 1) * count = count + n * count := by rw [Nat.succ_mul]; omega
    rw [hmul, tl.numbers_add]
    rw [buildLoop_succ, bind_apply]
    have hlen : ((List.range count).map fun i => tl.element (off + i)).length = count := by simp
    have base : ∀ s1, Small E s1 → Ext0 cx s s1 → rootLevel s.root < fuel ∧ rootCount s.root + ((List.range count).map fun i => tl.element (off + i)).length ≤ maxElements := by
      intro s1 h1 h2
      have h3 := h2.small h1
      have h4 := hc.level ok (hr.reach ok.cfg) h3
      have h5 := (C28_count ok (hr.reach ok.cfg) h3 hc).1
      rw [hlen, h5]
      omega
    cases h1 : addBatch cx fuel b ((List.range count).map fun i => tl.element (off + i)) s with
    | error e s1 =>
      refine ⟨nofun, fun e' he => ?_⟩
      cases he
      obtain ⟨k1, k2⟩ := base _ hs ((frame0_addBatch ok.env _ _ _).err h1)
      refine ((addBatch_spec ok hr k1 k2 hc hp hs).2 _ h1).mono ?_
      rintro v ⟨k, hk⟩
      exact ⟨k, List.mem_append_left _ hk⟩
    | ok u s1 =>
      simp only
      rw [bind_apply]
      have x1 := (frame0_addBatch ok.env _ _ _).ok h1
      have hsmall : Small E s1 → _ := fun h => (addBatch_spec ok hr (base _ h x1).1 (base _ h x1).2 hc hp h).1 h1
      have hread : Small E s1 → ∃ γ, Coherent E cx.sec { s1 with cache := γ } ∧ assertInvariants cx fuel s1 = .ok () { s1 with cache := γ } := by
        intro h
        obtain ⟨j1, j2, j3⟩ := hsmall h
        have h4 := j2.level ok (j1.reach ok.cfg) h
        rw [List.length_append, List.length_map, hlen] at h4
        exact assert_reads ok j1 h (by omega)
      cases h2 : assertInvariants cx fuel s1 with
      | error e s2 =>
        refine ⟨nofun, fun e' he => ?_⟩
        cases he
        obtain ⟨γ, _, h3⟩ := hread (((frame0_assertInvariants ok.env _).err h2).small hs)
        rw [h2] at h3
        cases h3
      | ok u s2 =>
        simp only
        have x2 := (frame0_assertInvariants ok.env _).ok h2
        have key : Small E s2 → (tl.buildLoop cx fuel count b n (off + count) s2 = .ok () s' → Steady cx s' ∧
            Contains cx s' (c ++ ((List.range count).map fun i => tl.element (off + i)).map some ++ (tl.numbers (off + count) (n * count)).map some) ∧
            (b = false → ReportsPacked cx s')) ∧
            ∀ e, tl.buildLoop cx fuel count b n (off + count) s2 = .error e s' →
              Allowed E cx.cfg (fun v => ∃ k, (k, v) ∈ tl.numbers (off + count) (n * count)) e := fun h => by
          have hs1 := x2.small h
          obtain ⟨γ, hγ, h3⟩ := hread hs1
          rw [h2] at h3
          injection h3 with _ h3
          subst h3
          obtain ⟨j1, j2, j3⟩ := hsmall hs1
          have j4 := j1.reach ok.cfg
          exact ih (off + count) (j1.cached hγ) (j2.cached ok j4 hs1 hγ) (by rw [List.length_append, List.length_map, hlen]; omega)
            (by rw [List.length_append, List.length_map, hlen]; omega) fun hb => (j3 hb).cached ok j4 hs1 hγ
        constructor
        · intro he
          obtain ⟨i1, i2, i3⟩ := (key (((frame0_buildLoop ok.env tl fuel count b n _).ok he).small hs)).1 he
          refine ⟨i1, ?_, i3⟩
          rw [List.map_append, ← List.append_assoc]
          exact i2
        · intro e he
          refine ((key (((frame0_buildLoop ok.env tl fuel count b n _).err he).small hs)).2 e he).mono ?_
          rintro v ⟨k, hk⟩
          exact ⟨k, List.mem_append_right _ hk⟩

theorem load_written {l : T.Link} (h : loadStreamBuilder cx l s = .ok () s') : s'.written = s.written := by
  unfold loadStreamBuilder at h
  split at h
  · cases h; rfl
  · cases h

/-- What was written before is small if all that was written in the end is. -/
def Grows {α : Type} (m : M E α) : Prop := ∀ s, Small E (endState m s) → Small E s

theorem Frame0.grows {α : Type} {m : M E α} (h : Frame0 cx m) : Grows m := fun s => (h s).1.small

theorem Grows.ok {α : Type} {m : M E α} (h : Grows m) {a : α} (he : m s = .ok a s') (hs : Small E s') : Small E s :=
  h s (by unfold endState; rw [he]; exact hs)

theorem Grows.err {α : Type} {m : M E α} (h : Grows m) {e : Err} (he : m s = .error e s') (hs : Small E s') : Small E s :=
  h s (by unfold endState; rw [he]; exact hs)

theorem Grows.bind {α β : Type} {m : M E α} {f : α → M E β} (h1 : Grows m) (h2 : ∀ a, Grows (f a)) : Grows (m >>= f) := by
  intro s hs
  unfold endState at hs
  rw [bind_apply] at hs
  cases h : m s with
  | ok a s1 =>
    rw [h] at hs
    exact h1.ok h (h2 a s1 hs)
  | error e s1 =>
    rw [h] at hs
    exact h1.err h hs

theorem grows_load {l : T.Link} : Grows (loadStreamBuilder cx l) := by
  intro s hs
  unfold endState loadStreamBuilder at hs
  split at hs
  · rename_i h
    split at h
    · cases h; exact hs
    · cases h
  · rename_i h
    split at h
    · cases h
    · cases h; exact hs

/-- Loading the tree of a builder whose root is a branch. -/
theorem load_for (ok : cx.Ok) (hr : Steady cx s) (hs : Small E s) (hc : Contains cx s c) {i : BranchIndex T} {l : T.Link} (hi : s.root = some (.branch i))
    (hl : i.link = some l) :
    ∃ s1, loadStreamBuilder cx l s = .ok () s1 ∧ Steady cx s1 ∧ Small E s1 ∧ Contains cx s1 c ∧ (ReportsPacked cx s1 ↔ ReportsPacked cx s) ∧
      rootLevel s1.root = rootLevel s.root ∧ ∃ i' cs, Shows cx s (.branch i cs) ∧ Loaded cx s1 (some (.branch i' cs)) ∧
        i' = { i with keyBytes := i'.keyBytes } := by
  obtain ⟨s1, h1, h2, h3, h4, i', cs, h5, h6, h7, h8⟩ := C26_load_builder_partial ok hr hs hc hi hl
  refine ⟨s1, h1, h2, ?_, h3, h4, ?_, i', cs, ⟨h7.root, h7.stored _ rfl⟩, h8, h6⟩
  · unfold Small
    rw [load_written h1]
    exact hs
  · rw [h5, hi]
    show i'.level = i.level
    rw [h6]

/-- The dump at the end of a command. -/
theorem dump_end (ok : cx.Ok) (hr : Steady cx s) {fuel : Nat} (hf : Small E s → rootLevel s.root < fuel) {r : EStateM.Result Err (St E) (List (Nat × NodeLine T.Link))}
    (he : onTree cx (Tree.dump fuel) s = r) (hs : Small E (endState (onTree cx (Tree.dump fuel)) s)) :
    ∃ γ lines, Coherent E cx.sec { s with cache := γ } ∧ r = .ok lines { s with cache := γ } ∧ Small E s ∧
      Yields Tree.dump (snapshot cx s) { s with cache := γ } lines := by
  have hs1 : Small E s := ((frame0_dump ok.env fuel) s).1.small hs
  have hr' := hr.reach ok.cfg
  obtain ⟨t, hi⟩ := ok.inv hr' hs1
  obtain ⟨γ, h1, h2⟩ := dump_reads ok hi.holds.snap (hf hs1)
  refine ⟨γ, _, h1, he.symm.trans h2, hs1, fun fuel' hf' => ?_⟩
  have hsn := hi.holds.later ok.env (.world s.store γ .refl (fun _ _ h => h) h1)
  cases t with
  | none =>
    have hn : snapshot cx s = none := by
      have := hi.holds.root
      unfold snapshot
      rw [this]
      rfl
    rw [hn]
    exact ⟨_, rfl⟩
  | some t =>
    have hsh : Shows cx { s with cache := γ } t := ⟨hi.holds.root, hsn.stored t rfl⟩
    exact C80_dump ok (hr'.cached h1) hs1 hsh fuel' hf'

/-- The settings of the commands that write. -/
def Tool.settings (tl : Tool E) : Ctx E := ⟨Config.debug, tl.defaultSecrets⟩

theorem Tool.settings_ok (hE : E.Lawful) (hT : T.Lawful) (tl : Tool E) : tl.settings.Ok := ⟨hE, hT, debug_valid⟩

/-- What is known about a tree after a command: it can be used further on, it has this content, and what was printed is its dump. -/
structure Leaves (tl : Tool E) (s : St E) (c : List (Option (T.Key × V))) (lines : List (Nat × NodeLine T.Link)) : Prop where
  steady : Steady tl.settings s
  content : Contains tl.settings s c
  dump : Yields Tree.dump (snapshot tl.settings s) s lines

theorem finish (hE : E.Lawful) (hT : T.Lawful) (tl : Tool E) {fuel : Nat} (hr : Small E s → Steady tl.settings s ∧ Contains tl.settings s c)
    (hf : c.length + 1 < fuel) (hs : Small E (endState (onTree tl.settings (Tree.dump fuel)) s)) :
    Small E s ∧ ∃ γ lines, Coherent E tl.settings.sec { s with cache := γ } ∧ onTree tl.settings (Tree.dump fuel) s = .ok lines { s with cache := γ } ∧
      Leaves tl { s with cache := γ } c lines := by
  have ok := tl.settings_ok hE hT
  have hs1 : Small E s := ((frame0_dump ok.env fuel) s).1.small hs
  obtain ⟨h1, h2⟩ := hr hs1
  obtain ⟨γ, lines, h3, h4, _, h5⟩ := dump_end ok h1 (fun h => by have := h2.level ok (h1.reach ok.cfg) h; omega) rfl hs
  exact ⟨hs1, γ, lines, h3, h4, h1.cached h3, h2.cached ok (h1.reach ok.cfg) hs1 h3, h5⟩

/-- The link belongs to a tree that was written with the settings of the commands, and whose root is a branch. -/
structure Written (tl : Tool E) (s : St E) (l : T.Link) (c : List (Option (T.Key × V))) : Prop where
  steady : Steady tl.settings s
  root : ∃ i, s.root = some (.branch i) ∧ i.link = some l
  content : Contains tl.settings s c

/-- The tree the command starts with: a new one, or one that was written with the same settings, has a branch as root, and is packed unless
the elements are to be added unbalanced. -/
inductive Base (tl : Tool E) (unbalanced : Bool) (s : St E) : Option T.Link → List (Option (T.Key × V)) → Prop
  | fresh : Coherent E tl.settings.sec s → Base tl unbalanced s none []
  | written {l : T.Link} {c : List (Option (T.Key × V))} : Written tl s l c → (unbalanced = false → ReportsPacked tl.settings s) →
      Base tl unbalanced s (some l) c

theorem Base.start (hE : E.Lawful) (hT : T.Lawful) {tl : Tool E} {b : Bool} {base : Option T.Link} (hb : Base tl b s base c) (hs : Small E s) :
    ∃ s1, (match base with | some root => loadStreamBuilder tl.settings root | none => Tool.newBuilder : M E Unit) s = .ok () s1 ∧ Steady tl.settings s1 ∧
      Contains tl.settings s1 c ∧ (b = false → ReportsPacked tl.settings s1) ∧ s1.written = s.written := by
  have ok := tl.settings_ok hE hT
  cases hb with
  | fresh hco =>
    have hn : Steady tl.settings ({ s with root := none, offset := 0 } : St E) := .fresh _ rfl hco
    refine ⟨_, rfl, hn, contains_start ok rfl hco, fun _ fuel _ => ⟨_, rfl⟩, rfl⟩
  | written hw h5 =>
    obtain ⟨i, h2, h3⟩ := hw.root
    obtain ⟨s1, k1, k2, k3, k4, k5, _⟩ := load_for ok hw.steady hs hw.content h2 h3
    exact ⟨s1, k1, k2, k4, fun h => k5.mpr (h5 h), load_written k1⟩

theorem M.assoc_at {α β δ : Type} (m : M E α) (f : α → M E β) (g : β → M E δ) (s : St E) :
    ((m >>= f) >>= g) s = (m >>= fun x => f x >>= g) s := by
  rw [bind_apply, bind_apply, bind_apply]
  cases m s with
  | ok a s1 => exact (bind_apply (f a) g s1).symm
  | error e s1 => rfl

theorem build_eq (tl : Tool E) (pw : Passwords) (fuel : Nat) (base : Option T.Link) (batches count : Nat) (b : Bool) :
    tl.build pw fuel base batches count b = (do
      (match base with | some root => loadStreamBuilder tl.settings root | none => Tool.newBuilder : M E Unit)
      tl.buildLoop tl.settings fuel count b batches 0
      onTree tl.settings (Tree.dump fuel)) := by
  funext s
  unfold Tool.build Tool.buildWith
  cases base with
  | none => rfl
  | some l =>
    exact M.assoc_at (loadStreamBuilder tl.settings l) (fun _ => tl.buildLoop tl.settings fuel count b batches 0)
      (fun _ => onTree tl.settings (Tree.dump fuel)) s

theorem grows_build (hE : E.Lawful) (tl : Tool E) (pw : Passwords) (fuel : Nat) (base : Option T.Link) (batches count : Nat) (b : Bool) :
    Grows (tl.build pw fuel base batches count b) := by
  rw [build_eq]
  refine Grows.bind ?_ fun _ => Grows.bind (frame0_buildLoop (cx := tl.settings) hE tl fuel count b batches 0).grows fun _ =>
    (frame0_dump (cx := tl.settings) hE fuel).grows
  cases base with
  | none => exact fun s hs => hs
  | some l => exact grows_load

/-- C81: `Build` appends the announced number of elements, in batches, to the tree it starts with, and prints the dump of the result; a
balanced build gives a packed tree. Its checks never fail: there is an error only for a cause outside of the tree, or because an element is too
large. -/
theorem C81_build (hE : E.Lawful) (hT : T.Lawful) (tl : Tool E) (pw : Passwords) (fuel : Nat) (base : Option T.Link) (batches count : Nat) (b : Bool)
    (hb : Base tl b s base c) (hn : c.length + batches * count ≤ maxElements) (hf : c.length + batches * count + 1 < fuel) (hs : Small E s') :
    (∀ lines, tl.build pw fuel base batches count b s = .ok lines s' →
      Leaves tl s' (c ++ (tl.numbers 0 (batches * count)).map some) lines ∧ (b = false → ReportsPacked tl.settings s')) ∧
    ∀ e, tl.build pw fuel base batches count b s = .error e s' →
      Allowed E Config.debug (fun v => ∃ k, (k, v) ∈ tl.numbers 0 (batches * count)) e := by
  have ok := tl.settings_ok hE hT
  suffices hk : Small E s → _ by
    by_cases hs0 : Small E s
    · exact hk hs0
    · exact ⟨fun lines he => (hs0 ((grows_build hE tl pw fuel base batches count b).ok he hs)).elim,
        fun e he => (hs0 ((grows_build hE tl pw fuel base batches count b).err he hs)).elim⟩
  intro hs0
  obtain ⟨s1, h1, h2, h3, h4, h5⟩ := hb.start hE hT hs0
  rw [build_eq, bind_apply, h1]
  simp only
  rw [bind_apply]
  cases h6 : tl.buildLoop tl.settings fuel count b batches 0 s1 with
  | error e s2 =>
    refine ⟨nofun, fun e' he => ?_⟩
    cases he
    exact (buildLoop_spec ok tl fuel count b batches 0 h2 h3 hn hf h4 hs).2 _ h6
  | ok u s2 =>
    simp only
    have key : Small E (endState (onTree tl.settings (Tree.dump fuel)) s2) → _ := finish (s := s2) (c := c ++ (tl.numbers 0 (batches * count)).map some) hE hT tl
      (fun h => by
        obtain ⟨k1, k2, _⟩ := (buildLoop_spec ok tl fuel count b batches 0 h2 h3 hn hf h4 h).1 h6
        exact ⟨k1, k2⟩) (by rw [List.length_append, List.length_map]; unfold Tool.numbers; rw [List.length_map, List.length_range]; exact hf)
    constructor
    · intro lines he
      obtain ⟨k0, γ, lines', k1, k2, k3⟩ := key (by unfold endState; rw [he]; exact hs)
      rw [k2] at he
      cases he
      refine ⟨k3, fun hb => ?_⟩
      obtain ⟨j1, _, j3⟩ := (buildLoop_spec ok tl fuel count b batches 0 h2 h3 hn hf h4 k0).1 h6
      exact (j3 hb).cached ok (j1.reach ok.cfg) k0 k1
    · intro e he
      obtain ⟨k0, γ, lines', k1, k2, k3⟩ := key (by unfold endState; rw [he]; exact hs)
      rw [k2] at he
      cases he

/-- The elements before an offset. -/
theorem offsets_from (before : Nat) : QueryFor (offsetRangeQuery ⟨.included before, .unbounded⟩ : Query T) (fun _ _ => True) fun o _ => decide (before ≤ o) :=
  C14_offset_range _ _ fun o k => by simp [RangeB.Mem]

theorem missed_of {q : Query T} {covers : T.Summary → T.Key → Prop} {m : Nat → T.Key → Bool} (hT : T.Lawful) (hq : QueryFor q covers m) {x : Nat × LeafIndex T}
    (h1 : x.2.isSealed = true) (h2 : ∀ n k, x.1 ≤ n → n < x.1 + T.keys.len x.2.keys → m n k = false) : Missed q x := by
  refine ⟨h1, fun b hb => ?_⟩
  obtain ⟨j, hj⟩ := List.getElem?_of_mem hb
  have hlt := (List.getElem?_eq_some_iff.mp hj).1
  rw [q.len_containing, List.length_replicate] at hlt
  obtain ⟨k, hk⟩ := Option.isSome_iff_exists.mp (hT.keys.get_some x.2.keys j hlt)
  rw [hq.containing _ _ _ j k (List.length_replicate ..) hk, List.getElem?_replicate, if_pos hlt, h2 _ k (by omega) (by omega)] at hj
  cases hj
  rfl

theorem forget_eq (tl : Tool E) (pw : Passwords) (fuel : Nat) (l : T.Link) (before : Nat) :
    tl.forget pw fuel l before = (do
      loadStreamBuilder tl.settings l
      retain tl.settings fuel (offsetRangeQuery ⟨.included before, .unbounded⟩)
      onTree tl.settings (Tree.dump fuel)) := rfl

theorem grows_forget (hE : E.Lawful) (tl : Tool E) (pw : Passwords) (fuel : Nat) (l : T.Link) (before : Nat) : Grows (tl.forget pw fuel l before) := by
  rw [forget_eq]
  exact grows_load.bind fun _ => (frame0_retain (cx := tl.settings) hE fuel _).grows.bind fun _ => (frame0_dump (cx := tl.settings) hE fuel).grows

/-- C81: `Forget` keeps the number of elements and the elements from the given offset on; of a packed tree it removes every sealed leaf all of
whose elements come before it. It prints the dump of the result, and fails only for a cause outside of the tree. -/
theorem C81_forget (hE : E.Lawful) (hT : T.Lawful) (tl : Tool E) (pw : Passwords) (fuel : Nat) (l : T.Link) (before : Nat)
    (hw : Written tl s l c) (hf : c.length + 1 < fuel) (hs : Small E s') :
    (∀ lines, tl.forget pw fuel l before s = .ok lines s' →
      ∃ c', Leaves tl s' c' lines ∧ c'.length = c.length ∧ (∀ n, before ≤ n → c'[n]? = c[n]?) ∧
        (∀ n : Nat, c'[n]? = c[n]? ∨ c'[n]? = some none) ∧
        (ReportsPacked tl.settings s → ∃ t, Shows tl.settings s t ∧
          ∀ x ∈ t.leavesAt 0, x.2.isSealed = true → x.1 + T.keys.len x.2.keys ≤ before → Wiped 0 c' x)) ∧
    ∀ e, tl.forget pw fuel l before s = .error e s' → Allowed E Config.debug (fun _ => False) e := by
  have ok := tl.settings_ok hE hT
  suffices hk : Small E s → _ by
    by_cases hs0 : Small E s
    · exact hk hs0
    · exact ⟨fun lines he => (hs0 ((grows_forget hE tl pw fuel l before).ok he hs)).elim,
        fun e he => (hs0 ((grows_forget hE tl pw fuel l before).err he hs)).elim⟩
  intro hs0
  obtain ⟨i, hi, hl⟩ := hw.root
  obtain ⟨s1, h1, h2, h3, h4, h5, h6, i', cs, h7, h8, hii⟩ := load_for ok hw.steady hs0 hw.content hi hl
  have hlev := h4.level ok (h2.reach ok.cfg) h3
  have hf' : rootLevel s1.root < fuel := by omega
  rw [forget_eq, bind_apply, h1]
  simp only
  rw [bind_apply]
  cases h9 : retain tl.settings fuel (offsetRangeQuery ⟨.included before, .unbounded⟩) s1 with
  | error e s2 =>
    refine ⟨nofun, fun e' he => ?_⟩
    cases he
    exact C61_retain_never_aborts ok (h2.reach ok.cfg) fuel hf' _ h9 hs
  | ok u s2 =>
    simp only
    have hst : Steady tl.settings s2 := by
      have := h2.run (.retain fuel (offsetRangeQuery ⟨.included before, .unbounded⟩) (.refl s1) hf')
      unfold endState at this
      rwa [h9] at this
    have key : Small E s2 → _ := fun h => C16_retain_keeps_matches ok (h2.reach ok.cfg) fuel hf' _ _ _ (⟨fun _ _ _ => trivial, fun _ _ _ _ _ => trivial⟩)
      (offsets_from before) h9 h h4
    have fin : Small E (endState (onTree tl.settings (Tree.dump fuel)) s2) → ∃ c', Contains tl.settings s2 c' ∧ c'.length = c.length ∧
        (∀ n : Nat, c'[n]? = c[n]? ∨ (c'[n]? = some none ∧ ∀ k v, c[n]? = some (some (k, v)) → decide (before ≤ n) = false)) ∧
        Small E s2 ∧ ∃ γ lines, Coherent E tl.settings.sec { s2 with cache := γ } ∧ onTree tl.settings (Tree.dump fuel) s2 = .ok lines { s2 with cache := γ } ∧
          Leaves tl { s2 with cache := γ } c' lines := fun h => by
      obtain ⟨c', k1, k2, k3⟩ := key (((frame0_dump (cx := tl.settings) hE fuel) s2).1.small h)
      exact ⟨c', k1, k2, k3, finish (s := s2) (c := c') hE hT tl (fun _ => ⟨hst, k1⟩) (by omega) h⟩
    constructor
    · intro lines he
      obtain ⟨c', k1, k2, k3, k4, γ, lines', k5, k6, k7⟩ := fin (by unfold endState; rw [he]; exact hs)
      rw [k6] at he
      cases he
      refine ⟨c', k7, k2, fun n hn => ?_, fun n => (k3 n).imp id And.left, fun hp => ⟨_, h7, fun x hx h10 h11 => ?_⟩⟩
      · rcases k3 n with h | ⟨h, h'⟩
        · exact h
        · rw [h]
          cases hcn : c[n]? with
          | none =>
            rw [List.getElem?_eq_none_iff, ← k2] at hcn
            rw [List.getElem?_eq_none hcn] at h
            cases h
          | some y =>
            cases y with
            | none => rfl
            | some y =>
              have := h' y.1 y.2 hcn
              rw [decide_eq_false_iff_not] at this
              exact (this hn).elim
      · exact C17_retain_effective ok (h2.reach ok.cfg) fuel hf' _ h9 k4 h8 (h5.mpr hp) k1 x hx
          (missed_of hT (offsets_from before) h10 fun n k h12 h13 => by rw [decide_eq_false_iff_not]; omega)
    · intro e he
      obtain ⟨c', k1, k2, k3, k4, γ, lines', k5, k6, k7⟩ := fin (by unfold endState; rw [he]; exact hs)
      rw [k6] at he
      cases he

/-- The part of the command after `pack`. -/
def Tool.afterPack (tl : Tool E) (fuel : Nat) (before : List (Nat × NodeLine T.Link)) : M E (List (Nat × NodeLine T.Link) × List (Nat × NodeLine T.Link)) :=
  assertInvariants tl.settings fuel >>= fun _ => onTree tl.settings (Tree.isPacked fuel) >>= fun packed =>
    if packed then onTree tl.settings (Tree.dump fuel) >>= fun after => pure (before, after)
    else throw (.panic "assertion failed: forest.is_packed(&tree.snapshot())?")

theorem packTree_eq (tl : Tool E) (pw : Passwords) (fuel : Nat) (l : T.Link) :
    tl.packTree pw fuel l = (loadStreamBuilder tl.settings l >>= fun _ => onTree tl.settings (Tree.dump fuel) >>= fun before =>
      pack tl.settings fuel >>= fun _ => tl.afterPack fuel before) := by
  have key : ∀ before : List (Nat × NodeLine T.Link), tl.afterPack fuel before = (do
      assertInvariants tl.settings fuel
      let packed ← onTree tl.settings (Tree.isPacked fuel)
      if !packed then throw (.panic "assertion failed: forest.is_packed(&tree.snapshot())?")
      let after ← onTree tl.settings (Tree.dump fuel)
      pure (before, after)) := by
    intro before
    unfold Tool.afterPack
    refine congrArg _ (funext fun _ => congrArg _ (funext fun b => ?_))
    cases b <;> rfl
  simp only [key]
  rfl

theorem grows_afterPack (hE : E.Lawful) (tl : Tool E) (fuel : Nat) (before : List (Nat × NodeLine T.Link)) : Grows (tl.afterPack fuel before) := by
  refine (frame0_assertInvariants (cx := tl.settings) hE fuel).grows.bind fun _ => (frame0_isPacked (cx := tl.settings) hE fuel).grows.bind fun b => ?_
  cases b
  · exact fun _ h => h
  · exact (frame0_dump (cx := tl.settings) hE fuel).grows.bind fun _ => fun _ h => h

theorem grows_packTree (hE : E.Lawful) (tl : Tool E) (pw : Passwords) (fuel : Nat) (l : T.Link) : Grows (tl.packTree pw fuel l) := by
  rw [packTree_eq]
  exact grows_load.bind fun _ => (frame0_dump (cx := tl.settings) hE fuel).grows.bind fun _ => (frame0_pack (cx := tl.settings) hE fuel).grows.bind fun _ =>
    grows_afterPack hE tl fuel _

/-- C81: `Pack` packs the tree, keeps its content, and prints the dump before and after. Neither of its two assertions fails: there is an error
only for a cause outside of the tree. -/
theorem C81_pack (hE : E.Lawful) (hT : T.Lawful) (tl : Tool E) (pw : Passwords) (fuel : Nat) (l : T.Link)
    (hw : Written tl s l c) (hf : c.length + 1 < fuel) (hs : Small E s') :
    (∀ before after, tl.packTree pw fuel l s = .ok (before, after) s' →
      Leaves tl s' c after ∧ ReportsPacked tl.settings s' ∧
        ∃ i i' cs, Shows tl.settings s (.branch i cs) ∧ i' = { i with keyBytes := i'.keyBytes } ∧ before = (PTree.branch i' cs).lines 0) ∧
    ∀ e, tl.packTree pw fuel l s = .error e s' → Allowed E Config.debug (fun _ => False) e := by
  have ok := tl.settings_ok hE hT
  suffices hk : Small E s → _ by
    by_cases hs0 : Small E s
    · exact hk hs0
    · exact ⟨fun _ _ he => (hs0 ((grows_packTree hE tl pw fuel l).ok he hs)).elim, fun e he => (hs0 ((grows_packTree hE tl pw fuel l).err he hs)).elim⟩
  intro hs0
  obtain ⟨i, hi, hl⟩ := hw.root
  obtain ⟨s1, h1, h2, h3, h4, h5, h6, i', cs, h7, h8, hii⟩ := load_for ok hw.steady hs0 hw.content hi hl
  have hlev := h4.level ok (h2.reach ok.cfg) h3
  rw [packTree_eq, bind_apply, h1]
  simp only
  obtain ⟨t, hinv⟩ := ok.inv (h2.reach ok.cfg) h3
  obtain rfl := hinv.holds.loaded.unique ok.env h8
  obtain ⟨γ, h9, h10⟩ := dump_reads ok hinv.holds.snap (show rootLevel s1.root < fuel by omega)
  rw [bind_apply, h10]
  simp only
  have h11 := h2.cached h9
  have h12 := h4.cached ok (h2.reach ok.cfg) h3 h9
  rw [bind_apply]
  have hf2 : rootLevel ({ s1 with cache := γ } : St E).root < fuel := show rootLevel s1.root < fuel by omega
  cases h13 : pack tl.settings fuel { s1 with cache := γ } with
  | error e s2 =>
    refine ⟨nofun, fun e' he => ?_⟩
    cases he
    exact C18_pack_after_retain ok h11 fuel hf2 h13 hs
  | ok u s2 =>
    simp only
    have h14 : Steady tl.settings s2 := by
      have := h11.run (.pack fuel (.refl _) hf2)
      unfold endState at this
      rwa [h13] at this
    have rest : Small E s2 → ∃ γ lines, Leaves tl { s2 with cache := γ } c lines ∧ ReportsPacked tl.settings { s2 with cache := γ } ∧
        tl.afterPack fuel (optLines (some (.branch i' cs))) s2 = .ok (optLines (some (.branch i' cs)), lines) { s2 with cache := γ } := by
      intro hs2
      have h15 := C03_pack_preserves ok (h11.reach ok.cfg) fuel hf2 h13 hs2 h12
      have h16 := C04_pack_packs ok (h11.reach ok.cfg) fuel hf2 h13 hs2
      have hlev2 := h15.level ok (h14.reach ok.cfg) hs2
      obtain ⟨γ1, k1, k2⟩ := assert_reads ok h14 hs2 (show rootLevel s2.root < fuel by omega)
      have a1 := h14.cached k1
      have a2 := h15.cached ok (h14.reach ok.cfg) hs2 k1
      have a3 := h16.cached ok (h14.reach ok.cfg) hs2 k1
      obtain ⟨t2, hinv2⟩ := ok.inv (a1.reach ok.cfg) hs2
      obtain ⟨γ2, k3, k4⟩ := packed_reads ok hinv2.holds.snap a3 (show rootLevel s2.root < fuel by omega)
      have b1 := a1.cached k3
      have b2 := a2.cached ok (a1.reach ok.cfg) hs2 k3
      have b3 := a3.cached ok (a1.reach ok.cfg) hs2 k3
      obtain ⟨t3, hinv3⟩ := ok.inv (b1.reach ok.cfg) hs2
      obtain ⟨γ3, k5, k6⟩ := dump_reads ok hinv3.holds.snap (show rootLevel s2.root < fuel by omega)
      have hsm : Small E (endState (onTree tl.settings (Tree.dump fuel)) { s2 with cache := γ2 }) := by
        unfold endState
        rw [k6]
        exact hs2
      obtain ⟨_, γ4, lines, k7, k8, k9⟩ := finish hE hT tl (fun _ => ⟨b1, b2⟩) hf hsm
      refine ⟨γ4, lines, k9, b3.cached ok (b1.reach ok.cfg) hs2 k7, ?_⟩
      unfold Tool.afterPack
      rw [bind_apply, k2]
      simp only
      rw [bind_apply, k4]
      simp only [if_true]
      rw [bind_apply, k8]
      rfl
    constructor
    · intro before after he
      obtain ⟨γ4, lines, k1, k2, k3⟩ := rest ((grows_afterPack hE tl fuel _).ok he hs)
      have := he.symm.trans k3
      injection this with e1 e2
      injection e1 with e3 e4
      subst e2 e3 e4
      exact ⟨k1, k2, i, i', cs, h7, hii, rfl⟩
    · intro e he
      obtain ⟨γ4, lines, k1, k2, k3⟩ := rest ((grows_afterPack hE tl fuel _).err he hs)
      have := he.symm.trans k3
      cases this

theorem printValues_ok (xs : List (Nat × T.Key × V)) : (Tool.printValues (xs.map .ok) : M E _) = pure xs := by
  induction xs with
  | nil => rfl
  | cons x xs ih =>
    rw [List.map_cons, Tool.printValues, ih]
    rfl

/-- C81: `DumpValues` prints all elements of the tree, each with its offset, in ascending order. -/
theorem C81_dump_values (hE : E.Lawful) (hT : T.Lawful) (tl : Tool E) (pw : Passwords) {cfg : Config} (hv : cfg.Valid) (hr : Reach ⟨cfg, tl.secrets pw⟩ s) (hs : Small E s)
    (hc : Contains ⟨cfg, tl.secrets pw⟩ s c) {i : BranchIndex T} {l : T.Link} (hi : s.root = some (.branch i)) (hl : i.link = some l)
    (between : Nat → St E → St E) (hb : Harmless (tl.secrets pw) between) (n fuel : Nat) (hf : 2 * i.level + 4 ≤ fuel) (hn : i.count ≤ n) :
    ∃ s', tl.dumpValues pw between n fuel l s = .ok (matching (fun _ _ => true) 0 c) s' := by
  have ok : (⟨cfg, tl.secrets pw⟩ : Ctx E).Ok := ⟨hE, hT, hv⟩
  obtain ⟨t, h1, h2⟩ := C26_loaded_elements_partial ok hr hs hc hi hl allQuery (fun _ _ => True) (fun _ _ => true)
    ⟨fun _ _ _ => trivial, fun _ _ _ _ _ => trivial⟩ C13_all
  obtain ⟨s', h3⟩ := h2 between hb n fuel (by rw [hi]; exact hf) (by rw [hi]; exact hn)
  refine ⟨s', ?_⟩
  unfold Tool.dumpValues
  rw [bind_apply, h1]
  simp only
  rw [bind_apply, h3]
  simp only
  rw [printValues_ok]
  rfl

/-- C81: `Dump` prints the dump of the nodes of the tree; the index of the root is recomputed. -/
theorem C81_dump (hE : E.Lawful) (hT : T.Lawful) (tl : Tool E) (pw : Passwords) {cfg : Config} (hv : cfg.Valid) (hr : Reach ⟨cfg, tl.secrets pw⟩ s) (hs : Small E s)
    {i : BranchIndex T} {l : T.Link} (hi : s.root = some (.branch i)) (hl : i.link = some l) (fuel : Nat) (hf : i.level < fuel) :
    ∃ i' cs s', Shows ⟨cfg, tl.secrets pw⟩ s (.branch i cs) ∧ i' = { i with keyBytes := i'.keyBytes, isSealed := true } ∧
      tl.dump pw fuel l s = .ok ((PTree.branch i' cs).lines 0) s' := by
  have ok : (⟨cfg, tl.secrets pw⟩ : Ctx E).Ok := ⟨hE, hT, hv⟩
  obtain ⟨cs, i', o, h1, h2, h3, h4, h5, h6, _⟩ := loadTree_seen ok hr hs hi hl
  obtain ⟨γ, _, h7⟩ := dump0_reads hE hT fuel 0 (.branch i' cs) s h4.outlined h5.counts h6 (show i'.level < fuel by rw [h2]; exact hf)
  refine ⟨i', cs, { s with cache := γ }, h1, h2, ?_⟩
  unfold Tool.dump
  rw [bind_apply, h3]
  exact h7

/-- What is read after a repair. -/
theorem mended_reads (ok : cx.Ok) {t : PTree T V} (h1 : s.root = some t.index) (h2 : Mended (NodeInv.trivial cx) s.store t) (h3 : Sane E cx.sec s) :
    Contains cx s t.content ∧ Yields Tree.dump (snapshot cx s) s (t.lines 0) := by
  constructor
  · intro fuel hf
    rw [snapshot_level, h1] at hf
    unfold Tree.collect Tree.collectFrom snapshot
    rw [h1]
    obtain ⟨γ, _, h2⟩ := collect0_readsP ok.env ok.types (sane_serves ok.env cx.sec) fuel t 0 [] s h2.stored h2.counts h3 hf
    exact ⟨_, by simpa using h2⟩
  · intro fuel hf
    rw [snapshot_level, h1] at hf
    unfold Tree.dump snapshot
    rw [h1]
    obtain ⟨γ, _, h2⟩ := dump0_readsP (sane_serves ok.env cx.sec) ok.types fuel 0 t s h2.stored.outlined h2.counts h3 hf
    exact ⟨_, h2⟩

/-- Loading from a damaged store gives what is loaded from the intact one, or fails because the block of the root is missing. -/
theorem load_damaged {d s1 : St E} {l : T.Link} (hd : Damaged cx s d) (h1 : loadStreamBuilder cx l s = .ok () s1) :
    (∃ d1, loadStreamBuilder cx l d = .ok () d1 ∧ Damaged cx s1 d1 ∧ d1.store = d.store) ∨ ∃ e, E.get d.store l = .error e ∧ loadStreamBuilder cx l d = .error (.fail e) d := by
  have heq : ∀ a b : E.σ, getBlock E a l = getBlock E b l → createIndexFromLink E cx.sec (fun items level => cx.cfg.branchSealed items level) a l =
      createIndexFromLink E cx.sec (fun items level => cx.cfg.branchSealed items level) b l := by
    intro a b h
    unfold createIndexFromLink
    rw [h]
  unfold loadStreamBuilder at h1 ⊢
  cases hg' : E.get d.store l with
  | error e =>
    refine .inr ⟨e, rfl, ?_⟩
    unfold createIndexFromLink getBlock
    rw [hg']
    rfl
  | ok b' =>
    left
    have hb : getBlock E d.store l = getBlock E s.store l := by
      cases hg : E.get s.store l with
      | error e =>
        unfold createIndexFromLink getBlock at h1
        rw [hg] at h1
        cases h1
      | ok b =>
        unfold getBlock
        rw [hg, hg', hd.same _ .refl l b b' hg hg']
    rw [heq _ _ hb]
    split at h1
    · injection h1 with _ h1
      subst h1
      exact ⟨_, rfl, ⟨rfl, hd.written, hd.same, hd.cache⟩, rfl⟩
    · cases h1

/-- The settings of `Repair`. -/
def Tool.fast (tl : Tool E) (pw : Passwords) : Ctx E := ⟨Config.debugFast, tl.secrets pw⟩

theorem repairTree_eq (tl : Tool E) (pw : Passwords) (fuel : Nat) (l : T.Link) :
    tl.repairTree pw fuel l = (loadStreamBuilder (tl.fast pw) l >>= fun _ => repair (tl.fast pw) fuel >>= fun _ => onTree (tl.fast pw) (Tree.dump fuel)) := rfl

theorem grows_repairTree (hE : E.Lawful) (tl : Tool E) (pw : Passwords) (fuel : Nat) (l : T.Link) : Grows (tl.repairTree pw fuel l) := by
  rw [repairTree_eq]
  exact grows_load.bind fun _ => (frame0_repair (cx := tl.fast pw) hE fuel).grows.bind fun _ => (frame0_dump (cx := tl.fast pw) hE fuel).grows

/-- C81: `Repair`, with the passwords with which the tree was written, and whatever blocks are lost: if it succeeds, all of the tree can be read,
every position holds what it held or nothing, and a position whose blocks are all there keeps its element. It prints the dump of the result. It
fails only for a cause outside of the tree, or if the block of the root is lost. -/
theorem C81_repair (hE : E.Lawful) (hT : T.Lawful) (tl : Tool E) (pw : Passwords) {cfg : Config} (hv : cfg.Valid) (hr : Reach ⟨cfg, tl.secrets pw⟩ s)
    (hc : Contains ⟨cfg, tl.secrets pw⟩ s c) {i : BranchIndex T} {l : T.Link} (hi : s.root = some (.branch i)) (hl : i.link = some l) {d : St E}
    (hd : Damaged (tl.fast pw) s d) (fuel : Nat) (hf : i.level < fuel) (hs : Small E s') :
    (∀ lines, tl.repairTree pw fuel l d = .ok lines s' →
      ∃ c', Contains (tl.fast pw) s' c' ∧ Yields Tree.dump (snapshot (tl.fast pw) s') s' lines ∧ c'.length = c.length ∧
        (∀ n : Nat, c'[n]? = c[n]? ∨ c'[n]? = some none) ∧
        (∀ t, Shows (tl.fast pw) s t → ∀ n : Nat, (∀ l ∈ t.pathTo n, ∃ b, E.get d.store l = .ok b) → c'[n]? = c[n]?)) ∧
    ∀ e, tl.repairTree pw fuel l d = .error e s' → Allowed E Config.debugFast (fun _ => False) e ∨ ∃ m, E.get d.store l = .error m ∧ e = .fail m := by
  have hfast : Config.debugFast.Valid := ⟨by decide, by decide, by decide, by decide⟩
  have ok : (tl.fast pw).Ok := ⟨hE, hT, hfast⟩
  suffices hk : Small E d → _ by
    by_cases hs0 : Small E d
    · exact hk hs0
    · exact ⟨fun _ he => (hs0 ((grows_repairTree hE tl pw fuel l).ok he hs)).elim, fun e he => (hs0 ((grows_repairTree hE tl pw fuel l).err he hs)).elim⟩
  intro hs0
  obtain ⟨s1, h1, h2, h3, h4, i', cs, h5, h6, h7, h8, _⟩ := C67_reopen ok hv hr (hd.small hs0) hc hi hl
  have hlv : i'.level = i.level := by rw [h6]
  rcases load_damaged hd h1 with ⟨d1, h9, h10, hst⟩ | ⟨m, h9, h10⟩
  · have hf1 : rootLevel s1.root < fuel := by rw [h5]; show i'.level < fuel; omega
    rw [repairTree_eq, bind_apply, h9]
    simp only
    rw [bind_apply]
    cases h11 : repair (tl.fast pw) fuel d1 with
    | error e s2 =>
      refine ⟨nofun, fun e' he => ?_⟩
      cases he
      exact .inl (C61_repair_never_aborts ok h2 h10 fuel hf1 h11 hs)
    | ok report s2 =>
      simp only
      have key : Small E s2 → ∃ t t' γ, Shows (tl.fast pw) s1 t ∧ Mended (NodeInv.trivial (tl.fast pw)) s2.store t' ∧ Repaired E d1.store t t' report ∧
          s2.root = some t'.index ∧ t.content = c ∧ t'.content.length = c.length ∧ Sane E (tl.secrets pw) { s2 with cache := γ } ∧
          onTree (tl.fast pw) (Tree.dump fuel) s2 = .ok (t'.lines 0) { s2 with cache := γ } := by
        intro hs2
        rcases repair_cases ok h2 h10 fuel hf1 h11 hs2 with ⟨k1, _⟩ | ⟨t, t', k1, k2, k3, k4, k5, k6⟩
        · rw [h5] at k1; cases k1
        · have hlev : t'.index.level < fuel := by
            have e1 := unlink_level k5.unlink
            have e2 := k1.root
            rw [h5] at e2
            injection e2 with e2
            rw [e1, ← e2]
            show i'.level < fuel
            omega
          obtain ⟨γ, k7, k8⟩ := dump0_readsP (sane_serves hE (tl.secrets pw)) hT fuel 0 t' s2 k4.stored.outlined k4.counts k6 hlev
          have hs1 : Small E s1 := h10.small (((frame0_repair (cx := tl.fast pw) hE fuel).ok h11).small hs2)
          obtain ⟨u, hinv⟩ := ok.inv h2 hs1
          have hcu := (hinv.holds.contains ok.env ok.types).mp h3
          have htc : t.content = c := by
            obtain ⟨u, rfl⟩ : ∃ u', u = some u' := by
              cases u with
              | none => have := k1.root; rw [hinv.holds.root] at this; cases this
              | some u => exact ⟨u, rfl⟩
            obtain rfl := k1.unique ok.env hinv.holds.shows
            exact hcu.symm
          refine ⟨t, t', γ, k1, k4, k5, k3, htc, ?_, k7, (onTree_some k3).trans k8⟩
          rw [← htc, content_length ok.types k2.counts, content_length ok.types k4.counts, unlink_count k5.unlink]
      constructor
      · intro lines he
        have hs2 := (frame0_dump (cx := tl.fast pw) hE fuel).grows.ok he hs
        obtain ⟨t, t', γ, k1, k2, k3, k4, k5, k6, k7, k8⟩ := key hs2
        have := he.symm.trans k8
        injection this with e1 e2
        subst e1 e2
        obtain ⟨j1, j2⟩ := mended_reads (cx := tl.fast pw) (s := { s2 with cache := γ }) ok k4 k2 k7
        refine ⟨t'.content, j1, j2, k6, fun n => ?_, fun u hu n hp => ?_⟩
        · rw [← k5]
          rcases k3.pos n with h | h
          · exact .inl h
          · exact .inr h.1
        · have e1 : u = .branch i cs := hu.unique ok.env ⟨h7.root, h7.stored _ rfl⟩
          have e2 : t = .branch i' cs := k1.unique ok.env ⟨h8.root, h8.stored _ rfl⟩
          have e3 : i'.link = i.link := by rw [h6]
          have hpath : t.pathTo n = u.pathTo n := by
            rw [e1, e2]
            simp only [PTree.pathTo]
            rw [e3]
          rw [← k5]
          rcases k3.pos n with h | ⟨_, l', hl', hfg⟩
          · exact h
          · rw [hpath] at hl'
            obtain ⟨b, hb⟩ := hp l' hl'
            rw [← hst] at hb
            exact absurd hb ((k3.bad l' hfg).2 b)
      · intro e he
        obtain ⟨t, t', γ, k1, k2, k3, k4, k5, k6, k7, k8⟩ := key ((frame0_dump (cx := tl.fast pw) hE fuel).grows.err he hs)
        have := he.symm.trans k8
        cases this
  · rw [repairTree_eq, bind_apply, h10]
    refine ⟨nofun, fun e he => ?_⟩
    cases he
    exact .inr ⟨m, h9, rfl⟩

/-! ### C82 -/

/-- C82, partial: with any passwords, what `Build` has written is printed by `DumpValues` without passwords. So building and printing fit
together if no passwords are given. Missing: printing with the passwords that were given to `Build`, which fails (`C82_refuted`). -/
theorem C82_read_back_partial (hE : E.Lawful) (hT : T.Lawful) (tl : Tool E) (pw : Passwords) (fuel : Nat) (base : Option T.Link) (batches count : Nat) (b : Bool)
    (hb : Base tl b s base c) (hn : c.length + batches * count ≤ maxElements) (hf : c.length + batches * count + 1 < fuel) (hs : Small E s')
    {lines : List (Nat × NodeLine T.Link)} (he : tl.build pw fuel base batches count b s = .ok lines s') {i : BranchIndex T} {l : T.Link}
    (hi : s'.root = some (.branch i)) (hl : i.link = some l) (between : Nat → St E → St E) (hbt : Harmless tl.defaultSecrets between) (n fuel' : Nat)
    (hf' : 2 * i.level + 4 ≤ fuel') (hn' : i.count ≤ n) :
    ∃ s2, tl.dumpValues ⟨none, none⟩ between n fuel' l s' = .ok (matching (fun _ _ => true) 0 (c ++ (tl.numbers 0 (batches * count)).map some)) s2 := by
  obtain ⟨h1, _⟩ := (C81_build hE hT tl pw fuel base batches count b hb hn hf hs).1 lines he
  exact C81_dump_values hE hT tl ⟨none, none⟩ debug_valid (h1.steady.reach debug_valid) hs h1.content hi hl between hbt n fuel' hf' hn'

/-- The key that belongs to a password option: the key derived from the password, or the key of zeros if there is none. -/
inductive KeyFor (tl : Tool E) : Option String → E.CKey → Prop
  | given (p : String) : KeyFor tl (some p) (tl.keyOf p)
  | omitted : KeyFor tl none tl.zeroKey

/-- C82: the first password is for the indexes, the second one for the values: a tree that was written by any program with the keys that
belong to the passwords is printed. -/
theorem C82_passwords (hE : E.Lawful) (hT : T.Lawful) (tl : Tool E) (pw : Passwords) {ki kv : E.CKey} (hki : KeyFor tl pw.index ki)
    (hkv : KeyFor tl pw.value kv) {cfg : Config} (hv : cfg.Valid) (hr : Reach ⟨cfg, ⟨ki, kv⟩⟩ s) (hs : Small E s) (hc : Contains ⟨cfg, ⟨ki, kv⟩⟩ s c)
    {i : BranchIndex T} {l : T.Link} (hi : s.root = some (.branch i)) (hl : i.link = some l) (between : Nat → St E → St E)
    (hb : Harmless ⟨ki, kv⟩ between) (n fuel : Nat) (hf : 2 * i.level + 4 ≤ fuel) (hn : i.count ≤ n) :
    ∃ s', tl.dumpValues pw between n fuel l s = .ok (matching (fun _ _ => true) 0 c) s' := by
  have he : tl.secrets pw = ⟨ki, kv⟩ := by
    obtain ⟨pi, pv⟩ := pw
    cases hki <;> cases hkv <;> rfl
  exact C81_dump_values hE hT tl pw hv (he ▸ hr) hs (he ▸ hc) hi hl between (he ▸ hb) n fuel hf hn

/-! ### examples -/

namespace Concrete

/-- The element with number `n` has the key `n` and the value `10 * n`. -/
def tool : Tool env where
  keyOf := fun p => (p.length + 1 : Nat)
  zeroKey := (0 : Nat)
  element := fun n => (n, 10 * n)

/-- The passwords that are given. -/
def given : Passwords := ⟨some "first", some "second"⟩

/-- After `Build` with two unbalanced batches of three elements. -/
def built : St env := endState (tool.build given 20 none 2 3 true) (start 100)

/-- The link of the root. -/
def linkOf (s : St env) : Nat :=
  match s.root with
  | some (.branch i) => (show Option Nat from i.link).getD 0
  | _ => 0

theorem new_coherent {sec : Secrets env} (n : Nat) : Coherent env sec (start n) := by
  intro l b h
  cases h

theorem built_leaves : ∃ lines, Leaves tool built ((seq 0 6).map some) lines := by
  have h : (valueOf (tool.build given 20 none 2 3 true) (start 100)).isSome = true := by decide +kernel
  obtain ⟨lines, h⟩ := Option.isSome_iff_exists.mp h
  exact ⟨lines, ((C81_build env_lawful types_lawful tool given 20 none 2 3 true (.fresh (new_coherent 100)) (by decide) (by decide)
    (small_of (show smallB built = true by decide +kernel))).1 lines (value_of h)).1⟩

theorem built_small : Small env built := small_of (by decide +kernel)

theorem built_root : ∃ i, built.root = some (.branch i) ∧ i.link = some (linkOf built) ∧ i.level ≤ 2 ∧ i.count = 6 := by
  have h : (match built.root with
    | some (.branch i) => decide ((show Option Nat from i.link) = some (linkOf built)) && decide (i.level ≤ 2) && decide (i.count = 6)
    | _ => false) = true := by decide +kernel
  cases hr : built.root with
  | none => rw [hr] at h; cases h
  | some r =>
    cases r with
    | leaf i => rw [hr] at h; cases h
    | branch i =>
      rw [hr] at h
      simp only [Bool.and_eq_true, decide_eq_true_eq] at h
      exact ⟨i, rfl, h.1.1, h.1.2, h.2⟩

theorem built_written : Written tool built (linkOf built) ((seq 0 6).map some) := by
  obtain ⟨lines, h⟩ := built_leaves
  obtain ⟨i, h1, h2, _⟩ := built_root
  exact ⟨h.steady, ⟨i, h1, h2⟩, h.content⟩

/-- The tree has one leaf for each batch; it is not packed. -/
example : valueOf (Tree.isPacked 20 (snapshot tool.settings built)) built = some false ∧
    (valueOf (tool.dump ⟨none, none⟩ 20 (linkOf built)) built).map (fun l => l.map Prod.fst) = some [0, 2, 4, 2, 4] := by
  decide +kernel

/-- Adding two more elements. -/
example : ∃ lines, Leaves tool (endState (tool.build given 20 (some (linkOf built)) 1 2 true) built) ((seq 0 6 ++ seq 0 2).map some) lines := by
  have h : (valueOf (tool.build given 20 (some (linkOf built)) 1 2 true) built).isSome = true := by decide +kernel
  obtain ⟨lines, h⟩ := Option.isSome_iff_exists.mp h
  exact ⟨lines, ((C81_build env_lawful types_lawful tool given 20 _ 1 2 true (.written built_written nofun) (by decide) (by decide)
    (small_of (by decide +kernel))).1 lines (value_of h)).1⟩

/-- Packing. -/
example : ∃ after, Leaves tool (endState (tool.packTree given 20 (linkOf built)) built) ((seq 0 6).map some) after ∧
    ReportsPacked tool.settings (endState (tool.packTree given 20 (linkOf built)) built) := by
  have h : (valueOf (tool.packTree given 20 (linkOf built)) built).isSome = true := by decide +kernel
  obtain ⟨⟨before, after⟩, h⟩ := Option.isSome_iff_exists.mp h
  obtain ⟨h1, h2, _⟩ := (C81_pack env_lawful types_lawful tool given 20 _ built_written (by decide) (small_of (by decide +kernel))).1 before after (value_of h)
  exact ⟨after, h1, h2⟩

/-- Forgetting all but the last two elements: as the only leaves are unsealed nothing can be removed. -/
example : ∃ c lines, Leaves tool (endState (tool.forget given 20 (linkOf built) 4) built) c lines ∧ (c[4]? : Option (Option (Nat × Nat))) = some (some (4, 40)) := by
  have h : (valueOf (tool.forget given 20 (linkOf built) 4) built).isSome = true := by decide +kernel
  obtain ⟨lines, h⟩ := Option.isSome_iff_exists.mp h
  obtain ⟨c, h1, _, h2, _⟩ := (C81_forget env_lawful types_lawful tool given 20 _ 4 built_written (by decide) (small_of (by decide +kernel))).1 lines (value_of h)
  have h3 : (((seq 0 6).map some)[4]? : Option (Option (Nat × Nat))) = some (some (4, 40)) := by decide
  exact ⟨c, lines, h1, (h2 4 (by decide)).trans h3⟩

/-- The block with number 2 is lost. -/
theorem built_damaged : Damaged (tool.fast ⟨none, none⟩) built (hole [2] built) := by
  obtain ⟨h1, h2, h3, _⟩ := hole_damaged Config.debugFast [2] built
  exact ⟨h1, h2, h3, by intro l b h; cases h⟩

/-- Repairing: the leaf with the last three elements is lost. -/
example : ∃ c, Contains (tool.fast ⟨none, none⟩) (endState (tool.repairTree ⟨none, none⟩ 20 (linkOf built)) (hole [2] built)) c ∧ c.length = 6 := by
  have h : (valueOf (tool.repairTree ⟨none, none⟩ 20 (linkOf built)) (hole [2] built)).isSome = true := by decide +kernel
  obtain ⟨lines, h⟩ := Option.isSome_iff_exists.mp h
  obtain ⟨i, h1, h2, h3, h4⟩ := built_root
  obtain ⟨lines', h5⟩ := built_leaves
  obtain ⟨c, k1, _, k2, _⟩ := (C81_repair env_lawful types_lawful tool ⟨none, none⟩ debug_valid (h5.steady.reach debug_valid) h5.content h1 h2 built_damaged 20
    (by omega) (small_of (by decide +kernel))).1 lines (value_of h)
  exact ⟨c, k1, k2⟩

/-- What is left. -/
example : (valueOf (Tree.collect 20 (snapshot (tool.fast ⟨none, none⟩) (endState (tool.repairTree ⟨none, none⟩ 20 (linkOf built)) (hole [2] built))))
    (endState (tool.repairTree ⟨none, none⟩ 20 (linkOf built)) (hole [2] built))).map (fun c => c.map Option.isSome) =
    some [true, true, true, false, false, false] := by
  decide +kernel

/-- Printing the tree. -/
example : ∃ i' cs s', (i' : BranchIndex types).isSealed = true ∧
    tool.dump ⟨none, none⟩ 20 (linkOf built) built = .ok ((PTree.branch i' cs : PTree types Nat).lines 0) s' := by
  obtain ⟨i, h1, h2, h3, h4⟩ := built_root
  obtain ⟨lines', h5⟩ := built_leaves
  obtain ⟨i', cs, s', _, k2, k3⟩ := C81_dump env_lawful types_lawful tool ⟨none, none⟩ debug_valid (h5.steady.reach debug_valid) built_small h1 h2 20 (by omega)
  exact ⟨i', cs, s', by rw [k2], k3⟩

/-- An error: the store is full. -/
example : Allowed env Config.debug (fun v => ∃ k, (k, v) ∈ tool.numbers 0 (1 * 2)) (.fail "full") :=
  (C81_build (s := start 0) env_lawful types_lawful tool given 20 none 1 2 false (.fresh (new_coherent 0)) (by decide) (by decide)
    (small_of (s := endState (tool.build given 20 none 1 2 false) (start 0)) (by decide +kernel))).2 _ (error_of (by decide +kernel))

/-- What `DumpValues` prints for the tree of `Build`. -/
def printed (pw : Passwords) : Option (List (Nat × Nat × Nat)) := valueOf (tool.dumpValues pw idle 10 20 (linkOf built)) built

/-- A tree written with the keys 3 and 5 is printed with the passwords these keys belong to. -/
example : ∃ s2, tool.dumpValues ⟨some "ab", some "abcd"⟩ idle 10 20 (6 : Nat) packed7 = .ok (matching (fun _ _ => true) 0 ((seq 0 7).map some)) s2 := by
  have h1 : (match packed7.root with | some (.branch i) => decide ((show Option Nat from i.link) = some 6 ∧ i.level = 2 ∧ i.count = 7) | _ => false) = true := by
    decide +kernel
  cases hroot : packed7.root with
  | none => rw [hroot] at h1; cases h1
  | some x =>
    cases x with
    | leaf _ => rw [hroot] at h1; cases h1
    | branch i =>
      rw [hroot] at h1
      obtain ⟨h2, h3, h4⟩ := of_decide_eq_true h1
      exact C82_passwords env_lawful types_lawful tool ⟨some "ab", some "abcd"⟩ (.given "ab") (.given "abcd") (cfg := tiny) tiny_ok.cfg packed7_reach
        packed7_small packed7_contains hroot h2 idle (idle_harmless _) 10 20 (by omega) (by omega)

/-- C82 is false: after `Build` with passwords, `DumpValues` without passwords prints all elements, and with the passwords of `Build` it fails. -/
theorem C82_refuted : given.index.isSome = true ∧ given.value.isSome = true ∧
    printed ⟨none, none⟩ = some ((seq 0 6).map fun x => (x.1, x)) ∧ printed given = none := by
  decide +kernel

/-- The elements are printed by the theorem as well. -/
example : ∃ s2, tool.dumpValues ⟨none, none⟩ idle 10 20 (linkOf built) built = .ok (matching (fun _ _ => true) 0 ((seq 0 6).map some)) s2 := by
  have h : (valueOf (tool.build given 20 none 2 3 true) (start 100)).isSome = true := by decide +kernel
  obtain ⟨lines, h⟩ := Option.isSome_iff_exists.mp h
  obtain ⟨i, h1, h2, h3, h4⟩ := built_root
  exact C82_read_back_partial env_lawful types_lawful tool given 20 none 2 3 true (.fresh (new_coherent 100)) (by decide) (by decide)
    built_small (value_of h) h1 h2 idle (idle_harmless _) 10 20 (by omega) (by omega)

end Concrete

end Banyan
