import Verif.Proofs.Damage
import Verif.Props.Index
import Verif.Concrete.Hole
/-
Reading from a damaged store: C32, C62.
-/
set_option autoImplicit false
namespace Banyan

open PTree Concrete

variable {T : TreeTypes} {V : Type} {E : Env T V} {X : Type} {cx : Ctx E} {s d : St E} {c : List (Option (T.Key × V))}

/-! ### C32 -/

/-- An error can only be the last thing delivered. -/
def ErrorsLast {α : Type} (l : List (Except String α)) : Prop := ∀ pre e post, l = pre ++ .error e :: post → post = []

theorem ErrorsLast.cons_ok {α : Type} {l : List (Except String α)} (h : ErrorsLast l) (a : α) : ErrorsLast (.ok a :: l) := by
  intro pre e post hl
  cases pre with
  | nil => cases hl
  | cons x pre => exact h pre e post (List.cons.inj hl).2

theorem ErrorsLast.append_ok {α : Type} {l : List (Except String α)} (h : ErrorsLast l) (a : List α) : ErrorsLast (a.map .ok ++ l) := by
  induction a with
  | nil => exact h
  | cons x a ih => exact ih.cons_ok x

theorem ErrorsLast.nil {α : Type} : ErrorsLast ([] : List (Except String α)) := by
  intro pre e post h
  cases pre <;> cases h

theorem ErrorsLast.single {α : Type} (e : String) : ErrorsLast ([.error e] : List (Except String α)) := by
  intro pre e post h
  cases pre with
  | nil => cases h; rfl
  | cons x pre =>
    have := (List.cons.inj h).2
    cases pre <;> cases this

theorem iterTake_empty (sec : Secrets E) (q : Query T) (mode : Mode) (mkExtra : Index T → X) (fuel : Nat) (between : Nat → St E → St E)
    (n o : Nat) (s s' : St E) (r : List (Except String (Chunk T V X))) (h : iterTake sec q mode mkExtra fuel between n ⟨o, []⟩ s = .ok r s') :
    r = [] := by
  cases n with
  | zero => cases h; rfl
  | succ n =>
    cases fuel with
    | zero => cases h
    | succ fuel => cases h; rfl

theorem iterNext_error (sec : Secrets E) (q : Query T) (mode : Mode) (mkExtra : Index T → X) (fuel : Nat) (it it' : IterState T) (s s' : St E)
    (e : String) (h : iterNext (E := E) sec q mode mkExtra fuel it s = .ok (some (.error e), it') s') : it'.stack = [] := by
  unfold iterNext at h
  rw [bind_apply] at h
  cases hr : M.tryFail (nextFallible sec q mode mkExtra fuel it) s with
  | error e s2 => rw [hr] at h; cases h
  | ok a s2 =>
    rw [hr] at h
    cases a with
    | error m => cases h; rfl
    | ok p =>
      obtain ⟨o, it2⟩ := p
      cases o <;> cases h

theorem iterTake_errorsLast (sec : Secrets E) (q : Query T) (mode : Mode) (mkExtra : Index T → X) (fuel : Nat) (between : Nat → St E → St E)
    (n : Nat) (it : IterState T) (s s' : St E) (r : List (Except String (Chunk T V X)))
    (h : iterTake sec q mode mkExtra fuel between n it s = .ok r s') : ErrorsLast r := by
  induction n generalizing it s r with
  | zero => cases h; exact ErrorsLast.nil
  | succ n ih =>
    unfold iterTake at h
    rw [bind_apply] at h
    cases hn : iterNext sec q mode mkExtra fuel it s with
    | error e s2 => rw [hn] at h; cases h
    | ok a s2 =>
      rw [hn] at h
      obtain ⟨a, it'⟩ := a
      cases a with
      | none => cases h; exact ErrorsLast.nil
      | some a =>
        simp only at h
        rw [bind_apply, show (modify (between n) : M E Unit) s2 = .ok () (between n s2) from rfl] at h
        simp only at h
        rw [bind_apply] at h
        cases ht : iterTake sec q mode mkExtra fuel between n it' (between n s2) with
        | error e s3 => rw [ht] at h; cases h
        | ok r' s3 =>
          rw [ht] at h
          cases h
          cases a with
          | ok ch => exact (ih _ _ _ ht).cons_ok ch
          | error e =>
            have hst := iterNext_error _ _ _ _ _ _ _ _ _ _ hn
            obtain ⟨o, st⟩ := it'
            cases hst
            rw [iterTake_empty _ _ _ _ _ _ _ _ _ _ _ ht]
            exact ErrorsLast.single e

/-- C32 for chunks: after an error nothing more is delivered, no matter how often `next` is called, what the store does
and what is in it. -/
theorem C32_chunks (q : Query T) (mode : Mode) (mkExtra : Index T → X) (between : Nat → St E → St E) (n fuel : Nat) (t : Tree E) (s s' : St E)
    (r : List (Except String (Chunk T V X))) (h : Tree.chunks q mode mkExtra between n fuel t s = .ok r s') : ErrorsLast r := by
  unfold Tree.chunks at h
  cases t with
  | none => cases h; exact ErrorsLast.nil
  | some t => exact iterTake_errorsLast _ _ _ _ _ _ _ _ _ _ _ h

theorem ErrorsLast.flatten {l : List (Except String (Chunk T V X))} (h : ErrorsLast l) : ErrorsLast (flattenChunks l) := by
  induction l with
  | nil => exact ErrorsLast.nil
  | cons a l ih =>
    have hl : ErrorsLast l := fun pre e post hp => h (a :: pre) e post (by rw [hp]; rfl)
    cases a with
    | ok ch =>
      show ErrorsLast (ch.data.map .ok ++ flattenChunks l)
      exact (ih hl).append_ok _
    | error e =>
      have := h [] e l rfl
      subst this
      exact ErrorsLast.single e

/-- C32 for elements. -/
theorem C32_elements (q : Query T) (mode : Mode) (between : Nat → St E → St E) (n fuel : Nat) (t : Tree E) (s s' : St E)
    (r : List (Except String (Nat × T.Key × V))) (h : Tree.elements q mode between n fuel t s = .ok r s') : ErrorsLast r := by
  unfold Tree.elements at h
  rw [bind_apply] at h
  cases hc : Tree.chunks q mode (fun _ => ()) between n fuel t s with
  | error e s2 => rw [hc] at h; cases h
  | ok l s2 =>
    rw [hc] at h
    cases h
    exact (C32_chunks _ _ _ _ _ _ _ _ _ _ hc).flatten

/-! ### C62 -/

theorem Snap.damaged {α : Type} {t : Option (PTree T V)} (hs : Snap cx s t s) (hd : Faulty cx.sec s.store d) {op : Nat → Tree E → M E α} {a : α}
    (hr : ∀ fuel, Robust cx.sec s.store (op fuel (snapshot cx s))) (hy : ∀ fuel, rootLevel s.root < fuel → Reads cx.sec (op fuel (snapshot cx s)) (intact s.store d) a) :
    YieldsOrFails op (snapshot cx s) d a := by
  intro fuel hf
  rw [snapshot_level] at hf
  rcases (hr fuel).tries hd (hy fuel hf) with ⟨s', h, _⟩ | ⟨msg, s', h, _⟩
  · exact .inl ⟨s', h⟩
  · exact .inr ⟨msg, s', h⟩

/-- C62: reading one element from a damaged store gives the right answer or an error. -/
theorem C62_get (ok : cx.Ok) (hr : Reach cx s) (hs : Small E s) (hc : Contains cx s c) (hd : Faulty cx.sec s.store d) (o : Nat) :
    YieldsOrFails (fun fuel t => Tree.get fuel t o) (snapshot cx s) d (c[o]?.join) := by
  obtain ⟨t, hi⟩ := ok.inv hr hs
  rw [hi.holds.contains ok.env ok.types] at hc
  subst hc
  have hsn := hi.holds.snap
  refine hsn.damaged hd ?_ ?_
  · intro fuel
    unfold Tree.get snapshot
    cases s.root with
    | none => exact Robust.pure _
    | some i => exact Robust.get0 ok.env _ _ _
  · intro fuel hf
    have hroot := hsn.root
    unfold Tree.get snapshot
    cases t with
    | none => rw [hroot]; exact Reads.pure hd.coherent _
    | some t =>
      rw [hsn.level] at hf
      rw [hroot]
      exact get0_reads ok.env ok.types fuel t o (intact s.store d) (hsn.stored t rfl) (hsn.wf t rfl).counts hd.coherent hf

/-- C62: reading all elements from an offset on. -/
theorem C62_collect (ok : cx.Ok) (hr : Reach cx s) (hs : Small E s) (hc : Contains cx s c) (hd : Faulty cx.sec s.store d) (o : Nat) :
    YieldsOrFails (fun fuel t => Tree.collectFrom fuel t o) (snapshot cx s) d (c.drop o) := by
  obtain ⟨t, hi⟩ := ok.inv hr hs
  rw [hi.holds.contains ok.env ok.types] at hc
  subst hc
  have hsn := hi.holds.snap
  refine hsn.damaged hd ?_ ?_
  · intro fuel
    unfold Tree.collectFrom snapshot
    cases s.root with
    | none => exact Robust.pure _
    | some i => exact Robust.collect0 ok.env _ _ _ _
  · intro fuel hf
    have hroot := hsn.root
    unfold Tree.collectFrom snapshot
    cases t with
    | none => rw [hroot]; simpa [optContent] using Reads.pure hd.coherent _
    | some t =>
      rw [hsn.level] at hf
      rw [hroot]
      simpa [optContent] using collect0_reads ok.env ok.types fuel t o [] (intact s.store d) (hsn.stored t rfl) (hsn.wf t rfl).counts hd.coherent hf

/-- C62: iterating over the chunks of a tree in a damaged store delivers what is delivered from the intact store, or
the beginning of it and then one error, even if blocks come and go between the calls of `next`. -/
theorem C62_chunks (ok : cx.Ok) (hr : Reach cx s) (hs : Small E s) (hd : Faulty cx.sec s.store d) (q : Query T) (mode : Mode) (mkExtra : Index T → X)
    {items : List (Chunk T V X)} (hi : Delivers (fun between n fuel t => Tree.chunks q mode mkExtra between n fuel t) cx.sec (snapshot cx s) s items)
    (between : Nat → St E → St E) (hb : Tolerable cx.sec s.store between) (n fuel : Nat) (hf : 2 * (snapshot cx s).level + 4 ≤ fuel) :
    ∃ r s', Tree.chunks q mode mkExtra between n fuel (snapshot cx s) d = .ok r s' ∧
      (r = (items.take n).map .ok ∨ ∃ j e, j < n ∧ j < items.length ∧ r = (items.take j).map .ok ++ [.error e]) := by
  obtain ⟨t, hinv⟩ := ok.inv hr hs
  have hsn := hinv.holds.snap
  have hroot := hsn.root
  rw [hi.unique (hsn.chunks ok.env ok.types mode)]
  rw [snapshot_level] at hf
  unfold Tree.chunks snapshot
  cases t with
  | none => rw [hroot]; exact ⟨[], d, rfl, .inl (by cases mode <;> simp [optChunks, ordered])⟩
  | some t =>
    rw [hsn.level] at hf
    rw [hroot]
    obtain ⟨r, s', h1, _, h2⟩ := iterTake_faulty ok.env ok.types (q := q) (mkExtra := mkExtra) hb n hd (live_new (m := mode) (hsn.seen ok.types)) hf
    exact ⟨r, s', h1, h2⟩

/-- C62: the same for elements. The elements delivered before an error are a beginning of all the elements. -/
theorem C62_elements (ok : cx.Ok) (hr : Reach cx s) (hs : Small E s) (hd : Faulty cx.sec s.store d) (q : Query T) (mode : Mode)
    (items : List (Nat × T.Key × V)) (n fuel : Nat) (hf : 2 * (snapshot cx s).level + 4 ≤ fuel)
    (hi : ∃ s', Tree.elements q mode idle n fuel (snapshot cx s) s = .ok (items.map .ok) s')
    (between : Nat → St E → St E) (hb : Tolerable cx.sec s.store between) :
    ∃ r s', Tree.elements q mode between n fuel (snapshot cx s) d = .ok r s' ∧
      (r = items.map .ok ∨ ∃ pre e, pre <+: items ∧ r = pre.map .ok ++ [.error e]) := by
  obtain ⟨t, hinv⟩ := ok.inv hr hs
  have hsn := hinv.holds.snap
  have hch := hsn.chunks ok.env ok.types (q := q) (mkExtra := fun _ => ()) mode
  obtain ⟨s1, h1⟩ := hi
  obtain ⟨s2, h2⟩ := hch idle n fuel (idle_harmless _) hf
  have h2 : Tree.chunks q mode (fun _ => ()) idle n fuel (snapshot cx s) s = _ := h2
  unfold Tree.elements at h1
  rw [bind_apply, h2] at h1
  have h3 := (EStateM.Result.ok.inj h1).1
  rw [flattenChunks_ok] at h3
  have h4 := (List.map_inj_right (fun x y h => Except.ok.inj h)).mp h3
  subst h4
  obtain ⟨r, s', g1, g2⟩ := C62_chunks ok hr hs hd q mode (fun _ => ()) hch between hb n fuel hf
  refine ⟨flattenChunks r, s', ?_, ?_⟩
  · unfold Tree.elements
    rw [bind_apply, g1]
    rfl
  · rcases g2 with rfl | ⟨j, e, j1, _, rfl⟩
    · exact .inl (flattenChunks_ok _)
    · refine .inr ⟨((ordered mode (optChunks q (fun _ => ()) t)).take j).flatMap Chunk.data, e, ?_, ?_⟩
      · obtain ⟨k, rfl⟩ : ∃ k, n = j + k := ⟨n - j, by omega⟩
        rw [List.take_add, List.flatMap_append]
        exact List.prefix_append _ _
      · rw [← flattenChunks_ok]
        unfold flattenChunks
        rw [List.flatMap_append]
        rfl

theorem Enumerates.unique {α : Type} {op : (Nat → St E → St E) → Nat → Nat → Tree E → M E (List (Except String α))} {sec : Secrets E}
    {t : Tree E} {s : St E} {a b : List α} (ha : Enumerates op sec t s a) (hb : Enumerates op sec t s b) : a = b := by
  obtain ⟨f1, ha⟩ := ha
  obtain ⟨f2, hb⟩ := hb
  obtain ⟨s1, h1⟩ := ha idle (a.length + b.length) (f1 + f2) (idle_harmless sec) (by omega)
  obtain ⟨s2, h2⟩ := hb idle (a.length + b.length) (f1 + f2) (idle_harmless sec) (by omega)
  rw [h1] at h2
  have h3 := (EStateM.Result.ok.inj h2).1
  rw [List.take_of_length_le (by omega), List.take_of_length_le (by omega)] at h3
  exact (List.map_inj_right (fun x y h => Except.ok.inj h)).mp h3

/-- C32, C62 for indexes: what is delivered by the index iterator, leaving out the errors, is right and in order. -/
theorem C32_indexes_partial (ok : cx.Ok) (hr : Reach cx s) (hs : Small E s) (hd : Faulty cx.sec s.store d) (q : Query T) (mode : Mode)
    {items : List (Index T)} (hi : Enumerates (fun between n fuel t => Tree.indexes q mode between n fuel t) cx.sec (snapshot cx s) s items) :
    ∃ bound, ∀ between n fuel, Tolerable cx.sec s.store between → bound < fuel →
      ∃ r s', Tree.indexes q mode between n fuel (snapshot cx s) d = .ok r s' ∧ oks r <+: items := by
  obtain ⟨t, hinv⟩ := ok.inv hr hs
  have hsn := hinv.holds.snap
  have hroot := hsn.root
  rw [Enumerates.unique hi (hsn.indexes ok.env ok.types mode)]
  unfold Tree.indexes snapshot
  cases t with
  | none => rw [hroot]; exact ⟨0, fun between n fuel hb hf => ⟨[], d, rfl, List.nil_prefix⟩⟩
  | some t =>
    rw [hroot]
    refine ⟨turns q t 0 + 1, fun between n fuel hb hf => ?_⟩
    obtain ⟨r, s', h1, _, h2⟩ := indexTake_faulty ok.env (q := q) hb n hd (ivis_new (m := mode) ((hsn.seen ok.types).visible _ _ _)) hf
    exact ⟨r, s', h1, h2⟩

/-! ### concrete damage -/

/-- What is delivered by the chunk iterator if block `n` is lost: the ranges (`none` stands for an error). -/
def damagedChunks (n : Nat) (mode : Mode) : Option (List (Option (Nat × Nat))) :=
  (valueOf (Tree.chunks (V := Nat) (allQuery (T := types)) mode (fun _ => ()) idle 20 20 (snapshot (ctx tiny) unpacked10)) (hole [n] unpacked10)).map
    fun l => l.map fun x => match x with | .ok ch => some ch.range | .error _ => none

/-- The levels of the nodes delivered by the index iterator if block `n` is lost. -/
def damagedIndexes (n : Nat) : Option (List (Option Nat)) :=
  (valueOf (Tree.indexes (V := Nat) (allQuery (T := types)) .forward idle 12 20 (snapshot (ctx tiny) unpacked10)) (hole [n] unpacked10)).map
    fun l => l.map fun x => match x with | .ok i => some i.level | .error _ => none

/-- What the two iterators do on a concrete damaged store. -/
example : damagedChunks 5 .forward = some [some (0, 2), some (2, 4), none] ∧
    damagedChunks 5 .backward = some [some (9, 10), some (7, 9), none] := by
  refine ⟨?_, ?_⟩ <;> decide +kernel

example : damagedIndexes 9 = some [some 3, some 2, some 1, some 0, some 0, some 1, some 0, some 0, none, none,
    none, none] := by decide +kernel

/-- C32 is false of the index iterator: it delivers the same error again and again. -/
theorem C32_refuted : ∃ (s d s' : St env) (r : List (Except String (Index types))), Reach (ctx tiny) s ∧ Faulty (ctx tiny).sec s.store d ∧
    Tree.indexes (V := Nat) allQuery .forward idle 12 20 (snapshot (ctx tiny) s) d = .ok r s' ∧ ¬ ErrorsLast r := by
  have h : damagedIndexes 9 = some [some 3, some 2, some 1, some 0, some 0, some 1, some 0, some 0, none, none,
    none, none] := by decide +kernel
  unfold damagedIndexes at h
  rw [Option.map_eq_some_iff] at h
  obtain ⟨r, h1, h2⟩ := h
  refine ⟨unpacked10, hole [9] unpacked10, _, r, unpacked10_reach, hole_faulty tiny [9] unpacked10, value_of h1, ?_⟩
  intro he
  have hl := congrArg List.length h2
  have h9 := congrArg (fun l => l[8]?) h2
  simp only [List.length_map, List.length_cons, List.length_nil] at hl
  simp only [List.getElem?_map, List.getElem?_cons_succ, List.getElem?_cons_zero] at h9
  obtain ⟨x, hx, hx2⟩ := Option.map_eq_some_iff.mp h9
  cases x with
  | ok i => cases hx2
  | error e =>
    have hlt : 8 < r.length := by omega
    have hsplit : r = r.take 8 ++ .error e :: r.drop 9 := by
      rw [List.getElem?_eq_getElem hlt] at hx
      rw [← Option.some.inj hx, List.getElem_cons_drop, List.take_append_drop]
    have := congrArg List.length (he _ _ _ hsplit)
    simp only [List.length_drop, List.length_nil] at this
    omega

example : YieldsOrFails (fun fuel t => Tree.get fuel t 5) (snapshot (ctx tiny) unpacked10) (hole [4] unpacked10) (some ((5 : Nat), (50 : Nat))) :=
  C62_get tiny_ok unpacked10_reach unpacked10_small unpacked10_contains (hole_faulty tiny [4] unpacked10) 5

/-- Reading one element if block 3 is lost. -/
def damagedGet (o : Nat) : Option (Option (Nat × Nat)) := valueOf (Tree.get 10 (snapshot (ctx tiny) unpacked10) o) (hole [3] unpacked10)

/-- Both alternatives happen. -/
example : damagedGet 3 = some (some (3, 30)) ∧
    errorOf (Tree.get 10 (snapshot (ctx tiny) unpacked10) 5) (hole [3] unpacked10) = some (.fail "not there") := by
  refine ⟨?_, ?_⟩ <;> decide +kernel

end Banyan
