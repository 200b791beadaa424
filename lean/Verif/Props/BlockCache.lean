import Verif.Props.Stores
/-
What the block cache keeps (C87): small blocks only, and these are then served without the inner store.
-/
set_option autoImplicit false
namespace Banyan

section
variable {L : Type} {I : BlockStore L} {W : BlockCache L}

/-- What C87 assumes about `WeightCache`, beyond `BlockCache.Lawful`: the capacity does not change, a block that is not
larger than the capacity is there after it was put, and lookups do not make the cache forget. -/
structure BlockCache.Keeping (W : BlockCache L) (capacity : W.γ → Nat) : Prop where
  new_cap : ∀ n, capacity (W.new n) = n
  get_cap : ∀ c l, capacity (W.get c l).2 = capacity c
  put_cap : ∀ c l b, capacity (W.put c l b) = capacity c
  put_get : ∀ c l b, b.length ≤ capacity c → (W.get (W.put c l b) l).1 = some b
  get_get : ∀ c l l' b, (W.get c l).1 = some b → (W.get (W.get c l').2 l).1 = some b

/-- Every block in the cache, and every block that a thread is about to insert, is small. -/
structure Threads.SmallBlocks (maxSize capacity : Nat) (t : Threads I W) : Prop where
  max : ∀ c, t.shared.cache = some c → c.maxSize = maxSize
  off : maxSize = 0 ∨ capacity = 0 → t.shared.cache = none
  has : ∀ l d, (t.shared.get0 l).1 = some d → d.length ≤ maxSize
  fills : ∀ l d, Task.fill l d ∈ t.tasks → d.length ≤ maxSize

theorem MemCache.fill_small (hW : W.Lawful) {c : MemCache I W} {n : Nat} (hh : ∀ l d, (c.get0 l).1 = some d → d.length ≤ n)
    (l : L) (d : Bytes) (hd : d.length ≤ n) : ∀ l' d', ((c.fill l d).get0 l').1 = some d' → d'.length ≤ n := by
  intro l' d' h
  unfold fill at h
  split at h
  · rename_i w hw
    have h' : (W.get (W.put w.cache l d) l').1 = some d' := h
    rcases hW.put_sub _ _ _ _ _ h' with ⟨_, rfl⟩ | h2
    · exact hd
    · refine hh l' d' ?_
      unfold get0
      rw [hw]
      exact h2
  · exact hh l' d' h

theorem MemCache.get0_small (hW : W.Lawful) {c : MemCache I W} {n : Nat} (hh : ∀ l d, (c.get0 l).1 = some d → d.length ≤ n)
    (l : L) : ∀ l' d', ((c.get0 l).2.get0 l').1 = some d' → d'.length ≤ n := by
  intro l' d' h
  rcases hc : c.cache with _ | w
  · have : (c.get0 l).2 = c := by unfold get0; rw [hc]
    rw [this] at h
    exact hh l' d' h
  · have h' : (W.get (W.get w.cache l).2 l').1 = some d' := by
      unfold get0 at h
      rw [hc] at h
      exact h
    refine hh l' d' ?_
    unfold get0
    rw [hc]
    exact hW.get_sub _ _ _ _ h'

theorem MemCache.fill_cache (c : MemCache I W) (l : L) (d : Bytes) (n : Nat) (hm : ∀ w, c.cache = some w → w.maxSize = n) :
    (∀ w, (c.fill l d).cache = some w → w.maxSize = n) ∧ (c.cache = none → (c.fill l d).cache = none) := by
  unfold fill
  split
  · rename_i w hw
    refine ⟨fun w' h => ?_, fun h => ?_⟩
    · cases h; exact hm w hw
    · rw [hw] at h; cases h
  · exact ⟨hm, id⟩

theorem MemCache.get0_cache (c : MemCache I W) (l : L) (n : Nat) (hm : ∀ w, c.cache = some w → w.maxSize = n) :
    (∀ w, (c.get0 l).2.cache = some w → w.maxSize = n) ∧ (c.cache = none → (c.get0 l).2.cache = none) := by
  unfold get0
  split
  · rename_i w hw
    refine ⟨fun w' h => ?_, fun h => ?_⟩
    · cases h; exact hm w hw
    · rw [hw] at h; cases h
  · exact ⟨hm, id⟩

theorem MemCache.takes_le {c : MemCache I W} {n : Nat} (hm : ∀ w, c.cache = some w → w.maxSize = n) {d : Bytes}
    (h : c.takes d = true) : d.length ≤ n := by
  unfold takes at h
  split at h
  · rename_i w hw
    rw [← hm w hw]
    exact of_decide_eq_true h
  · cases h

/-- one step of a thread -/
theorem Task.step_small (hW : W.Lawful) {c : MemCache I W} {n cap : Nat} {t : Task L}
    (h : Threads.SmallBlocks n cap ⟨c, [t]⟩) :
    Threads.SmallBlocks n cap ⟨(t.step c).2.2, (t.step c).1.toList⟩ := by
  have hmax : ∀ w, c.cache = some w → w.maxSize = n := h.max
  have hoff : n = 0 ∨ cap = 0 → c.cache = none := h.off
  have hhas : ∀ l d, (c.get0 l).1 = some d → d.length ≤ n := h.has
  have hfills : ∀ l d, t = Task.fill l d → d.length ≤ n := fun l d he => h.fills l d (by rw [he]; exact List.mem_singleton.mpr rfl)
  have putInner_has : ∀ d' l d, ((c.putInner d').2.get0 l).1 = some d → d.length ≤ n := by
    intro d' l d hx
    refine hhas l d ?_
    unfold MemCache.get0 at hx ⊢
    rw [show (c.putInner d').2.cache = c.cache from rfl] at hx
    split at hx
    · exact hx
    · cases hx
  have nofill : ∀ {l d}, Task.fill (L := L) l d ∈ ([] : List (Task L)) → d.length ≤ n := fun hx => (by cases hx)
  cases t with
  | get l =>
    have g1 := MemCache.get0_cache c l n hmax
    have g2 := MemCache.get0_small hW hhas l
    simp only [Task.step]
    split
    · rename_i data c' he
      have : c' = (c.get0 l).2 := by rw [he]
      subst this
      exact ⟨g1.1, fun ho => g1.2 (hoff ho), g2, fun _ _ hx => nofill hx⟩
    · rename_i c' he
      have : c' = (c.get0 l).2 := by rw [he]
      subst this
      refine ⟨g1.1, fun ho => g1.2 (hoff ho), g2, fun _ _ hx => ?_⟩
      cases List.mem_singleton.mp hx
  | getInner l => exact ⟨hmax, hoff, hhas, fun _ _ hx => nofill hx⟩
  | put d =>
    simp only [Task.step]
    have hin := putInner_has d
    split
    · rename_i l c' he
      have : c' = (c.putInner d).2 := by rw [he]
      subst this
      refine ⟨hmax, hoff, hin, fun l' d' hx => ?_⟩
      by_cases ht : (c.putInner d).2.takes d = true
      · rw [if_pos ht] at hx
        have := List.mem_singleton.mp hx
        injection this with h1 h2
        subst h2
        exact MemCache.takes_le (c := (c.putInner d').2) hmax ht
      · rw [if_neg ht] at hx
        cases hx
    · rename_i e c' he
      have : c' = (c.putInner d).2 := by rw [he]
      subst this
      exact ⟨hmax, hoff, hin, fun _ _ hx => nofill hx⟩
  | fill l d =>
    have g1 := MemCache.fill_cache c l d n hmax
    exact ⟨g1.1, fun ho => g1.2 (hoff ho), MemCache.fill_small hW hhas l d (hfills l d rfl), fun _ _ hx => nofill hx⟩
  | foreign d => exact ⟨hmax, hoff, putInner_has d, fun _ _ hx => nofill hx⟩
  | offer l d =>
    by_cases ht : c.takes d = true
    · have g1 := MemCache.fill_cache c l d n hmax
      simp only [Task.step, MemCache.offer]
      rw [if_pos ht]
      exact ⟨g1.1, fun ho => g1.2 (hoff ho), MemCache.fill_small hW hhas l d (MemCache.takes_le hmax ht), fun _ _ hx => nofill hx⟩
    · simp only [Task.step, MemCache.offer]
      rw [if_neg ht]
      exact ⟨hmax, hoff, hhas, fun _ _ hx => nofill hx⟩

theorem Threads.later_small (hW : W.Lawful) {n cap : Nat} {t t' : Threads I W} (h : t.SmallBlocks n cap)
    (hl : Threads.Later t t') : t'.SmallBlocks n cap := by
  induction hl with
  | refl => exact h
  | step _ hg ih =>
    cases hg with
    | spawn task hf =>
      refine ⟨ih.max, ih.off, ih.has, fun l d hx => ?_⟩
      rcases List.mem_append.mp hx with hx | hx
      · exact ih.fills l d hx
      · have := List.mem_singleton.mp hx
        subst this
        exact absurd hf id
    | run i _ _ hr =>
      rename_i t₁ _ _ _
      unfold Threads.run at hr
      split at hr
      · cases hr
      · rename_i task ht
        have hm := List.mem_of_getElem? ht
        have hs := Task.step_small hW (c := t₁.shared) (t := task) (n := n) (cap := cap)
          ⟨ih.max, ih.off, ih.has, fun l d hx => ih.fills l d ((List.mem_singleton.mp hx) ▸ hm)⟩
        split at hr
        · rename_i task' shown' shared' he
          rw [he] at hs
          cases hr
          refine ⟨hs.max, hs.off, hs.has, fun l d hx => ?_⟩
          rcases List.mem_or_eq_of_mem_set hx with hx | hx
          · exact ih.fills l d hx
          · exact hs.fills l d (by rw [hx]; exact List.mem_singleton.mpr rfl)
        · rename_i shown' shared' he
          rw [he] at hs
          cases hr
          exact ⟨hs.max, hs.off, hs.has, fun l d hx => ih.fills l d (List.mem_of_mem_eraseIdx hx)⟩

/-- C87: for any number of threads in any interleaving, a `get` that is answered in its first step, that is from the cache,
returns a block that is not larger than the configured limit; if one of the parameters is 0 there is no such `get`. -/
theorem C87_small (hW : W.Lawful) (inner : I.σ) (maxSize capacity : Nat) (t : Threads I W)
    (ht : Threads.Later ⟨MemCache.new inner maxSize capacity, []⟩ t) (i : Nat) (l : L) (hi : t.tasks[i]? = some (.get l))
    (r : Except String Bytes) (t' : Threads I W) (hr : t.run i = some (some (.got l r), t')) :
    0 < maxSize ∧ 0 < capacity ∧ ∃ d, r = .ok d ∧ d.length ≤ maxSize := by
  have h0 : Threads.SmallBlocks maxSize capacity (⟨MemCache.new inner maxSize capacity, []⟩ : Threads I W) := by
    refine ⟨fun c hc => ?_, fun ho => ?_, fun l d hx => ?_, fun _ _ hx => (by cases hx)⟩
    · simp only [MemCache.new, SizedCache.new] at hc
      split at hc
      · cases hc
      · split at hc
        · cases hc
        · cases hc; rfl
    · simp only [MemCache.new, SizedCache.new]
      split
      · rfl
      · rename_i h
        exact if_pos (ho.resolve_right h)
    · rcases hc : (SizedCache.new W maxSize capacity) with _ | w
      · simp only [MemCache.new, MemCache.get0, hc] at hx
        cases hx
      · simp only [MemCache.new, MemCache.get0, hc] at hx
        have hw : w.cache = W.new capacity := by
          unfold SizedCache.new at hc
          split at hc
          · cases hc
          · split at hc
            · cases hc
            · cases hc; rfl
        rw [hw, hW.new_empty] at hx
        cases hx
  have hs := Threads.later_small hW h0 ht
  unfold Threads.run at hr
  rw [hi] at hr
  rcases hg : t.shared.get0 l with ⟨o, c'⟩
  rcases o with _ | d
  · simp only [Task.step, hg] at hr
    cases hr
  · simp only [Task.step, hg] at hr
    cases hr
    have hon : t.shared.cache ≠ none := by
      intro hn
      have : t.shared.get0 l = (none, t.shared) := by unfold MemCache.get0; rw [hn]
      rw [this] at hg
      cases hg
    refine ⟨?_, ?_, d, rfl, hs.has l d (by rw [hg])⟩
    · exact Nat.pos_of_ne_zero fun h => hon (hs.off (.inl h))
    · exact Nat.pos_of_ne_zero fun h => hon (hs.off (.inr h))

/-- The lookups of a list of links, one after the other. -/
def MemCache.gets (c : MemCache I W) : List L → MemCache I W
  | [] => c
  | l :: ls => MemCache.gets (c.get l).2 ls

/-- The state after some calls. -/
def MemCache.after (c : MemCache I W) : List (Call L) → MemCache I W
  | [] => c
  | .put d :: cs => MemCache.after (c.put d).2 cs
  | .get l :: cs => MemCache.after (c.get l).2 cs

/-- there is a cache with these parameters -/
def MemCache.Sized (capacity : W.γ → Nat) (c : MemCache I W) (n cap : Nat) : Prop :=
  ∃ w, c.cache = some w ∧ w.maxSize = n ∧ capacity w.cache = cap

theorem MemCache.get_snd (c : MemCache I W) (l : L) : (c.get l).2 = (c.get0 l).2 := by
  unfold get
  rcases c.get0 l with ⟨o, c'⟩
  cases o <;> rfl

theorem MemCache.sized_get {capacity : W.γ → Nat} (hK : W.Keeping capacity) {c : MemCache I W} {n cap : Nat}
    (h : c.Sized capacity n cap) (l : L) : (c.get l).2.Sized capacity n cap := by
  obtain ⟨w, h1, h2, h3⟩ := h
  rw [get_snd]
  unfold get0
  rw [h1]
  exact ⟨_, rfl, h2, (hK.get_cap _ _).trans h3⟩

theorem MemCache.sized_put {capacity : W.γ → Nat} (hK : W.Keeping capacity) {c : MemCache I W} {n cap : Nat}
    (h : c.Sized capacity n cap) (d : Bytes) : (c.put d).2.Sized capacity n cap := by
  obtain ⟨w, h1, h2, h3⟩ := h
  unfold put
  split
  · simp only [putInner]
    split
    · rename_i l c' he
      injection he with he1 he2
      subst he2
      unfold fill
      simp only [h1]
      exact ⟨_, rfl, h2, (hK.put_cap _ _ _).trans h3⟩
    · rename_i e c' he
      injection he with he1 he2
      subst he2
      exact ⟨w, h1, h2, h3⟩
  · exact ⟨w, h1, h2, h3⟩

theorem MemCache.sized_after {capacity : W.γ → Nat} (hK : W.Keeping capacity) (calls : List (Call L)) {c : MemCache I W}
    {n cap : Nat} (h : c.Sized capacity n cap) : (c.after calls).Sized capacity n cap := by
  induction calls generalizing c with
  | nil => exact h
  | cons x cs ih =>
    cases x with
    | put d => exact ih (sized_put hK h d)
    | get l => exact ih (sized_get hK h l)

/-- C87: a block that is neither larger than the limit nor larger than the capacity is served from the cache after it was
put, whatever was put and read before, whatever is read in between, and whatever has happened to the inner store. -/
theorem C87_served {capacity : W.γ → Nat} (hK : W.Keeping capacity) (inner : I.σ) (maxSize cap : Nat) (calls : List (Call L))
    (hm : 0 < maxSize) (d : Bytes) (hd : d.length ≤ maxSize) (hd' : d.length ≤ cap) (hc : 0 < cap) (l : L)
    (hp : (((MemCache.new inner maxSize cap : MemCache I W).after calls).put d).1 = .ok l) (ls : List L) (inner' : I.σ) :
    ({ (((MemCache.new inner maxSize cap : MemCache I W).after calls).put d).2.gets ls with inner := inner' }.get l).1 = .ok d := by
  have h0 : (MemCache.new inner maxSize cap : MemCache I W).Sized capacity maxSize cap := by
    refine ⟨⟨W.new cap, maxSize⟩, ?_, rfl, hK.new_cap cap⟩
    simp only [MemCache.new, SizedCache.new]
    rw [if_neg (Nat.pos_iff_ne_zero.mp hc), if_neg (Nat.pos_iff_ne_zero.mp hm)]
  obtain ⟨w, h1, h2, h3⟩ := MemCache.sized_after hK calls h0
  generalize (MemCache.new inner maxSize cap : MemCache I W).after calls = c at *
  have hin : ((c.put d).2.get0 l).1 = some d := by
    have ht : c.takes d = true := by
      unfold MemCache.takes
      rw [h1]
      exact decide_eq_true (h2 ▸ hd)
    unfold MemCache.put at hp ⊢
    rw [if_pos ht] at hp ⊢
    simp only [MemCache.putInner] at hp ⊢
    split at hp
    · rename_i l' c' he
      cases hp
      injection he with he1 he2
      subst he2
      simp only [MemCache.fill, h1, MemCache.get0]
      exact hK.put_get _ _ _ (by rw [h3]; exact hd')
    · cases hp
  clear hp
  generalize (c.put d).2 = c' at *
  clear h1
  have key : ∀ (ls : List L) (c' : MemCache I W), (c'.get0 l).1 = some d → ((c'.gets ls).get0 l).1 = some d := by
    intro ls
    induction ls with
    | nil => intro c' h; exact h
    | cons l' ls ih =>
      intro c' h
      refine ih _ ?_
      rw [MemCache.get_snd]
      rcases hw : c'.cache with _ | w
      · unfold MemCache.get0 at h
        rw [hw] at h
        cases h
      · simp only [MemCache.get0, hw] at h ⊢
        exact hK.get_get _ _ _ _ h
  have h' := key ls c' hin
  generalize c'.gets ls = c'' at *
  have h'' : (({ c'' with inner := inner' } : MemCache I W).get0 l).1 = some d := by
    rcases hw : c''.cache with _ | w
    · simp only [MemCache.get0, hw] at h'
      cases h'
    · simp only [MemCache.get0, hw] at h' ⊢
      exact h'
  unfold MemCache.get
  rcases hg : ({ c'' with inner := inner' } : MemCache I W).get0 l with ⟨o, c₂⟩
  rw [hg] at h''
  cases h''
  rfl

end

namespace Concrete

theorem lru_keeping : lru.Keeping Prod.fst where
  new_cap := fun _ => rfl
  get_cap := by
    intro c l
    show (lruGet c l).2.1 = c.1
    unfold lruGet
    cases mapGet c.2 l <;> rfl
  put_cap := fun _ _ _ => rfl
  put_get := by
    intro c l b h
    show (lruGet (lruPut c l b) l).1 = some b
    have h' : b.length ≤ c.1 := h
    rw [lruGet_fst]
    unfold lruPut evict
    rw [if_pos h']
    unfold mapGet
    rw [if_pos rfl]
  get_get := by
    intro (c : Nat × List (Nat × Bytes)) l l' b h
    have h' : mapGet c.2 l = some b := (lruGet_fst c l).symm.trans h
    refine (lruGet_fst (lruGet c l').2 l).trans ?_
    unfold lruGet
    rcases hg : mapGet c.2 l' with _ | d
    · exact h'
    · show mapGet ((l', d) :: without c.2 l') l = some b
      unfold mapGet
      by_cases he : l' = l
      · rw [if_pos he, ← hg, he]; exact h'
      · rw [if_neg he, mapGet_without _ _ _ he]; exact h'

/-- the block `[1]` is served although the inner store has lost everything -/
example : ((((cached.after [.put [4, 5], .get 3]).put [1]).2.gets [7, 1027] |> fun c =>
    ({ c with inner := MemStore.new 100 bytesNat } : MemCache (memStore Nat) lru)).get 2).1 = .ok [1] :=
  C87_served (I := memStore Nat) lru_keeping (MemStore.new 100 bytesNat) 2 2 [.put [4, 5], .get 3] (by decide) [1] (by decide) (by decide) (by decide) 2
    rfl [7, 1027] (MemStore.new 100 bytesNat)

/-- a block that is too large is not served then: the limit matters -/
theorem C87_limit : ∃ e, (({ (cached.put [1, 1, 1]).2 with inner := MemStore.new 100 bytesNat } : MemCache (memStore Nat) lru).get
    (bytesNat [1, 1, 1])).1 = .error e := ⟨_, rfl⟩

/-- a thread that reads what another one has put, from the cache -/
example : ∃ t : Threads (memStore Nat) lru, Threads.Later ⟨cached, []⟩ t ∧ t.tasks[0]? = some (.get 2) ∧
    ∃ t', t.run 0 = some (some (.got 2 (.ok [1])), t') := by
  refine ⟨⟨(cached.put [1]).2, [.get 2]⟩, ?_, rfl, _, rfl⟩
  refine .step (t' := ⟨(cached.put [1]).2, []⟩) (shown := none) ?_ (.spawn _ (.get 2) trivial)
  refine .step (t' := ⟨(cached.putInner [1]).2, [.fill 2 [1]]⟩) (shown := none) ?_ (.run _ 0 _ _ rfl)
  refine .step (t' := ⟨cached, [.put [1]]⟩) (shown := some (.stored [1] (.ok 2))) ?_ (.run _ 0 _ _ rfl)
  exact .step (.refl _) (.spawn _ (.put [1]) trivial)

end Concrete
end Banyan
