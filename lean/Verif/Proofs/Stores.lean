import Verif.Spec.Stores
/-
The memory store and the block cache.
-/
set_option autoImplicit false
namespace Banyan

section
variable {L : Type} [DecidableEq L]

theorem mapInsert_new {β : Type} (m : List (L × β)) (l : L) (b : β) (h : mapGet m l = none) :
    mapInsert m l b = (m ++ [(l, b)], true) := by
  induction m with
  | nil => rfl
  | cons x r ih =>
    obtain ⟨k, c⟩ := x
    unfold mapGet at h
    by_cases hk : k = l
    · rw [if_pos hk] at h; cases h
    · rw [if_neg hk] at h
      unfold mapInsert
      rw [if_neg hk, ih h]
      rfl

theorem mapInsert_old {β : Type} (m : List (L × β)) (l : L) (b : β) (h : mapGet m l = some b) :
    mapInsert m l b = (m, false) := by
  induction m with
  | nil => cases h
  | cons x r ih =>
    obtain ⟨k, c⟩ := x
    unfold mapGet at h
    by_cases hk : k = l
    · rw [if_pos hk] at h
      cases h
      unfold mapInsert
      rw [if_pos hk, hk]
    · rw [if_neg hk] at h
      unfold mapInsert
      rw [if_neg hk, ih h]

theorem mapGet_append {β : Type} (m : List (L × β)) (l k : L) (b : β) (h : mapGet m l = none) :
    mapGet (m ++ [(l, b)]) k = if l = k then some b else mapGet m k := by
  induction m with
  | nil => rfl
  | cons x r ih =>
    obtain ⟨a, c⟩ := x
    unfold mapGet at h
    by_cases hk : a = l
    · rw [if_pos hk] at h; cases h
    · rw [if_neg hk] at h
      rw [List.cons_append]
      simp only [mapGet]
      rw [ih h]
      by_cases ha : a = k
      · rw [if_pos ha, if_pos ha, if_neg (fun hl => hk (ha.trans hl.symm))]
      · rw [if_neg ha, if_neg ha]

theorem mapGet_mem {β : Type} {m : List (L × β)} {l : L} {b : β} (h : mapGet m l = some b) : (l, b) ∈ m := by
  induction m with
  | nil => cases h
  | cons x r ih =>
    obtain ⟨a, c⟩ := x
    unfold mapGet at h
    by_cases ha : a = l
    · rw [if_pos ha] at h
      cases h; cases ha
      exact List.mem_cons_self
    · rw [if_neg ha] at h
      exact List.mem_cons_of_mem _ (ih h)

theorem totalSize_append (a b : List Bytes) : totalSize (a ++ b) = totalSize a + totalSize b := by
  simp [totalSize]

theorem totalSize_le {ds ms : List Bytes} (hn : ds.Nodup) (hs : ∀ d, d ∈ ds → d ∈ ms) : totalSize ds ≤ totalSize ms := by
  induction ds generalizing ms with
  | nil => exact Nat.zero_le _
  | cons d ds ih =>
    obtain ⟨a, b, rfl⟩ := List.append_of_mem (hs d List.mem_cons_self)
    have hn' := List.nodup_cons.mp hn
    have h := ih (ms := a ++ b) hn'.2 (by
      intro x hx
      have hx' := hs x (List.mem_cons_of_mem _ hx)
      have hne : x ≠ d := fun he => hn'.1 (he ▸ hx)
      rcases List.mem_append.mp hx' with h1 | h1
      · exact List.mem_append.mpr (Or.inl h1)
      · rcases List.mem_cons.mp h1 with h2 | h2
        · exact absurd h2 hne
        · exact List.mem_append.mpr (Or.inr h2))
    simp only [totalSize, List.map_cons, List.map_append, List.sum_append, List.sum_cons] at h ⊢
    omega

namespace MemStore

/-- The map is what the successful calls of a log have stored. -/
structure Agrees (digest : Bytes → L) (maxSize : Nat) (log : List (Call L × Answer L)) (s : MemStore L) : Prop where
  digest_eq : s.digest = digest
  max_eq : s.maxSize = maxSize
  get : ∀ l d, mapGet s.map l = some d ↔ Holds log d l
  link : ∀ l d, Holds log d l → l = digest d
  mem : ∀ l d, (l, d) ∈ s.map → mapGet s.map l = some d
  nodup : (s.map.map Prod.snd).Nodup
  size : s.currentSize = totalSize (s.map.map Prod.snd)
  limit : s.currentSize ≤ maxSize

theorem agrees_new (digest : Bytes → L) (maxSize : Nat) : Agrees digest maxSize [] (MemStore.new maxSize digest) where
  digest_eq := rfl
  max_eq := rfl
  get := fun l d => ⟨fun h => (by cases h), fun h => (by cases h)⟩
  link := fun l d h => (by cases h)
  mem := fun l d h => (by cases h)
  nodup := List.nodup_nil
  size := rfl
  limit := Nat.zero_le _

theorem agrees_same {digest : Bytes → L} {maxSize : Nat} {log : List (Call L × Answer L)} {s : MemStore L}
    (h : Agrees digest maxSize log s) {x : Call L × Answer L} (hx : ∀ d l, Holds [x] d l → Holds log d l) :
    Agrees digest maxSize (log ++ [x]) s := by
  have hst : ∀ d l, Holds (log ++ [x]) d l ↔ Holds log d l := by
    intro d l
    constructor
    · intro h'
      rcases List.mem_append.mp h' with h' | h'
      · exact h'
      · exact hx d l h'
    · intro h'
      exact List.mem_append.mpr (Or.inl h')
  exact ⟨h.digest_eq, h.max_eq, fun l d => (h.get l d).trans (hst d l).symm, fun l d hd => h.link l d ((hst d l).mp hd),
    h.mem, h.nodup, h.size, h.limit⟩

theorem agrees_call {digest : Bytes → L} {maxSize : Nat} {log : List (Call L × Answer L)} {s : MemStore L}
    (h : Agrees digest maxSize log s) (c : Call L)
    (hc : ∀ d d' l', c = .put d → Holds log d' l' → digest d = digest d' → d = d') :
    Agrees digest maxSize (log ++ [(c, ((memStore L).call s c).1)]) ((memStore L).call s c).2 := by
  cases c with
  | get l =>
    refine agrees_same h ?_
    intro d l' hd
    rcases List.mem_singleton.mp hd with h1
    injection h1 with h1 h2
    cases h1
  | put d =>
    show Agrees digest maxSize (log ++ [(Call.put d, Answer.stored (s.put0 d).1)]) (s.put0 d).2
    by_cases hfull : s.currentSize + d.length > s.maxSize
    · have hp : s.put0 d = (.error "full", s) := by unfold put0; rw [if_pos hfull]
      rw [hp]
      refine agrees_same h ?_
      intro d' l' hd
      have := List.mem_singleton.mp hd
      injection this with h1 h2
      injection h2 with h3
      cases h3
    · cases hg : mapGet s.map (digest d) with
      | some b =>
        have hb : b = d := (hc d b (digest d) rfl ((h.get _ _).mp hg) (h.link _ _ ((h.get _ _).mp hg))).symm
        subst hb
        have hp : s.put0 b = (.ok (digest b), s) := by
          unfold put0
          rw [if_neg hfull, h.digest_eq, mapInsert_old _ _ _ hg]
          have := h.digest_eq
          cases s
          cases this
          rfl
        rw [hp]
        refine agrees_same h ?_
        intro d' l' hd
        have := List.mem_singleton.mp hd
        injection this with h1 h2
        injection h1 with h1
        injection h2 with h3
        injection h3 with h3
        subst h1; subst h3
        exact (h.get _ _).mp hg
      | none =>
        have hp : s.put0 d = (.ok (digest d), ⟨s.digest, s.maxSize, s.map ++ [(digest d, d)], s.currentSize + d.length⟩) := by
          unfold put0
          rw [if_neg hfull, h.digest_eq, mapInsert_new _ _ _ hg]
          rfl
        rw [hp]
        have hst : ∀ d' l', Holds (log ++ [(Call.put d, Answer.stored (.ok (digest d)))]) d' l' ↔
            (Holds log d' l' ∨ (d' = d ∧ l' = digest d)) := by
          intro d' l'
          unfold Holds
          rw [List.mem_append, List.mem_singleton]
          constructor
          · rintro (h1 | h1)
            · exact Or.inl h1
            · injection h1 with h1 h2
              injection h1 with h1
              injection h2 with h3
              injection h3 with h3
              exact Or.inr ⟨h1, h3⟩
          · rintro (h1 | ⟨h1, h2⟩)
            · exact Or.inl h1
            · subst h1; subst h2
              exact Or.inr rfl
        have hnew : d ∉ s.map.map Prod.snd := by
          intro hd
          obtain ⟨⟨l', d'⟩, hm, he⟩ := List.mem_map.mp hd
          have he : d' = d := he
          subst he
          have h1 := h.mem _ _ hm
          have h2 := h.link _ _ ((h.get _ _).mp h1)
          rw [h2, hg] at h1
          cases h1
        refine ⟨h.digest_eq, h.max_eq, ?_, ?_, ?_, ?_, ?_, ?_⟩
        · intro l' d'
          show mapGet (s.map ++ [(digest d, d)]) l' = some d' ↔ _
          rw [mapGet_append _ _ _ _ hg, hst]
          by_cases hl : digest d = l'
          · rw [if_pos hl]
            subst hl
            constructor
            · intro h1
              cases h1
              exact Or.inr ⟨rfl, rfl⟩
            · rintro (h1 | ⟨h1, _⟩)
              · have := (h.get _ _).mpr h1
                rw [hg] at this
                cases this
              · rw [h1]
          · rw [if_neg hl]
            constructor
            · intro h1
              exact Or.inl ((h.get _ _).mp h1)
            · rintro (h1 | ⟨_, h1⟩)
              · exact (h.get _ _).mpr h1
              · exact absurd h1.symm hl
        · intro l' d' hd
          rcases (hst d' l').mp hd with h1 | ⟨h1, h2⟩
          · exact h.link _ _ h1
          · rw [h2, h1]
        · intro l' d' hm
          show mapGet (s.map ++ [(digest d, d)]) l' = some d'
          rw [mapGet_append _ _ _ _ hg]
          have hm : (l', d') ∈ s.map ++ [(digest d, d)] := hm
          rcases List.mem_append.mp hm with h1 | h1
          · have h2 := h.mem _ _ h1
            by_cases hl : digest d = l'
            · rw [← hl, hg] at h2
              cases h2
            · rw [if_neg hl]; exact h2
          · have := List.mem_singleton.mp h1
            cases this
            rw [if_pos rfl]
        · show ((s.map ++ [(digest d, d)]).map Prod.snd).Nodup
          rw [List.map_append]
          refine List.nodup_append.mpr ⟨h.nodup, by simp, ?_⟩
          intro a ha b hb hab
          have hb' := List.mem_singleton.mp hb
          exact hnew (by rw [hab, hb'] at ha; exact ha)
        · show s.currentSize + d.length = _
          rw [List.map_append, totalSize_append, h.size]
          simp [totalSize]
        · show s.currentSize + d.length ≤ maxSize
          have := h.max_eq
          omega

theorem agrees_calls {digest : Bytes → L} {maxSize : Nat} (calls : List (Call L)) {log : List (Call L × Answer L)} {s : MemStore L}
    (h : Agrees digest maxSize log s) (hlog : ∀ d l, Holds log d l → ∀ d', .put d' ∈ calls → digest d' = digest d → d' = d)
    (hcf : CollisionFree digest calls) :
    Agrees digest maxSize (log ++ (memStore L).log s calls) ((memStore L).after s calls) := by
  induction calls generalizing log s with
  | nil =>
    show Agrees digest maxSize (log ++ []) s
    rw [List.append_nil]
    exact h
  | cons c cs ih =>
    have h1 := agrees_call h c (by
      intro d d' l' hcd hst hdig
      subst hcd
      exact hlog d' l' hst d List.mem_cons_self hdig)
    have h2 := ih h1 (by
      intro d l hst d' hd' hdig
      rcases List.mem_append.mp hst with h3 | h3
      · exact hlog d l h3 d' (List.mem_cons_of_mem _ hd') hdig
      · have := List.mem_singleton.mp h3
        injection this with h4 h5
        subst h4
        exact hcf d' d (List.mem_cons_of_mem _ hd') List.mem_cons_self hdig)
      (fun d d' hd hd' => hcf d d' (List.mem_cons_of_mem _ hd) (List.mem_cons_of_mem _ hd'))
    rw [List.append_assoc] at h2
    exact h2

theorem agrees_of_calls {digest : Bytes → L} {maxSize : Nat} {calls : List (Call L)} (hcf : CollisionFree digest calls) :
    Agrees digest maxSize ((memStore L).log (MemStore.new maxSize digest) calls)
      ((memStore L).after (MemStore.new maxSize digest) calls) := by
  have h := agrees_calls calls (agrees_new digest maxSize) (fun d l h => by cases h) hcf
  rw [List.nil_append] at h
  exact h

/-- The states of a store with an injective digest. -/
def Proper (s : MemStore L) : Prop :=
  (∀ d d', s.digest d = s.digest d' → d = d') ∧ ∀ l d, mapGet s.map l = some d → l = s.digest d

theorem get_ok {s : MemStore L} {l : L} {d : Bytes} : s.get l = .ok d ↔ mapGet s.map l = some d := by
  unfold get get0
  cases mapGet s.map l with
  | none => exact ⟨fun h => (by cases h), fun h => (by cases h)⟩
  | some v => exact ⟨fun h => (by cases h; rfl), fun h => (by cases h; rfl)⟩

theorem put_cases (s : MemStore L) (d : Bytes) (h : s.Proper) :
    (s.put0 d = (.error "full", s)) ∨ (s.put0 d = (.ok (s.digest d), s) ∧ mapGet s.map (s.digest d) = some d) ∨
    (s.put0 d = (.ok (s.digest d), ⟨s.digest, s.maxSize, s.map ++ [(s.digest d, d)], s.currentSize + d.length⟩) ∧
      mapGet s.map (s.digest d) = none) := by
  by_cases hfull : s.currentSize + d.length > s.maxSize
  · left; unfold put0; rw [if_pos hfull]
  · right
    cases hg : mapGet s.map (s.digest d) with
    | some b =>
      have hb : b = d := (h.1 _ _ (h.2 _ _ hg)).symm
      subst hb
      left
      refine ⟨?_, rfl⟩
      unfold put0
      rw [if_neg hfull, mapInsert_old _ _ _ hg]
      cases s; rfl
    | none =>
      right
      refine ⟨?_, rfl⟩
      unfold put0
      rw [if_neg hfull, mapInsert_new _ _ _ hg]
      rfl

theorem contentAddressed : ContentAddressed (memStore L) Proper where
  keep := by
    intro (s : MemStore L) d h
    show (s.put0 d).2.Proper
    rcases put_cases s d h with h1 | ⟨h1, _⟩ | ⟨h1, hg⟩
    · rw [h1]; exact h
    · rw [h1]; exact h
    · rw [h1]
      refine ⟨h.1, ?_⟩
      intro l b hb
      have hb : mapGet (s.map ++ [(s.digest d, d)]) l = some b := hb
      rw [mapGet_append _ _ _ _ hg] at hb
      by_cases hl : s.digest d = l
      · rw [if_pos hl] at hb; cases hb; exact hl.symm
      · rw [if_neg hl] at hb; exact h.2 _ _ hb
  put_ok := by
    intro (s : MemStore L) d l h hok
    have hok : (s.put0 d).1 = .ok l := hok
    show (s.put0 d).2.get l = .ok d
    rw [get_ok]
    rcases put_cases s d h with h1 | ⟨h1, hg⟩ | ⟨h1, hg⟩
    · rw [h1] at hok; cases hok
    · rw [h1] at hok ⊢; cases hok; exact hg
    · rw [h1] at hok ⊢
      cases hok
      show mapGet (s.map ++ [(s.digest d, d)]) _ = _
      rw [mapGet_append _ _ _ _ hg, if_pos rfl]
  put_mono := by
    intro (s : MemStore L) d l b h hb
    have hb : s.get l = .ok b := hb
    show (s.put0 d).2.get l = .ok b
    rw [get_ok] at hb ⊢
    rcases put_cases s d h with h1 | ⟨h1, _⟩ | ⟨h1, hg⟩
    · rw [h1]; exact hb
    · rw [h1]; exact hb
    · rw [h1]
      show mapGet (s.map ++ [(s.digest d, d)]) _ = _
      rw [mapGet_append _ _ _ _ hg]
      by_cases hl : s.digest d = l
      · rw [← hl, hg] at hb; cases hb
      · rw [if_neg hl]; exact hb

end MemStore

end

section Cache
variable {L : Type} {I : BlockStore L} {W : BlockCache L}

/-- Everything in the cache is in the inner store. -/
def MemCache.Sound (c : MemCache I W) : Prop :=
  ∀ cache, c.cache = some cache → ∀ l b, (W.get cache.cache l).1 = some b → I.get c.inner l = .ok b

theorem MemCache.sound_new (hW : W.Lawful) (inner : I.σ) (m n : Nat) : (MemCache.new inner m n : MemCache I W).Sound := by
  intro cache hc l b hb
  have hc : SizedCache.new W m n = some cache := hc
  unfold SizedCache.new at hc
  split at hc
  · cases hc
  · split at hc
    · cases hc
    · cases hc
      rw [hW.new_empty] at hb
      cases hb

theorem MemCache.sound_fill (hW : W.Lawful) {c : MemCache I W} (h : c.Sound) {l : L} {d : Bytes} (hd : I.get c.inner l = .ok d) :
    (c.fill l d).Sound := by
  obtain ⟨inner, cache⟩ := c
  cases cache with
  | none => exact h
  | some cache =>
    intro cache' hc l' b hb
    have hc : some { cache with cache := W.put cache.cache l d } = some cache' := hc
    cases hc
    rcases hW.put_sub _ _ _ _ _ hb with ⟨h1, h2⟩ | h1
    · rw [h1, h2]; exact hd
    · exact h cache rfl l' b h1

theorem MemCache.fill_inner (c : MemCache I W) (l : L) (d : Bytes) : (c.fill l d).inner = c.inner := by
  obtain ⟨inner, cache⟩ := c
  cases cache <;> rfl

theorem MemCache.offer_sound (hW : W.Lawful) {c : MemCache I W} (h : c.Sound) {l : L} {d : Bytes} (hd : I.get c.inner l = .ok d) :
    (c.offer l d).Sound ∧ (c.offer l d).inner = c.inner := by
  unfold MemCache.offer
  split
  · exact ⟨MemCache.sound_fill hW h hd, MemCache.fill_inner _ _ _⟩
  · exact ⟨h, rfl⟩

theorem MemCache.get0_spec (hW : W.Lawful) {c : MemCache I W} (h : c.Sound) (l : L) :
    (c.get0 l).2.Sound ∧ (c.get0 l).2.inner = c.inner ∧ ∀ d, (c.get0 l).1 = some d → I.get c.inner l = .ok d := by
  obtain ⟨inner, cache⟩ := c
  cases cache with
  | none => exact ⟨h, rfl, fun d hd => by cases hd⟩
  | some cache =>
    refine ⟨?_, rfl, fun d hd => h cache rfl l d hd⟩
    intro cache' hc l' b hb
    have hc : some { cache with cache := (W.get cache.cache l).2 } = some cache' := hc
    cases hc
    exact h cache rfl l' b (hW.get_sub _ _ _ _ hb)

theorem MemCache.putInner_sound {Inv : I.σ → Prop} (hI : ContentAddressed I Inv) {c : MemCache I W} (h : c.Sound) (hi : Inv c.inner)
    (d : Bytes) : (c.putInner d).2.Sound ∧ Inv (c.putInner d).2.inner := by
  refine ⟨?_, hI.keep _ _ hi⟩
  intro cache hc l b hb
  exact hI.put_mono _ _ _ _ hi (h cache hc l b hb)

theorem MemCache.get_spec (hW : W.Lawful) {c : MemCache I W} (h : c.Sound) (l : L) :
    (c.get l).1 = I.get c.inner l ∧ (c.get l).2.Sound ∧ (c.get l).2.inner = c.inner := by
  obtain ⟨h1, h2, h3⟩ := MemCache.get0_spec hW h l
  unfold MemCache.get
  generalize c.get0 l = x at h1 h2 h3
  obtain ⟨r, c'⟩ := x
  cases r with
  | some d => exact ⟨(h3 d rfl).symm, h1, h2⟩
  | none =>
    refine ⟨?_, h1, h2⟩
    show I.get c'.inner l = _
    rw [show c'.inner = c.inner from h2]

theorem MemCache.put_spec (hW : W.Lawful) {Inv : I.σ → Prop} (hI : ContentAddressed I Inv) {c : MemCache I W} (h : c.Sound)
    (hi : Inv c.inner) (d : Bytes) :
    (c.put d).1 = (I.put c.inner d).1 ∧ (c.put d).2.inner = (I.put c.inner d).2 ∧ (c.put d).2.Sound := by
  have hs := MemCache.putInner_sound hI h hi d
  unfold MemCache.put
  split
  · have hp1 : (c.putInner d).1 = (I.put c.inner d).1 := rfl
    have hp2 : (c.putInner d).2.inner = (I.put c.inner d).2 := rfl
    generalize c.putInner d = x at hs hp1 hp2
    obtain ⟨r, c'⟩ := x
    cases r with
    | error e => exact ⟨hp1, hp2, hs.1⟩
    | ok l =>
      refine ⟨hp1, (MemCache.fill_inner _ _ _).trans hp2, MemCache.sound_fill hW hs.1 ?_⟩
      rw [hp2]
      exact hI.put_ok _ _ _ hi hp1.symm
  · exact ⟨rfl, rfl, hs.1⟩

/-- What a pending task relies on. -/
def Task.Ready (inner : I.σ) : Task L → Prop
  | .fill l d => I.get inner l = .ok d
  | .offer l d => I.get inner l = .ok d
  | _ => True

/-- The invariant of all threads. -/
structure Threads.Fine (Inv : I.σ → Prop) (t : Threads I W) : Prop where
  inv : Inv t.shared.inner
  sound : t.shared.Sound
  ready : ∀ task, task ∈ t.tasks → task.Ready t.shared.inner

/-- The inner store has only grown. -/
def Grown (I : BlockStore L) (s s' : I.σ) : Prop := ∀ l b, I.get s l = .ok b → I.get s' l = .ok b

theorem Task.Ready.grown {s s' : I.σ} (h : Grown I s s') {task : Task L} (hr : task.Ready s) : task.Ready s' := by
  cases task <;> first | exact h _ _ hr | trivial

/-- What is shown is right with respect to the store. -/
def Shown.Right (I : BlockStore L) (s s' : I.σ) : Shown L → Prop
  | .got l r => r = I.get s l ∧ s' = s
  | .stored d r => r = (I.put s d).1 ∧ s' = (I.put s d).2

theorem Task.step_spec (hW : W.Lawful) {Inv : I.σ → Prop} (hI : ContentAddressed I Inv) {c : MemCache I W} (h : c.Sound)
    (hi : Inv c.inner) {task : Task L} (hr : task.Ready c.inner) :
    Inv (task.step c).2.2.inner ∧ (task.step c).2.2.Sound ∧ Grown I c.inner (task.step c).2.2.inner ∧
    (∀ x, (task.step c).1 = some x → x.Ready (task.step c).2.2.inner) ∧
    (∀ x, (task.step c).2.1 = some x → x.Right I c.inner (task.step c).2.2.inner) := by
  have hput : ∀ d, Grown I c.inner (c.putInner d).2.inner := fun d l b hb => hI.put_mono _ _ _ _ hi hb
  cases task with
  | get l =>
    obtain ⟨h1, h2, h3⟩ := MemCache.get0_spec hW h l
    simp only [Task.step]
    generalize c.get0 l = x at h1 h2 h3
    obtain ⟨r, c'⟩ := x
    have h2 : c'.inner = c.inner := h2
    have hg : Grown I c.inner c'.inner := by rw [h2]; exact fun _ _ hb => hb
    cases r with
    | some d =>
      refine ⟨by rw [← h2] at hi; exact hi, h1, hg, ?_, ?_⟩
      · intro x hx; cases hx
      · intro x hx; cases hx
        exact ⟨(h3 d rfl).symm, h2⟩
    | none =>
      refine ⟨by rw [← h2] at hi; exact hi, h1, hg, ?_, ?_⟩
      · intro x hx; cases hx; trivial
      · intro x hx; cases hx
  | getInner l =>
    refine ⟨hi, h, fun _ _ hb => hb, ?_, ?_⟩
    · intro x hx; cases hx
    · intro x hx; cases hx
      exact ⟨rfl, rfl⟩
  | put d =>
    obtain ⟨hs, hinv⟩ := MemCache.putInner_sound hI h hi d
    have hp1 : (c.putInner d).1 = (I.put c.inner d).1 := rfl
    have hp2 : (c.putInner d).2.inner = (I.put c.inner d).2 := rfl
    have hg := hput d
    simp only [Task.step]
    generalize c.putInner d = x at hs hinv hp1 hp2 hg
    obtain ⟨r, c'⟩ := x
    have hp2 : c'.inner = (I.put c.inner d).2 := hp2
    cases r with
    | error e =>
      refine ⟨hinv, hs, hg, ?_, ?_⟩
      · intro x hx; cases hx
      · intro x hx; cases hx
        exact ⟨hp1, hp2⟩
    | ok l =>
      refine ⟨hinv, hs, hg, ?_, ?_⟩
      · intro x hx
        have hx : (if c'.takes d then some (Task.fill l d) else none) = some x := hx
        split at hx
        · cases hx
          show I.get c'.inner l = .ok d
          rw [hp2]
          exact hI.put_ok _ _ _ hi hp1.symm
        · cases hx
      · intro x hx; cases hx
        exact ⟨hp1, hp2⟩
  | fill l d =>
    have hf : (c.fill l d).inner = c.inner := MemCache.fill_inner _ _ _
    refine ⟨?_, MemCache.sound_fill hW h hr, ?_, ?_, ?_⟩
    · show Inv (c.fill l d).inner
      rw [hf]; exact hi
    · show Grown I c.inner (c.fill l d).inner
      rw [hf]; exact fun _ _ hb => hb
    · intro x hx; cases hx
    · intro x hx; cases hx
  | foreign d =>
    obtain ⟨hs, hinv⟩ := MemCache.putInner_sound hI h hi d
    refine ⟨hinv, hs, hput d, ?_, ?_⟩
    · intro x hx; cases hx
    · intro x hx; cases hx
      exact ⟨rfl, rfl⟩
  | offer l d =>
    obtain ⟨hs, hin⟩ := MemCache.offer_sound hW h hr
    refine ⟨?_, hs, ?_, ?_, ?_⟩
    · show Inv (c.offer l d).inner
      rw [hin]; exact hi
    · show Grown I c.inner (c.offer l d).inner
      rw [hin]; exact fun _ _ hb => hb
    · intro x hx; cases hx
    · intro x hx; cases hx

theorem Threads.run_spec (hW : W.Lawful) {Inv : I.σ → Prop} (hI : ContentAddressed I Inv) {t t' : Threads I W} (h : t.Fine Inv)
    {i : Nat} {shown : Option (Shown L)} (hrun : t.run i = some (shown, t')) :
    t'.Fine Inv ∧ Grown I t.shared.inner t'.shared.inner ∧ ∀ x, shown = some x → x.Right I t.shared.inner t'.shared.inner := by
  unfold Threads.run at hrun
  cases ht : t.tasks[i]? with
  | none => rw [ht] at hrun; cases hrun
  | some task =>
    rw [ht] at hrun
    simp only at hrun
    have hmem : task ∈ t.tasks := List.mem_of_getElem? ht
    obtain ⟨h1, h2, h3, h4, h5⟩ := Task.step_spec hW hI h.sound h.inv (h.ready task hmem)
    generalize task.step t.shared = x at hrun h1 h2 h3 h4 h5
    obtain ⟨r, sh, c⟩ := x
    cases r with
    | some task' =>
      have hrun : some (sh, (⟨c, t.tasks.set i task'⟩ : Threads I W)) = some (shown, t') := hrun
      cases hrun
      refine ⟨⟨h1, h2, ?_⟩, h3, h5⟩
      intro y hy
      rcases List.mem_or_eq_of_mem_set hy with h6 | h6
      · exact (h.ready y h6).grown h3
      · rw [h6]; exact h4 task' rfl
    | none =>
      have hrun : some (sh, (⟨c, t.tasks.eraseIdx i⟩ : Threads I W)) = some (shown, t') := hrun
      cases hrun
      refine ⟨⟨h1, h2, ?_⟩, h3, h5⟩
      intro y hy
      exact (h.ready y (List.mem_of_mem_eraseIdx hy)).grown h3

theorem Threads.goes_spec (hW : W.Lawful) {Inv : I.σ → Prop} (hI : ContentAddressed I Inv) {t t' : Threads I W} (h : t.Fine Inv)
    {shown : Option (Shown L)} (hg : Threads.Goes t shown t') :
    t'.Fine Inv ∧ Grown I t.shared.inner t'.shared.inner ∧ ∀ x, shown = some x → x.Right I t.shared.inner t'.shared.inner := by
  cases hg with
  | spawn task hf =>
    refine ⟨⟨h.inv, h.sound, ?_⟩, fun _ _ hb => hb, fun x hx => by cases hx⟩
    intro y hy
    rcases List.mem_append.mp hy with h1 | h1
    · exact h.ready y h1
    · rw [List.mem_singleton.mp h1]
      cases task <;> first | exact hf | trivial
  | run i _ _ hrun => exact Threads.run_spec hW hI h hrun

theorem Threads.later_spec (hW : W.Lawful) {Inv : I.σ → Prop} (hI : ContentAddressed I Inv) {t t' : Threads I W} (h : t.Fine Inv)
    (hl : Threads.Later t t') : t'.Fine Inv ∧ Grown I t.shared.inner t'.shared.inner := by
  induction hl with
  | refl => exact ⟨h, fun _ _ hb => hb⟩
  | step _ hg ih =>
    obtain ⟨h1, h2, _⟩ := Threads.goes_spec hW hI ih.1 hg
    exact ⟨h1, fun l b hb => h2 l b (ih.2 l b hb)⟩

theorem Threads.reachable_fine (hW : W.Lawful) {Inv : I.σ → Prop} (hI : ContentAddressed I Inv) {t : Threads I W}
    (h : t.Reachable Inv) : t.Fine Inv := by
  obtain ⟨inner, m, n, hi, hl⟩ := h
  refine (Threads.later_spec hW hI ?_ hl).1
  exact ⟨hi, MemCache.sound_new hW inner m n, fun x hx => by cases hx⟩

end Cache

end Banyan
