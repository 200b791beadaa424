import Verif.Concrete.Lru
import Verif.Spec.StoreEnv
/-
The memory store (C34) and the block cache (C35).
-/
set_option autoImplicit false
namespace Banyan

section Store
variable {L : Type} [DecidableEq L]

/-- C34: what was put successfully can be read with the returned link at any later time, whatever else was put or read
before, in between, and afterwards. -/
theorem C34_put_get (digest : Bytes → L) (maxSize : Nat) (calls : List (Call L)) (hcf : CollisionFree digest calls)
    (d : Bytes) (l : L) (h : Holds ((memStore L).log (MemStore.new maxSize digest) calls) d l) :
    (memStore L).get ((memStore L).after (MemStore.new maxSize digest) calls) l = .ok d :=
  MemStore.get_ok.mpr (((MemStore.agrees_of_calls hcf).get l d).mpr h)

/-- C34: reading with any other link is an error. -/
theorem C34_unknown (digest : Bytes → L) (maxSize : Nat) (calls : List (Call L)) (hcf : CollisionFree digest calls)
    (l : L) (h : ∀ d, ¬ Holds ((memStore L).log (MemStore.new maxSize digest) calls) d l) :
    ∃ e, (memStore L).get ((memStore L).after (MemStore.new maxSize digest) calls) l = .error e := by
  cases hg : (memStore L).get ((memStore L).after (MemStore.new maxSize digest) calls) l with
  | error e => exact ⟨e, rfl⟩
  | ok d => exact absurd (((MemStore.agrees_of_calls hcf).get l d).mp (MemStore.get_ok.mp hg)) (h d)

/-- C34: all blocks in the store together never exceed the limit. -/
theorem C34_limit (digest : Bytes → L) (maxSize : Nat) (calls : List (Call L)) (hcf : CollisionFree digest calls)
    (ds : List Bytes) (hn : ds.Nodup) (h : ∀ d, d ∈ ds → ∃ l, Holds ((memStore L).log (MemStore.new maxSize digest) calls) d l) :
    totalSize ds ≤ maxSize := by
  have ha := MemStore.agrees_of_calls (maxSize := maxSize) hcf
  have h1 := ha.limit
  rw [ha.size] at h1
  refine Nat.le_trans (totalSize_le hn ?_) h1
  intro d hd
  obtain ⟨l, hl⟩ := h d hd
  exact List.mem_map.mpr ⟨(l, d), mapGet_mem ((ha.get l d).mpr hl), rfl⟩

/-- C34: a block is refused exactly if it does not fit next to the blocks in the store (even if it is one of them);
otherwise its link is the digest. -/
theorem C34_accepts (digest : Bytes → L) (maxSize : Nat) (calls : List (Call L)) (hcf : CollisionFree digest calls)
    (ds : List Bytes) (hn : ds.Nodup) (h : ∀ d, d ∈ ds ↔ ∃ l, Holds ((memStore L).log (MemStore.new maxSize digest) calls) d l)
    (d : Bytes) :
    ((memStore L).put ((memStore L).after (MemStore.new maxSize digest) calls) d).1 =
      if totalSize ds + d.length ≤ maxSize then .ok (digest d) else .error "full" := by
  have ha := MemStore.agrees_of_calls (maxSize := maxSize) hcf
  have hmem : ∀ x, x ∈ ds ↔ x ∈ ((memStore L).after (MemStore.new maxSize digest) calls).map.map Prod.snd := by
    intro x
    rw [h]
    constructor
    · rintro ⟨l, hl⟩
      exact List.mem_map.mpr ⟨(l, x), mapGet_mem ((ha.get l x).mpr hl), rfl⟩
    · intro hx
      obtain ⟨⟨l, x'⟩, hm, he⟩ := List.mem_map.mp hx
      have he : x' = x := he
      subst he
      exact ⟨l, (ha.get l x').mp (ha.mem l x' hm)⟩
  have hsize : ((memStore L).after (MemStore.new maxSize digest) calls).currentSize = totalSize ds := by
    rw [ha.size]
    exact Nat.le_antisymm (totalSize_le ha.nodup (fun x hx => (hmem x).mpr hx)) (totalSize_le hn (fun x hx => (hmem x).mp hx))
  generalize (memStore L).after (MemStore.new maxSize digest) calls = s at ha hsize
  show (MemStore.put0 s d).1 = _
  unfold MemStore.put0
  rw [hsize, ha.max_eq, ha.digest_eq]
  by_cases hf : totalSize ds + d.length ≤ maxSize
  · rw [if_pos hf, if_neg (by omega)]
  · rw [if_neg hf, if_pos (by omega)]

/-- C34: `into_inner` returns exactly the stored blocks. -/
theorem C34_into_inner (digest : Bytes → L) (maxSize : Nat) (calls : List (Call L)) (hcf : CollisionFree digest calls)
    (l : L) (d : Bytes) :
    (l, d) ∈ MemStore.intoInner ((memStore L).after (MemStore.new maxSize digest) calls) ↔
      Holds ((memStore L).log (MemStore.new maxSize digest) calls) d l := by
  have ha := MemStore.agrees_of_calls (maxSize := maxSize) hcf
  exact ⟨fun h => (ha.get l d).mp (ha.mem l d h), fun h => mapGet_mem ((ha.get l d).mpr h)⟩

end Store

/-- C34: with an injective digest, the memory store meets all that is assumed about block stores in the theorems about
trees: any environment can be used with it. -/
theorem C34_env {T : TreeTypes} {V : Type} [DecidableEq T.Link] (E : Env T V) (hE : E.Lawful) :
    (E.withStore (memStore T.Link) MemStore.Proper MemStore.contentAddressed.keep).Lawful :=
  { hE with
    put_ok := fun s d l h => MemStore.contentAddressed.put_ok s.1 d l s.2 h
    put_mono := fun s d l b h => MemStore.contentAddressed.put_mono s.1 d l b s.2 h }

/-- A new store with an injective digest. -/
theorem C34_env_start {L : Type} [DecidableEq L] (digest : Bytes → L) (hinj : ∀ d d', digest d = digest d' → d = d') (maxSize : Nat) :
    MemStore.Proper (MemStore.new maxSize digest) := ⟨hinj, fun l d h => by cases h⟩

section Cache
variable {L : Type} {I : BlockStore L} {W : BlockCache L}

/-- C35: a sequence of calls through the cache returns what the same sequence of calls to the inner store returns, for
every capacity, limit on the size of blocks, and eviction policy. -/
theorem C35_sequence {Inv : I.σ → Prop} (hI : ContentAddressed I Inv) (hW : W.Lawful) (inner : I.σ) (hi : Inv inner)
    (maxSize capacity : Nat) (calls : List (Call L)) :
    (MemCache.new inner maxSize capacity : MemCache I W).log calls = I.log inner calls := by
  have key : ∀ (calls : List (Call L)) (c : MemCache I W), c.Sound → Inv c.inner → c.log calls = I.log c.inner calls := by
    intro calls
    induction calls with
    | nil => intro c _ _; rfl
    | cons x cs ih =>
      intro c hs hinv
      cases x with
      | put d =>
        obtain ⟨h1, h2, h3⟩ := MemCache.put_spec hW hI hs hinv d
        have h4 := ih (c.put d).2 h3 (by rw [h2]; exact hI.keep _ _ hinv)
        show (Call.put d, Answer.stored (c.put d).1) :: (c.put d).2.log cs = _
        rw [h4, h1, h2]
        rfl
      | get l =>
        obtain ⟨h1, h2, h3⟩ := MemCache.get_spec hW hs l
        have h4 := ih (c.get l).2 h2 (by rw [h3]; exact hinv)
        show (Call.get l, Answer.got (c.get l).1) :: (c.get l).2.log cs = _
        rw [h4, h1, h3]
        rfl
  exact key calls _ (MemCache.sound_new hW inner maxSize capacity) hi

/-- C35: the same for any number of threads that put, get, offer blocks of the inner store, or bypass the cache, in any
interleaving: what a `get` returns is in the inner store at that moment. -/
theorem C35_get {Inv : I.σ → Prop} (hI : ContentAddressed I Inv) (hW : W.Lawful) (t : Threads I W) (ht : t.Reachable Inv)
    (l : L) (r : Except String Bytes) (t' : Threads I W) (h : Threads.Goes t (some (.got l r)) t') :
    r = I.get t'.shared.inner l := by
  obtain ⟨_, _, h3⟩ := Threads.goes_spec hW hI (Threads.reachable_fine hW hI ht) h
  obtain ⟨h4, h5⟩ := h3 _ rfl
  rw [h5]
  exact h4

/-- C35: what a `put` returns is what the inner store returns. -/
theorem C35_put {Inv : I.σ → Prop} (hI : ContentAddressed I Inv) (hW : W.Lawful) (t : Threads I W) (ht : t.Reachable Inv)
    (d : Bytes) (r : Except String L) (t' : Threads I W) (h : Threads.Goes t (some (.stored d r)) t') :
    r = (I.put t.shared.inner d).1 ∧ t'.shared.inner = (I.put t.shared.inner d).2 := by
  obtain ⟨_, _, h3⟩ := Threads.goes_spec hW hI (Threads.reachable_fine hW hI ht) h
  exact h3 _ rfl

/-- C35: when a `put` has returned a link, every later `get` with that link returns the data, in all interleavings. -/
theorem C35_put_get {Inv : I.σ → Prop} (hI : ContentAddressed I Inv) (hW : W.Lawful) (t : Threads I W) (ht : t.Reachable Inv)
    (d : Bytes) (l : L) (t₁ : Threads I W) (h₁ : Threads.Goes t (some (.stored d (.ok l))) t₁) (t₂ : Threads I W)
    (hl : Threads.Later t₁ t₂) (r : Except String Bytes) (t₃ : Threads I W) (h₂ : Threads.Goes t₂ (some (.got l r)) t₃) :
    r = .ok d := by
  have hf := Threads.reachable_fine hW hI ht
  obtain ⟨hf1, _, h3⟩ := Threads.goes_spec hW hI hf h₁
  obtain ⟨h4, h5⟩ := h3 _ rfl
  obtain ⟨hf2, hg⟩ := Threads.later_spec hW hI hf1 hl
  obtain ⟨_, _, h6⟩ := Threads.goes_spec hW hI hf2 h₂
  obtain ⟨h7, _⟩ := h6 _ rfl
  rw [h7]
  refine hg l d ?_
  rw [h5]
  exact hI.put_ok _ _ _ hf.inv h4.symm

end Cache

namespace Concrete

/-- five calls, the fourth is refused -/
def calls5 : List (Call Nat) := [.put [1, 2], .get 7, .put [3], .put [4, 4, 4], .get (bytesNat [1, 2])]

theorem calls5_free : CollisionFree bytesNat calls5 := fun _ _ _ _ h => bytesNat_inj _ _ h

example : ((memStore Nat).log (MemStore.new 4 bytesNat) calls5).map (fun x =>
    match x.2 with
    | .stored (.ok l) => some l
    | .got (.ok d) => some d.length
    | _ => none) = [some 770, none, some 4, none, some 2] := by decide +kernel

/-- `C34_put_get` is applicable. -/
example : Holds ((memStore Nat).log (MemStore.new 4 bytesNat) calls5) [1, 2] 770 := by
  show (Call.put [1, 2], Answer.stored (Except.ok 770)) ∈ _
  exact List.mem_cons_self

example : (memStore Nat).get ((memStore Nat).after (MemStore.new 4 bytesNat) calls5) (770 : Nat) = .ok [1, 2] :=
  C34_put_get _ _ _ calls5_free _ _ (by exact List.mem_cons_self)

/-- C34: a block that is in the store is refused if the store is nearly full. -/
theorem C34_again : ∃ (digest : Bytes → Nat) (maxSize : Nat) (calls : List (Call Nat)) (d : Bytes) (l : Nat),
    CollisionFree digest calls ∧ Holds ((memStore Nat).log (MemStore.new maxSize digest) calls) d l ∧
    ((memStore Nat).put ((memStore Nat).after (MemStore.new maxSize digest) calls) d).1 = .error "full" :=
  ⟨bytesNat, 4, calls5, [1, 2], 770, calls5_free, List.mem_cons_self, rfl⟩

/-- Through a cache for blocks of up to 2 bytes with room for 2 bytes. -/
def cached : MemCache (memStore Nat) lru := MemCache.new (MemStore.new 100 bytesNat) 2 2

/-- three blocks, the first one is evicted by the second one, and the third one is too large -/
def calls7 : List (Call Nat) :=
  [.put [1], .put [2, 3], .put [4, 5, 6], .get (bytesNat [1]), .get (bytesNat [2, 3]), .get (bytesNat [4, 5, 6]), .get 0]

example : (cached.log calls7).map (fun x =>
    match x.2 with
    | .stored (.ok l) => some l
    | .got (.ok d) => some d.length
    | _ => none) = [some 2, some 1027, some 460293, some 1, some 2, some 3, none] := by decide +kernel

example : cached.log calls7 = (memStore Nat).log (MemStore.new 100 bytesNat) calls7 :=
  C35_sequence MemStore.contentAddressed lru_lawful _ (C34_env_start _ bytesNat_inj _) _ _ _

/-- the cache really is used: the second block is in the cache, the first one is not -/
example : ((cached.put [1]).2.get0 2).1 = some [1] ∧ (((cached.put [1]).2.put [2, 3]).2.get0 2).1 = none ∧
    (((cached.put [1]).2.put [2, 3]).2.get0 1027).1 = some [2, 3] := by decide +kernel

/-- two threads: one puts a block, the other one reads it between the two steps of the first one -/
def threads₂ : Threads (memStore Nat) lru := ⟨cached, [.put [1], .get 2]⟩

theorem threads₂_reachable : threads₂.Reachable MemStore.Proper := by
  refine ⟨MemStore.new 100 bytesNat, 2, 2, C34_env_start _ bytesNat_inj _, ?_⟩
  exact .step (.step (.refl _) (.spawn _ (.put [1]) trivial)) (.spawn _ (.get 2) trivial)

example : ((threads₂.run 0).bind fun x => x.2.run 1).map (fun x =>
    (match x.1 with
      | some (.got _ (.ok d)) => some d
      | _ => none, x.2.tasks.length)) = some (none, 2) := by decide +kernel

example : (((threads₂.run 0).bind fun x => x.2.run 1).bind fun x => x.2.run 1).map (fun x =>
    (match x.1 with
      | some (.got _ (.ok d)) => some d
      | _ => none, x.2.tasks.length)) = some (some [1], 1) := by decide +kernel

/-- C35: a block that is offered without being in the inner store is returned as long as it is in the cache; the link is
not checked. -/
theorem C35_offer_unchecked : ∃ (c : MemCache (memStore Nat) lru) (l : Nat) (d : Bytes),
    (∃ e, (memStore Nat).get c.inner l = .error e) ∧ ((c.offer l d).get l).1 = .ok d ∧ bytesNat d ≠ l :=
  ⟨cached, 5, [1], ⟨"not there", rfl⟩, rfl, by decide⟩

end Concrete

end Banyan
