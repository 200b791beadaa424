import Verif.Proofs.Basic
import Verif.Spec.Errors
/-
Lemmas about `ZstdDagCborSeq`.
-/
namespace Banyan

variable {T : TreeTypes} {V : Type} {E : Env T V}

/-- A byte string that is one CBOR item. -/
def IsItem (E : Env T V) (b : Bytes) : Prop := b ≠ [] ∧ ∀ r, E.item (b ++ r) = .ok (b, r)

theorem isItem_encV (h : E.Lawful) (v : V) : IsItem E (E.encV v) := ⟨h.encV_ne v, h.item_encV v⟩
theorem isItem_encIdx (h : E.Lawful) (i : Index T) : IsItem E (E.encIdx i) := ⟨h.encIdx_ne i, h.item_encIdx i⟩

theorem append_cons_of_ne {b : Bytes} (hb : b ≠ []) (r : Bytes) :
    ∃ x xs, b ++ r = x :: xs ∧ b.length = (b.length - 1) + 1 := by
  cases b with
  | nil => exact absurd rfl hb
  | cons x xs => exact ⟨x, xs ++ r, rfl, by simp⟩

/-! ### links -/

theorem mem_addLink {s : List Cid} {c x : Cid} : x ∈ addLink s c ↔ x ∈ s ∨ x = c := by
  unfold addLink
  split
  · constructor
    · exact Or.inl
    · rintro (h | rfl)
      · exact h
      · assumption
  · simp

theorem mem_addLinks {s cs : List Cid} {x : Cid} : x ∈ addLinks s cs ↔ x ∈ s ∨ x ∈ cs := by
  unfold addLinks
  induction cs generalizing s with
  | nil => simp
  | cons c cs ih =>
    rw [List.foldl_cons, ih, mem_addLink, List.mem_cons, or_assoc]

theorem scrapeLoop_spec (items : List Bytes) (hi : ∀ b ∈ items, IsItem E b) (n : Nat)
    (hn : items.flatten.length ≤ n) (acc : List Cid) :
    (∃ acc', scrapeLoop E n items.flatten acc = .ok acc' ∧
      (∀ x, x ∈ acc' ↔ x ∈ acc ∨ ∃ b ∈ items, ∃ ls, E.itemLinks b = .ok ls ∧ x ∈ ls) ∧
      ∀ b ∈ items, ∃ ls, E.itemLinks b = .ok ls) ∨
    (∃ b ∈ items, ∃ m, E.itemLinks b = .error m ∧ scrapeLoop E n items.flatten acc = .error (.fail m)) := by
  induction items generalizing n acc with
  | nil =>
    left
    refine ⟨acc, ?_, by simp, by simp⟩
    cases n <;> rfl
  | cons b items ih =>
    have hb := hi b (by simp)
    obtain ⟨x, xs, hx, hl⟩ := append_cons_of_ne hb.1 items.flatten
    simp only [List.flatten_cons, List.length_append] at hn ⊢
    obtain ⟨n, rfl⟩ : ∃ m, n = m + 1 := ⟨n - 1, by omega⟩
    have e1 : scrapeLoop E (n + 1) (b ++ items.flatten) acc =
        (match E.itemLinks b with
          | .error m => .error (.fail m)
          | .ok cs => scrapeLoop E n items.flatten (addLinks acc cs)) := by
      rw [hx]
      simp only [scrapeLoop]
      rw [← hx, hb.2]
      rfl
    rw [e1]
    cases hl2 : E.itemLinks b with
    | error m => right; exact ⟨b, by simp, m, hl2, rfl⟩
    | ok cs =>
      simp only
      rcases ih (fun b hb => hi b (by simp [hb])) n (by omega) (addLinks acc cs) with ⟨acc', h1, h2, h3⟩ | ⟨b', hb', m, h1, h2⟩
      · left
        refine ⟨acc', h1, ?_, ?_⟩
        · intro y
          rw [h2, mem_addLinks]
          constructor
          · rintro ((h | h) | ⟨b', hb', ls, h, h'⟩)
            · exact Or.inl h
            · exact Or.inr ⟨b, by simp, cs, hl2, h⟩
            · exact Or.inr ⟨b', by simp [hb'], ls, h, h'⟩
          · rintro (h | ⟨b', hb', ls, h, h'⟩)
            · exact Or.inl (Or.inl h)
            · rcases List.mem_cons.mp hb' with rfl | hb'
              · rw [hl2] at h; cases h; exact Or.inl (Or.inr h')
              · exact Or.inr ⟨b', hb', ls, h, h'⟩
        · intro b' hb'
          rcases List.mem_cons.mp hb' with rfl | hb'
          · exact ⟨cs, hl2⟩
          · exact h3 b' hb'
      · right; exact ⟨b', by simp [hb'], m, h1, h2⟩

theorem scrapeLinks_spec (items : List Bytes) (hi : ∀ b ∈ items, IsItem E b) (acc : List Cid) :
    (∃ acc', scrapeLinks E items.flatten acc = .ok acc' ∧
      (∀ x, x ∈ acc' ↔ x ∈ acc ∨ ∃ b ∈ items, ∃ ls, E.itemLinks b = .ok ls ∧ x ∈ ls) ∧
      ∀ b ∈ items, ∃ ls, E.itemLinks b = .ok ls) ∨
    (∃ b ∈ items, ∃ m, E.itemLinks b = .error m ∧ scrapeLinks E items.flatten acc = .error (.fail m)) :=
  scrapeLoop_spec items hi _ (Nat.le_refl _) acc

theorem scrapeLinks_single (b : Bytes) (hi : IsItem E b) (acc : List Cid) :
    (∃ acc' ls, scrapeLinks E b acc = .ok acc' ∧ E.itemLinks b = .ok ls ∧ (∀ x, x ∈ acc' ↔ x ∈ acc ∨ x ∈ ls)) ∨
    (∃ m, E.itemLinks b = .error m ∧ scrapeLinks E b acc = .error (.fail m)) := by
  have := scrapeLinks_spec (E := E) [b] (by simpa using hi) acc
  simp only [List.flatten_cons, List.flatten_nil, List.append_nil, List.mem_singleton, exists_eq_left,
    forall_eq] at this
  rcases this with ⟨acc', h1, h2, ls, h3⟩ | ⟨m, h1, h2⟩
  · left
    refine ⟨acc', ls, h1, h3, ?_⟩
    intro x
    rw [h2]
    constructor
    · rintro (h | ⟨ls', h, h'⟩)
      · exact Or.inl h
      · rw [h3] at h; cases h; exact Or.inr h'
    · rintro (h | h)
      · exact Or.inl h
      · exact Or.inr ⟨ls, h3, h⟩
  · right; exact ⟨m, h1, h2⟩

/-- The links in the given encoded items are exactly these. -/
def LinksOf (E : Env T V) (items : List Bytes) (links : List Cid) : Prop :=
  ∀ x, x ∈ links ↔ ∃ b ∈ items, ∃ ls, E.itemLinks b = .ok ls ∧ x ∈ ls

theorem LinksOf.nil : LinksOf E [] [] := fun x => by simp

theorem LinksOf.all {items : List Bytes} {links : List Cid} (h : LinksOf E items links) {b : Bytes} (hb : b ∈ items) {ls : List Cid}
    (hl : E.itemLinks b = .ok ls) {x : Cid} (hx : x ∈ ls) : x ∈ links := (h x).mpr ⟨b, hb, ls, hl, hx⟩

theorem encodeLoop_spec (items : List Bytes) (hi : ∀ b ∈ items, IsItem E b) (ws : List Bytes) (links : List Cid) :
    (∃ links', encodeLoop E items ws links = .ok (ws ++ items, links') ∧
      (∀ x, x ∈ links' ↔ x ∈ links ∨ ∃ b ∈ items, ∃ ls, E.itemLinks b = .ok ls ∧ x ∈ ls) ∧
      ∀ b ∈ items, ∃ ls, E.itemLinks b = .ok ls) ∨
    (∃ b ∈ items, ∃ m, E.itemLinks b = .error m ∧ encodeLoop E items ws links = .error (.fail m)) := by
  induction items generalizing ws links with
  | nil => left; exact ⟨links, by simp [encodeLoop], by simp, by simp⟩
  | cons b items ih =>
    simp only [encodeLoop]
    rcases scrapeLinks_single b (hi b (by simp)) links with ⟨l1, ls, h1, h2, h3⟩ | ⟨m, h1, h2⟩
    · rw [h1]
      simp only
      rcases ih (fun b hb => hi b (by simp [hb])) (ws ++ [b]) l1 with ⟨l2, h4, h5, h6⟩ | ⟨b', hb', m, h4, h5⟩
      · left
        refine ⟨l2, by simpa using h4, ?_, ?_⟩
        · intro x
          rw [h5, h3]
          constructor
          · rintro ((h | h) | ⟨b', hb', ls, h, h'⟩)
            · exact Or.inl h
            · exact Or.inr ⟨b, by simp, ls, h2, h⟩
            · exact Or.inr ⟨b', by simp [hb'], ls, h, h'⟩
          · rintro (h | ⟨b', hb', ls', h, h'⟩)
            · exact Or.inl (Or.inl h)
            · rcases List.mem_cons.mp hb' with rfl | hb'
              · rw [h2] at h; cases h; exact Or.inl (Or.inr h')
              · exact Or.inr ⟨b', hb', ls', h, h'⟩
        · intro b' hb'
          rcases List.mem_cons.mp hb' with rfl | hb'
          · exact ⟨ls, h2⟩
          · exact h6 b' hb'
      · right; exact ⟨b', by simp [hb'], m, h4, h5⟩
    · right; rw [h2]; exact ⟨b, by simp, m, h1, rfl⟩

/-! ### reading values -/

theorem itemsLoop_spec (h : E.Lawful) (vs : List V) (n : Nat) (hn : (vs.map E.encV).flatten.length ≤ n)
    (acc : List V) : itemsLoop E n (vs.map E.encV).flatten acc = .ok (acc ++ vs) := by
  induction vs generalizing n acc with
  | nil => cases n <;> simp [itemsLoop]
  | cons v vs ih =>
    simp only [List.map_cons, List.flatten_cons, List.length_append] at hn ⊢
    obtain ⟨x, xs, hx, hl⟩ := append_cons_of_ne (h.encV_ne v) (vs.map E.encV).flatten
    obtain ⟨n, rfl⟩ : ∃ m, n = m + 1 := ⟨n - 1, by omega⟩
    rw [hx]
    simp only [itemsLoop]
    rw [← hx, h.item_encV]
    simp only [h.decV_encV]
    rw [ih n (by omega)]
    simp

theorem countItems_spec (items : List Bytes) (hi : ∀ b ∈ items, IsItem E b) (n : Nat)
    (hn : items.flatten.length ≤ n) : countItems E n items.flatten = .ok items.length := by
  induction items generalizing n with
  | nil => cases n <;> simp [countItems]
  | cons b items ih =>
    simp only [List.flatten_cons, List.length_append] at hn ⊢
    have hb := hi b (by simp)
    obtain ⟨x, xs, hx, hl⟩ := append_cons_of_ne hb.1 items.flatten
    obtain ⟨n, rfl⟩ : ∃ m, n = m + 1 := ⟨n - 1, by omega⟩
    rw [hx]
    simp only [countItems]
    rw [← hx, hb.2]
    simp only
    rw [ih (fun b hb => hi b (by simp [hb])) n (by omega)]
    simp

theorem getLoop_spec (h : E.Lawful) (vs : List V) (n : Nat) (hn : (vs.map E.encV).flatten.length ≤ n) (i : Nat) :
    getLoop E n i (vs.map E.encV).flatten = .ok vs[i]? := by
  induction vs generalizing n i with
  | nil => cases n <;> simp [getLoop]
  | cons v vs ih =>
    simp only [List.map_cons, List.flatten_cons, List.length_append] at hn ⊢
    obtain ⟨x, xs, hx, hl⟩ := append_cons_of_ne (h.encV_ne v) (vs.map E.encV).flatten
    obtain ⟨n, rfl⟩ : ∃ m, n = m + 1 := ⟨n - 1, by omega⟩
    rw [hx]
    simp only [getLoop]
    rw [← hx, h.item_encV]
    simp only
    cases i with
    | zero => simp [h.decV_encV]
    | succ i => simp [ih n (by omega)]

theorem itemsIpldLoop_spec (h : E.Lawful) (cs : List (Index T)) (n : Nat)
    (hn : (cs.map E.encIdx).flatten.length ≤ n) (acc : List (Index T)) :
    itemsIpldLoop E n (cs.map E.encIdx).flatten acc = .ok (acc ++ cs) := by
  induction cs generalizing n acc with
  | nil => cases n <;> simp [itemsIpldLoop]
  | cons v vs ih =>
    simp only [List.map_cons, List.flatten_cons, List.length_append] at hn ⊢
    obtain ⟨x, xs, hx, hl⟩ := append_cons_of_ne (h.encIdx_ne v) (vs.map E.encIdx).flatten
    obtain ⟨n, rfl⟩ : ∃ m, n = m + 1 := ⟨n - 1, by omega⟩
    rw [hx]
    simp only [itemsIpldLoop]
    rw [← hx, h.decIdx_encIdx]
    simp only
    rw [ih n (by omega)]
    simp

/-- The values selected by a mask. -/
def maskSelect {α : Type} : List Bool → List α → List α
  | true :: ts, a :: as => a :: maskSelect ts as
  | false :: ts, _ :: as => maskSelect ts as
  | _, _ => []

theorem selectLoop_spec (h : E.Lawful) (vs : List V) (take : List Bool) (acc : List V) :
    selectLoop E take (vs.map E.encV).flatten acc = .ok (acc ++ maskSelect take vs) := by
  induction vs generalizing take acc with
  | nil =>
    cases take with
    | nil => simp [selectLoop, maskSelect]
    | cons t ts => cases t <;> simp [selectLoop, maskSelect]
  | cons v vs ih =>
    cases take with
    | nil => simp [selectLoop, maskSelect]
    | cons t ts =>
      simp only [List.map_cons, List.flatten_cons]
      obtain ⟨x, xs, hx, hl⟩ := append_cons_of_ne (h.encV_ne v) (vs.map E.encV).flatten
      rw [hx]
      simp only [selectLoop]
      rw [← hx, h.item_encV]
      simp only
      cases t
      · simp [ih, maskSelect]
      · simp [h.decV_encV, ih, maskSelect]

theorem maskSelect_false {α : Type} (bs : List Bool) (h : ∀ b ∈ bs, b = false) (as : List α) :
    maskSelect bs as = [] := by
  induction bs generalizing as with
  | nil => cases as <;> rfl
  | cons b bs ih =>
    have := h b (by simp)
    subst this
    cases as with
    | nil => rfl
    | cons a as => exact ih (fun b hb => h b (by simp [hb])) as

theorem maskSelect_append_false {α : Type} (bs fs : List Bool) (h : ∀ b ∈ fs, b = false) (as : List α) :
    maskSelect (bs ++ fs) as = maskSelect bs as := by
  induction bs generalizing as with
  | nil =>
    rw [List.nil_append, maskSelect_false fs h]
    cases as <;> rfl
  | cons b bs ih => cases as with
    | nil => cases b <;> rfl
    | cons a as => cases b <;> simp [maskSelect, ih]

theorem shrinkToFit_append (l : List Bool) : ∃ fs, l = shrinkToFit l ++ fs ∧ ∀ b ∈ fs, b = false := by
  unfold shrinkToFit
  refine ⟨(l.reverse.takeWhile (· == false)).reverse, ?_, ?_⟩
  · rw [← List.reverse_append, List.takeWhile_append_dropWhile, List.reverse_reverse]
  · intro b hb
    rw [List.mem_reverse] at hb
    have := List.all_takeWhile (l := l.reverse) (p := (· == false))
    rw [List.all_eq_true] at this
    simpa using this b hb

theorem maskSelect_shrink {α : Type} (l : List Bool) (as : List α) : maskSelect (shrinkToFit l) as = maskSelect l as := by
  obtain ⟨fs, h1, h2⟩ := shrinkToFit_append l
  conv => rhs; rw [h1]
  exact (maskSelect_append_false _ _ h2 as).symm

variable {z : ZSeq} {vs : List V}

theorem ZSeq.items_of_decompress (h : E.Lawful) (hz : decompress E z.data = .ok (vs.map E.encV).flatten) :
    ZSeq.items E z = .ok vs := by
  unfold ZSeq.items
  rw [hz]
  simp only
  rw [itemsLoop_spec h vs _ (Nat.le_refl _)]
  simp

theorem ZSeq.count_of_decompress (h : E.Lawful) (hz : decompress E z.data = .ok (vs.map E.encV).flatten) :
    ZSeq.count E z = .ok vs.length := by
  unfold ZSeq.count
  rw [hz]
  simp only
  rw [countItems_spec (vs.map E.encV) _ _ (Nat.le_refl _)]
  · simp
  · intro b hb
    obtain ⟨v, _, rfl⟩ := List.mem_map.mp hb
    exact isItem_encV h v

theorem ZSeq.get_of_decompress (h : E.Lawful) (hz : decompress E z.data = .ok (vs.map E.encV).flatten) (i : Nat) :
    ZSeq.get E z i = .ok vs[i]? := by
  unfold ZSeq.get
  rw [hz]
  exact getLoop_spec h vs _ (Nat.le_refl _) i

theorem ZSeq.select_of_decompress (h : E.Lawful) (hz : decompress E z.data = .ok (vs.map E.encV).flatten)
    (take : List Bool) : ZSeq.select E z take = .ok (maskSelect take vs) := by
  unfold ZSeq.select
  split
  · rename_i he
    rw [← maskSelect_shrink take vs]
    have : shrinkToFit take = [] := by simpa using he
    rw [this]; cases vs <;> rfl
  · rw [hz]
    simp only
    rw [selectLoop_spec h, maskSelect_shrink]
    simp

theorem decompress_zfin (h : E.Lawful) (lvl : Int) (ws : List Bytes) (hs : ws.flatten.length ≤ maxCapacity) :
    decompress E (E.zfin lvl ws) = .ok ws.flatten := by
  unfold decompress
  rw [h.unz_zfin]
  simp only
  rw [if_pos hs]

theorem ZSeq.itemsIpld_zfin (h : E.Lawful) (lvl : Int) (cs : List (Index T)) (links : List Cid)
    (hs : (cs.map E.encIdx).flatten.length ≤ maxCapacity) :
    ZSeq.itemsIpld E ⟨E.zfin lvl (cs.map E.encIdx), links⟩ = .ok cs := by
  unfold ZSeq.itemsIpld
  rw [decompress_zfin h _ _ hs]
  simp only
  rw [itemsIpldLoop_spec h cs _ (Nat.le_refl _)]
  simp

/-! ### encryption -/

theorem applyKeystream_length (key : E.CKey) (o : Nat) (b : Bytes) : (applyKeystream E key o b).length = b.length := by
  induction b generalizing o with
  | nil => rfl
  | cons x xs ih => simp [applyKeystream, ih]

theorem applyKeystream_involutive (key : E.CKey) (o : Nat) (b : Bytes) :
    applyKeystream E key o (applyKeystream E key o b) = b := by
  induction b generalizing o with
  | nil => rfl
  | cons x xs ih =>
    simp only [applyKeystream, ih]
    congr 1
    rw [UInt8.xor_assoc, UInt8.xor_self, UInt8.xor_zero]

theorem decrypt_encNode (h : E.Lawful) (key : E.CKey) (o : Nat) (z : ZSeq) (ho : o + z.data.length < 2 ^ 64) :
    decrypt E (E.encNode (o, z.links, applyKeystream E key o z.data)) key = .ok (z, (o, o + z.data.length)) := by
  unfold decrypt
  rw [h.decNode_encNode]
  simp [applyKeystream_length, ho, applyKeystream_involutive]

/-! ### fill -/

/-- The values of a list of pairs, encoded and concatenated. -/
def encVals (E : Env T V) (vs : List V) : Bytes := (vs.map E.encV).flatten

theorem encVals_append (a b : List V) : encVals E (a ++ b) = encVals E a ++ encVals E b := by simp [encVals]

theorem encVals_single (v : V) : encVals E [v] = E.encV v := by simp [encVals]

/-- What the loop of `fill` guarantees. -/
theorem fillLoop_spec (h : E.Lawful) (cfg : Config) (vals : V → Prop) (lvl : Int) (cs us mk : Nat)
    (hus : us = cfg.maxUncompressedLeafSize) (from_ : List (T.Key × V)) (hvals : ∀ kv ∈ from_, vals kv.2)
    (keys : List T.Key) (ws : List Bytes) (links : List Cid) (vs : List V)
    (hws : ws.flatten = encVals E vs)
    (hkv : keys.length = vs.length)
    (hlinks : LinksOf E (vs.map E.encV) links) :
    (∃ r, fillLoop E lvl cs us mk from_ keys (encVals E vs).length ws links = .ok r ∧
      ∃ taken, from_ = taken ++ r.from_ ∧ r.keys = keys ++ taken.map Prod.fst ∧
        r.ws.flatten = encVals E (vs ++ taken.map Prod.snd) ∧
        r.size = (encVals E (vs ++ taken.map Prod.snd)).length ∧ (taken ≠ [] → r.size ≤ us ∧ r.keys.length ≤ mk) ∧
        LinksOf E ((vs ++ taken.map Prod.snd).map E.encV) r.links ∧
        (r.full = true → ∃ kv rest, r.from_ = kv :: rest ∧ r.size + (E.encV kv.2).length > us ∧
          (E.encV kv.2).length ≤ us) ∧
        (r.from_ = [] ∨ r.full = true ∨ mk ≤ r.keys.length ∨ cs ≤ E.zlen lvl r.ws) ∧
        (taken = [] → from_ = [] ∨ mk ≤ keys.length ∨ r.full = true)) ∨
    (∃ e, fillLoop E lvl cs us mk from_ keys (encVals E vs).length ws links = .error e ∧ Allowed E cfg vals e) := by
  induction from_ generalizing keys ws links vs with
  | nil =>
    left
    refine ⟨_, rfl, [], rfl, by simp, by simpa using hws, by simp, by simp, by simpa using hlinks, ?_, ?_, ?_⟩ <;> simp [-Subtype.forall]
  | cons kv rest ih =>
    obtain ⟨k, v⟩ := kv
    simp only [fillLoop]
    by_cases h1 : keys.length ≥ mk
    · rw [if_pos h1]
      left
      refine ⟨_, rfl, [], rfl, by simp, by simpa using hws, by simp, by simp, by simpa using hlinks, ?_, ?_, ?_⟩ <;> simp [-Subtype.forall]
      · exact Or.inl h1
      · exact h1
    · rw [if_neg h1]
      by_cases h2 : (E.encV v).length > us
      · rw [if_pos h2]
        right
        exact ⟨_, rfl, .tooLarge v _ (hvals (k, v) (by simp)) (by omega)⟩
      · rw [if_neg h2]
        by_cases h3 : (encVals E vs).length + (E.encV v).length > us
        · rw [if_pos h3]
          left
          refine ⟨_, rfl, [], rfl, by simp, by simpa using hws, by simp, by simp, by simpa using hlinks, ?_, ?_, ?_⟩ <;> simp [-Subtype.forall]
          · exact ⟨h3, by omega⟩
        · rw [if_neg h3]
          rcases scrapeLinks_single (E.encV v) (isItem_encV h v) links with ⟨l1, ls, h4, h5, h6⟩ | ⟨m, h4, h5⟩
          · rw [h4]
            simp only
            have hws' : (ws ++ [E.encV v]).flatten = encVals E (vs ++ [v]) := by
              simp [hws, encVals_append, encVals_single]
            have hsz' : (encVals E (vs ++ [v])).length = (encVals E vs).length + (E.encV v).length := by
              simp [encVals_append, encVals_single]
            have hlinks' : LinksOf E ((vs ++ [v]).map E.encV) l1 := by
              intro x
              rw [h6, hlinks x, List.map_append]
              constructor
              · rintro (⟨b, hb, h7⟩ | h7)
                · exact ⟨b, List.mem_append_left _ hb, h7⟩
                · exact ⟨_, List.mem_append_right _ (List.mem_singleton.mpr rfl), ls, h5, h7⟩
              · rintro ⟨b, hb, ls', h7, h8⟩
                rcases List.mem_append.mp hb with hb | hb
                · exact Or.inl ⟨b, hb, ls', h7, h8⟩
                · obtain rfl : b = E.encV v := by simpa using hb
                  rw [h5] at h7; cases h7; exact Or.inr h8
            by_cases h7 : E.zlen lvl (ws ++ [E.encV v]) ≥ cs
            · rw [if_pos h7]
              left
              refine ⟨_, rfl, [(k, v)], rfl, by simp, by simpa using hws', by simp [hsz'], ?_, by simpa using hlinks', ?_, ?_, ?_⟩ <;>
                simp [-Subtype.forall]
              · omega
              · exact Or.inr (Or.inr h7)
            · rw [if_neg h7]
              have := ih (fun kv hkv => hvals kv (by simp [hkv])) (keys ++ [k]) (ws ++ [E.encV v]) l1 (vs ++ [v]) hws'
                (by simp [hkv]) hlinks'
              rw [hsz'] at this
              rcases this with ⟨r, hr, taken, g1, g2, g3, g4, g5, g7, g8, g9, g10⟩ | ⟨e, hr, he⟩
              · left
                refine ⟨r, hr, (k, v) :: taken, by simp [g1], by simp [g2], by simpa using g3, by simpa using g4, ?_,
                  ?_, g8, g9, by simp⟩
                · intro _
                  cases taken with
                  | nil =>
                    simp only [List.map_nil, List.append_nil] at g2 g4
                    rw [g2, g4]
                    simp only [List.length_append, List.length_singleton]
                    omega
                  | cons _ _ => exact g5 (by simp)
                simpa using g7
              · right; exact ⟨e, hr, he⟩
          · right; rw [h5]; exact ⟨_, rfl, .scrapeVal v m h4⟩

theorem fillStart_nil : fillStart E [] = .ok (0, [], []) := by simp [fillStart]

theorem fillStart_spec (h : E.Lawful) (cfg : Config) (vals : V → Prop) (compressed : Bytes) (hc : compressed ≠ [])
    (vs : List V) (hd : decompress E compressed = .ok (encVals E vs)) :
    (∃ links, fillStart E compressed = .ok ((encVals E vs).length, [encVals E vs], links) ∧
      LinksOf E (vs.map E.encV) links) ∨
    (∃ e, fillStart E compressed = .error e ∧ Allowed E cfg vals e) := by
  unfold fillStart
  have : compressed.isEmpty = false := by simpa using hc
  rw [this, hd]
  simp only [Bool.false_eq_true, if_false]
  rcases scrapeLinks_spec (E := E) (vs.map E.encV) (by
    intro b hb
    obtain ⟨v, _, rfl⟩ := List.mem_map.mp hb
    exact isItem_encV h v) [] with ⟨acc, h1, h2, h3⟩ | ⟨b, hb, m, h1, h2⟩
  · left
    unfold encVals
    rw [h1]
    refine ⟨acc, rfl, ?_⟩
    intro x
    rw [h2]
    simp
  · right
    obtain ⟨v, _, rfl⟩ := List.mem_map.mp hb
    unfold encVals
    rw [h2]
    exact ⟨_, rfl, .scrapeVal v m h1⟩

end Banyan
