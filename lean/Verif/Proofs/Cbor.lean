import Verif.Spec.Wire
/-
The wire format round-trips.
-/
set_option autoImplicit false
namespace Banyan.Cbor

theorem takeN_append (a r : Bytes) : takeN a.length (a ++ r) = some (a, r) := by
  unfold takeN
  rw [if_neg (by simp)]
  simp

theorem takeBe_append (k n : Nat) (h : n < 256 ^ k) (r : Bytes) : takeBe k (beBytes k n ++ r) = some (n, r) := by
  have h1 := takeN_append (beBytes k n) r
  rw [beBytes_length] at h1
  unfold takeBe
  rw [h1]
  simp only [Option.map_some, ofBe_beBytes k n h]

theorem byte_div {m i : Nat} (hm : m < 8) (hi : i < 32) : (UInt8.ofNat (m * 32 + i)).toNat / 32 = m := by
  rw [toNat_ofNat (by omega)]; omega

theorem byte_mod {m i : Nat} (hm : m < 8) (hi : i < 32) : (UInt8.ofNat (m * 32 + i)).toNat % 32 = i := by
  rw [toNat_ofNat (by omega)]; omega

theorem unhead_head (m n : Nat) (hm : m < 8) (r : Bytes) : unhead (head m n ++ r) = some (m, n, r) := by
  unfold head
  by_cases h0 : n < 24
  · rw [if_pos h0]
    simp only [List.cons_append, List.nil_append, unhead, byte_div hm (Nat.lt_trans h0 (by decide)),
      byte_mod hm (Nat.lt_trans h0 (by decide))]
    rw [if_pos h0]
  rw [if_neg h0]
  by_cases h1 : n < 2 ^ 8
  · rw [if_pos h1]
    simp only [List.cons_append, unhead, byte_div hm (show 24 < 32 by decide), byte_mod hm (show 24 < 32 by decide),
      takeBe_append 1 n h1]
    rfl
  rw [if_neg h1]
  by_cases h2 : n < 2 ^ 16
  · rw [if_pos h2]
    simp only [List.cons_append, unhead, byte_div hm (show 25 < 32 by decide), byte_mod hm (show 25 < 32 by decide),
      takeBe_append 2 n h2]
    rfl
  rw [if_neg h2]
  by_cases h3 : n < 2 ^ 32
  · rw [if_pos h3]
    simp only [List.cons_append, unhead, byte_div hm (show 26 < 32 by decide), byte_mod hm (show 26 < 32 by decide),
      takeBe_append 4 n h3]
    rfl
  rw [if_neg h3]
  by_cases h4 : n < 2 ^ 64
  · rw [if_pos h4]
    simp only [List.cons_append, unhead, byte_div hm (show 27 < 32 by decide), byte_mod hm (show 27 < 32 by decide),
      takeBe_append 8 n h4]
    rfl
  rw [if_neg h4]
  simp only [List.cons_append, unhead, byte_div hm (show 28 < 32 by decide), byte_mod hm (show 28 < 32 by decide),
    unvar_varint]
  rfl

theorem floatWidth_none {x : UInt8} (h : x.toNat < 249) : floatWidth x = none := by
  unfold floatWidth
  rw [if_neg (by omega), if_neg (by omega), if_neg (by omega)]

theorem head_first (m n : Nat) (hm : m < 8) (h : m < 7 ∨ n < 24) : ∃ x t, head m n = x :: t ∧ floatWidth x = none := by
  unfold head
  by_cases h0 : n < 24
  · rw [if_pos h0]
    exact ⟨_, _, rfl, floatWidth_none (by rw [toNat_ofNat (by omega)]; omega)⟩
  have hm7 : m < 7 := by omega
  rw [if_neg h0]
  by_cases h1 : n < 2 ^ 8
  · rw [if_pos h1]
    exact ⟨_, _, rfl, floatWidth_none (by rw [toNat_ofNat (by omega)]; omega)⟩
  rw [if_neg h1]
  by_cases h2 : n < 2 ^ 16
  · rw [if_pos h2]
    exact ⟨_, _, rfl, floatWidth_none (by rw [toNat_ofNat (by omega)]; omega)⟩
  rw [if_neg h2]
  by_cases h3 : n < 2 ^ 32
  · rw [if_pos h3]
    exact ⟨_, _, rfl, floatWidth_none (by rw [toNat_ofNat (by omega)]; omega)⟩
  rw [if_neg h3]
  by_cases h4 : n < 2 ^ 64
  · rw [if_pos h4]
    exact ⟨_, _, rfl, floatWidth_none (by rw [toNat_ofNat (by omega)]; omega)⟩
  rw [if_neg h4]
  exact ⟨_, _, rfl, floatWidth_none (by rw [toNat_ofNat (by omega)]; omega)⟩

theorem head_pos (m n : Nat) : 1 ≤ (head m n).length := by
  unfold head
  repeat' split
  all_goals simp

/-- What `parse` does with the number in the initial bytes. -/
def parseAs (f : Nat) : Nat × Nat × Bytes → Option (Cbor × Bytes)
  | (0, n, r) => some (uint n, r)
  | (1, n, r) => some (nint n, r)
  | (2, n, r) => (takeN n r).map fun (b, r) => (bytes b, r)
  | (3, n, r) => (takeN n r).map fun (b, r) => (text b, r)
  | (4, n, r) => (parses f n r).map fun (xs, r) => (array xs, r)
  | (5, n, r) => (parses f (2 * n) r).map fun (xs, r) => (map xs, r)
  | (6, n, r) => (parse f r).map fun (x, r) => (tag n x, r)
  | (_, n, r) => if n < 24 then some (simple n, r) else none

theorem parse_head (f m n : Nat) (hm : m < 8) (h : m < 7 ∨ n < 24) (r : Bytes) :
    parse (f + 1) (head m n ++ r) = parseAs f (m, n, r) := by
  obtain ⟨x, t, hx, hw⟩ := head_first m n hm h
  have hu := unhead_head m n hm r
  rw [hx] at hu ⊢
  rw [List.cons_append] at hu ⊢
  rw [parse, hw]
  simp only [hu]
  match m, hm with
  | 0, _ => rfl
  | 1, _ => rfl
  | 2, _ => rfl
  | 3, _ => rfl
  | 4, _ => rfl
  | 5, _ => rfl
  | 6, _ => rfl
  | 7, _ => rfl

mutual
/-- Enough depth to read an item. -/
def need : Cbor → Nat
  | array xs => 1 + needs xs
  | map xs => 1 + needs xs
  | tag _ x => 1 + need x
  | _ => 1

def needs : List Cbor → Nat
  | [] => 1
  | x :: xs => 1 + need x + needs xs
end

mutual
theorem need_le : ∀ c : Cbor, need c + 1 ≤ 3 * (encode c).length
  | uint n => by have := head_pos 0 n; simp only [need, encode]; omega
  | nint n => by have := head_pos 1 n; simp only [need, encode]; omega
  | bytes b => by have := head_pos 2 b.length; simp only [need, encode, List.length_append]; omega
  | text b => by have := head_pos 3 b.length; simp only [need, encode, List.length_append]; omega
  | array xs => by
    have := head_pos 4 xs.length
    have := needs_le xs
    simp only [need, encode, List.length_append]; omega
  | map xs => by
    have := head_pos 5 (xs.length / 2)
    have := needs_le xs
    simp only [need, encode, List.length_append]; omega
  | tag n x => by
    have := head_pos 6 n
    have := need_le x
    simp only [need, encode, List.length_append]; omega
  | simple n => by have := head_pos 7 n; simp only [need, encode]; omega
  | float b => by simp only [need, encode, List.length_cons]; omega

theorem needs_le : ∀ xs : List Cbor, needs xs ≤ 1 + 3 * (encodes xs).length
  | [] => by simp [needs]
  | x :: xs => by
    have := need_le x
    have := needs_le xs
    simp only [needs, encodes, List.length_append]; omega
end

mutual
theorem parse_encode : ∀ (c : Cbor) (f : Nat) (r : Bytes), c.Wf → need c ≤ f → parse f (encode c ++ r) = some (c, r)
  | uint n, f, r, _, h => by
    obtain ⟨f, rfl⟩ : ∃ g, f = g + 1 := ⟨f - 1, by simp only [need] at h; omega⟩
    simp only [encode]
    rw [parse_head f 0 n (by decide) (by left; decide)]
    rfl
  | nint n, f, r, _, h => by
    obtain ⟨f, rfl⟩ : ∃ g, f = g + 1 := ⟨f - 1, by simp only [need] at h; omega⟩
    simp only [encode]
    rw [parse_head f 1 n (by decide) (by left; decide)]
    rfl
  | bytes b, f, r, _, h => by
    obtain ⟨f, rfl⟩ : ∃ g, f = g + 1 := ⟨f - 1, by simp only [need] at h; omega⟩
    simp only [encode, List.append_assoc]
    rw [parse_head f 2 _ (by decide) (by left; decide)]
    simp only [parseAs, takeN_append, Option.map_some]
  | text b, f, r, _, h => by
    obtain ⟨f, rfl⟩ : ∃ g, f = g + 1 := ⟨f - 1, by simp only [need] at h; omega⟩
    simp only [encode, List.append_assoc]
    rw [parse_head f 3 _ (by decide) (by left; decide)]
    simp only [parseAs, takeN_append, Option.map_some]
  | array xs, f, r, hw, h => by
    obtain ⟨f, rfl⟩ : ∃ g, f = g + 1 := ⟨f - 1, by simp only [need] at h; omega⟩
    simp only [need] at h
    simp only [Wf] at hw
    simp only [encode, List.append_assoc]
    rw [parse_head f 4 _ (by decide) (by left; decide)]
    simp only [parseAs]
    rw [parses_encodes xs f r hw (by omega)]
    rfl
  | map xs, f, r, hw, h => by
    obtain ⟨f, rfl⟩ : ∃ g, f = g + 1 := ⟨f - 1, by simp only [need] at h; omega⟩
    simp only [need] at h
    simp only [Wf] at hw
    simp only [encode, List.append_assoc]
    rw [parse_head f 5 _ (by decide) (by left; decide)]
    simp only [parseAs]
    rw [show 2 * (xs.length / 2) = xs.length by omega, parses_encodes xs f r hw.2 (by omega)]
    rfl
  | tag n x, f, r, hw, h => by
    obtain ⟨f, rfl⟩ : ∃ g, f = g + 1 := ⟨f - 1, by simp only [need] at h; omega⟩
    simp only [need] at h
    simp only [Wf] at hw
    simp only [encode, List.append_assoc]
    rw [parse_head f 6 _ (by decide) (by left; decide)]
    simp only [parseAs]
    rw [parse_encode x f r hw (by omega)]
    rfl
  | simple n, f, r, hw, h => by
    obtain ⟨f, rfl⟩ : ∃ g, f = g + 1 := ⟨f - 1, by simp only [need] at h; omega⟩
    simp only [Wf] at hw
    simp only [encode]
    rw [parse_head f 7 n (by decide) (Or.inr hw)]
    simp only [parseAs]
    rw [if_pos hw]
  | float b, f, r, hw, h => by
    obtain ⟨f, rfl⟩ : ∃ g, f = g + 1 := ⟨f - 1, by simp only [need] at h; omega⟩
    simp only [Wf] at hw
    simp only [encode, List.cons_append]
    rw [parse]
    have hf : floatWidth (UInt8.ofNat (if b.length = 2 then 249 else if b.length = 4 then 250 else 251)) = some b.length := by
      rcases hw with h | h | h <;> rw [h] <;> rfl
    rw [hf]
    simp only [takeN_append, Option.map_some]

theorem parses_encodes : ∀ (xs : List Cbor) (f : Nat) (r : Bytes), Wfs xs → needs xs ≤ f →
    parses f xs.length (encodes xs ++ r) = some (xs, r)
  | [], f, r, _, h => by
    obtain ⟨f, rfl⟩ : ∃ g, f = g + 1 := ⟨f - 1, by simp only [needs] at h; omega⟩
    simp only [List.length_nil, encodes, List.nil_append, parses]
  | x :: xs, f, r, hw, h => by
    obtain ⟨f, rfl⟩ : ∃ g, f = g + 1 := ⟨f - 1, by simp only [needs] at h; omega⟩
    simp only [needs] at h
    simp only [Wfs] at hw
    simp only [List.length_cons, encodes, List.append_assoc, parses]
    rw [parse_encode x f _ hw.1 (by omega)]
    simp only
    rw [parses_encodes xs f r hw.2 (by omega)]
    rfl
end

theorem decode_encode (c : Cbor) (r : Bytes) (h : c.Wf) : decode (encode c ++ r) = some (c, r) := by
  unfold decode
  refine parse_encode c _ r h ?_
  have := need_le c
  rw [List.length_append]
  omega

theorem encode_ne (c : Cbor) : encode c ≠ [] := by
  intro h
  have := need_le c
  rw [h] at this
  simp at this

theorem item_encode (c : Cbor) (r : Bytes) (h : c.Wf) : item (encode c ++ r) = .ok (encode c, r) := by
  unfold item
  rw [decode_encode c r h]
  simp

theorem itemLinks_encode (c : Cbor) (h : c.Wf) (ls : List Cid) (hs : scrape [] c = some ls) : itemLinks (encode c) = .ok ls := by
  have := decode_encode c [] h
  rw [List.append_nil] at this
  unfold itemLinks
  rw [this]
  simp only [hs]

theorem wfs_iff (xs : List Cbor) : Wfs xs ↔ ∀ x ∈ xs, x.Wf := by
  induction xs with
  | nil => simp [Wfs]
  | cons x xs ih => simp [Wfs, ih]

theorem scrapes_ok (xs : List Cbor) (h : ∀ x ∈ xs, ∃ ls, scrape [] x = some ls) :
    ∃ ls, scrapes xs = some ls ∧ ∀ x ∈ xs, ∀ a, scrape [] x = some a → ∀ l ∈ a, l ∈ ls := by
  induction xs with
  | nil => exact ⟨[], rfl, fun x hx => by cases hx⟩
  | cons x xs ih =>
    obtain ⟨a, ha⟩ := h x List.mem_cons_self
    obtain ⟨b, hb, hb'⟩ := ih (fun y hy => h y (List.mem_cons_of_mem _ hy))
    refine ⟨a ++ b, ?_, ?_⟩
    · simp only [scrapes, ha, hb]
      rfl
    · intro y hy c hc l hl
      rcases List.mem_cons.mp hy with h1 | h1
      · subst h1
        rw [ha] at hc
        cases hc
        exact List.mem_append.mpr (Or.inl hl)
      · exact List.mem_append.mpr (Or.inr (hb' y h1 c hc l hl))

/-! Codecs -/

theorem nat_lawful : natCodec.Lawful := ⟨fun _ => rfl, fun _ => trivial, fun _ => ⟨[], rfl⟩⟩

theorem bool_lawful : boolCodec.Lawful :=
  ⟨fun b => by cases b <;> rfl, fun b => by cases b <;> simp [boolCodec, Wf], fun b => by cases b <;> exact ⟨[], rfl⟩⟩

theorem text_lawful : textCodec.Lawful := ⟨fun _ => rfl, fun _ => trivial, fun _ => ⟨[], rfl⟩⟩

theorem mapM_to {β : Type} (c : Codec β) (h : ∀ b, c.of (c.to b) = some b) (l : List β) : (l.map c.to).mapM c.of = some l := by
  induction l with
  | nil => rfl
  | cons b l ih =>
    rw [List.map_cons, List.mapM_cons, h, ih]
    rfl

theorem list_lawful {β : Type} {c : Codec β} (h : c.Lawful) : (listCodec c).Lawful where
  rt := mapM_to c h.rt
  wf := fun l => by
    show Wfs (l.map c.to)
    rw [wfs_iff]
    intro x hx
    obtain ⟨b, _, rfl⟩ := List.mem_map.mp hx
    exact h.wf b
  visit := fun l => by
    obtain ⟨ls, h1, _⟩ := scrapes_ok (l.map c.to) (by
      intro x hx
      obtain ⟨b, _, rfl⟩ := List.mem_map.mp hx
      exact h.visit b)
    exact ⟨ls, h1⟩

theorem newtype_lawful {β : Type} {c : Codec β} (h : c.Lawful) : (newtypeCodec c).Lawful where
  rt := fun b => h.rt b
  wf := fun b => by
    show Wfs [c.to b]
    exact ⟨h.wf b, trivial⟩
  visit := fun b => by
    obtain ⟨ls, hl⟩ := h.visit b
    exact ⟨ls ++ [], by show scrapes [c.to b] = _; simp [scrapes, hl]⟩

theorem pair_lawful {β γ : Type} {c : Codec β} {d : Codec γ} (hc : c.Lawful) (hd : d.Lawful) : (pairCodec c d).Lawful where
  rt := fun x => by
    show (do let a ← c.of (c.to x.1); let b ← d.of (d.to x.2); pure (a, b)) = some x
    rw [hc.rt, hd.rt]
    rfl
  wf := fun x => by
    show Wfs [c.to x.1, d.to x.2]
    exact ⟨hc.wf _, hd.wf _, trivial⟩
  visit := fun x => by
    obtain ⟨l1, h1⟩ := hc.visit x.1
    obtain ⟨l2, h2⟩ := hd.visit x.2
    exact ⟨l1 ++ (l2 ++ []), by show scrapes [c.to x.1, d.to x.2] = _; simp [scrapes, h1, h2]⟩

/-! Maps with named fields -/

theorem record_length (es : List (Bytes × Cbor)) : (record es).length % 2 = 0 := by
  induction es with
  | nil => rfl
  | cons e es ih => obtain ⟨k, v⟩ := e; simp only [record, List.length_cons]; omega

theorem record_wfs (es : List (Bytes × Cbor)) (h : ∀ e ∈ es, e.2.Wf) : Wfs (record es) := by
  induction es with
  | nil => trivial
  | cons e es ih =>
    obtain ⟨k, v⟩ := e
    exact ⟨trivial, h _ List.mem_cons_self, ih fun e he => h e (List.mem_cons_of_mem _ he)⟩

theorem record_textKeys (es : List (Bytes × Cbor)) : textKeys (record es) = true := by
  induction es with
  | nil => rfl
  | cons e es ih => obtain ⟨k, v⟩ := e; exact ih

theorem mem_record {es : List (Bytes × Cbor)} {x : Cbor} (h : x ∈ record es) : (∃ k, x = text k) ∨ ∃ e ∈ es, x = e.2 := by
  induction es with
  | nil => cases h
  | cons e es ih =>
    obtain ⟨k, v⟩ := e
    rcases List.mem_cons.mp h with h | h
    · exact Or.inl ⟨k, h⟩
    · rcases List.mem_cons.mp h with h | h
      · exact Or.inr ⟨(k, v), List.mem_cons_self, h⟩
      · rcases ih h with h | ⟨e, he, h⟩
        · exact Or.inl h
        · exact Or.inr ⟨e, List.mem_cons_of_mem _ he, h⟩

theorem record_mem {es : List (Bytes × Cbor)} {e : Bytes × Cbor} (h : e ∈ es) : e.2 ∈ record es := by
  induction es with
  | nil => cases h
  | cons e' es ih =>
    obtain ⟨k, v⟩ := e'
    rcases List.mem_cons.mp h with h | h
    · subst h
      exact List.mem_cons_of_mem _ List.mem_cons_self
    · exact List.mem_cons_of_mem _ (List.mem_cons_of_mem _ (ih h))

theorem field_none {es : List (Bytes × Cbor)} {k : Bytes} (h : k ∉ es.map Prod.fst) : field k (record es) = none := by
  induction es with
  | nil => rfl
  | cons e es ih =>
    obtain ⟨k', v⟩ := e
    simp only [List.map_cons, List.mem_cons, not_or] at h
    simp only [record, field, ih h.2]
    rw [if_neg (fun he => h.1 he.symm)]

theorem field_some {es : List (Bytes × Cbor)} (hn : (es.map Prod.fst).Nodup) {k : Bytes} {v : Cbor} (h : (k, v) ∈ es) :
    field k (record es) = some v := by
  induction es with
  | nil => cases h
  | cons e es ih =>
    obtain ⟨k', v'⟩ := e
    have hn' := List.nodup_cons.mp hn
    rcases List.mem_cons.mp h with h | h
    · cases h
      simp only [record, field, field_none hn'.1, if_pos]
    · simp only [record, field, ih hn'.2 h]

theorem fields_record (es : List (Bytes × Cbor)) : fields (map (record es)) = some (record es) := by
  simp only [fields, record_textKeys, if_true]

theorem get_record {β : Type} {es : List (Bytes × Cbor)} (hn : (es.map Prod.fst).Nodup) (c : Codec β) {k : Bytes} {b : β}
    (hrt : c.of (c.to b) = some b) (h : (k, c.to b) ∈ es) : get c k (record es) = some b := by
  unfold get
  rw [field_some hn h]
  exact hrt

theorem record_visit (es : List (Bytes × Cbor)) (h : ∀ e ∈ es, ∃ ls, scrape [] e.2 = some ls) :
    ∃ ls, scrape [] (map (record es)) = some ls ∧ ∀ e ∈ es, ∀ a, scrape [] e.2 = some a → ∀ l ∈ a, l ∈ ls := by
  obtain ⟨ls, h1, h2⟩ := scrapes_ok (record es) (by
    intro x hx
    rcases mem_record hx with ⟨k, rfl⟩ | ⟨e, he, rfl⟩
    · exact ⟨[], rfl⟩
    · exact h e he)
  exact ⟨ls, h1, fun e he a ha l hl => h2 e.2 (record_mem he) a ha l hl⟩

theorem record_wf (es : List (Bytes × Cbor)) (h : ∀ e ∈ es, e.2.Wf) : (map (record es)).Wf :=
  ⟨record_length es, record_wfs es h⟩

/-! Links -/

theorem link_scrape {β : Type} {c : Codec β} {cid : β → Cid} (h : c.LinkLawful cid) (b : β) :
    scrape [] (c.to b) = some [cid b] := by
  rw [h.is]
  simp only [scrape, List.nil_append, if_pos, readCid_cid, Option.map_some]

theorem link_lawful {β : Type} {c : Codec β} {cid : β → Cid} (h : c.LinkLawful cid) : c.Lawful :=
  ⟨h.rt, fun b => by rw [h.is]; trivial, fun b => ⟨_, link_scrape h b⟩⟩

theorem option_link_lawful {β : Type} {c : Codec β} {cid : β → Cid} (h : c.LinkLawful cid) : (optionCodec c).Lawful where
  rt := fun b => by
    cases b with
    | none => rfl
    | some b =>
      have := h.rt b
      show (optionCodec c).of (c.to b) = some (some b)
      rw [h.is] at this ⊢
      show (c.of _).map some = _
      rw [this]
      rfl
  wf := fun b => by
    cases b with
    | none => show (22 : Nat) < 24; decide
    | some b => exact (link_lawful h).wf b
  visit := fun b => by
    cases b with
    | none => exact ⟨[], rfl⟩
    | some b => exact (link_lawful h).visit b

theorem cidDigest_digest (d : Digest) : cidDigest (digestCid d) = some d := by
  obtain ⟨b, hb⟩ := d
  simp only [digestCid, digestBytes, cidDigest, hb]
  rfl

theorem digest_lawful : digestCodec.LinkLawful digestCid where
  rt := fun d => by
    show (readCid (digestCid d).1).bind cidDigest = some d
    rw [readCid_cid]
    exact cidDigest_digest d
  is := fun _ => rfl

/-! Envelope -/

theorem node_wf (o : Nat) (ls : List Cid) (d : Bytes) : (array [natCodec.to o, (listCodec cidCodec).to ls, bytes d]).Wf := by
  refine ⟨trivial, ?_, trivial, trivial⟩
  show Wfs (ls.map cidCodec.to)
  rw [wfs_iff]
  intro x hx
  obtain ⟨b, _, rfl⟩ := List.mem_map.mp hx
  exact trivial

theorem cids_rt (ls : List Cid) : (listCodec cidCodec).of ((listCodec cidCodec).to ls) = some ls := by
  show (ls.map cidCodec.to).mapM cidCodec.of = some ls
  induction ls with
  | nil => rfl
  | cons l ls ih =>
    rw [List.map_cons, List.mapM_cons, ih]
    have : cidCodec.of (cidCodec.to l) = some l := readCid_cid l
    rw [this]
    rfl

theorem decNode_encNode (o : Nat) (ls : List Cid) (d r : Bytes) : decNode (encNode (o, ls, d) ++ r) = .ok (o, ls, d) := by
  unfold decNode encNode
  rw [decode_encode _ _ (node_wf o ls d)]
  simp only [cids_rt ls]
  rfl

/-! Indices -/

variable {T : TreeTypes} {C : Codecs T} {cid : T.Link → Cid}

theorem leafFields_nodup (i : LeafIndex T) : ((leafFields C i).map Prod.fst).Nodup := by
  simp only [leafFields, List.map_cons, List.map_nil]
  decide

theorem branchFields_nodup (i : BranchIndex T) : ((branchFields C i).map Prod.fst).Nodup := by
  simp only [branchFields, List.map_cons, List.map_nil]
  decide

theorem leafOf_record (hC : C.Lawful cid) (i : LeafIndex T) (es : List (Bytes × Cbor)) (hn : (es.map Prod.fst).Nodup)
    (h : ∀ e ∈ leafFields C i, e ∈ es) : leafOf C (map (record es)) = some i := by
  have h1 : get boolCodec nSealed (record es) = some i.isSealed :=
    get_record hn _ (bool_lawful.rt _) (h _ (by simp [leafFields]))
  have h2 : get (optionCodec C.link) nLink (record es) = some i.link :=
    get_record hn _ ((option_link_lawful hC.link).rt _) (h _ (by simp [leafFields]))
  have h3 : get C.keys nKeys (record es) = some i.keys := get_record hn _ (hC.keys.rt _) (h _ (by simp [leafFields]))
  have h4 : get natCodec nValueBytes (record es) = some i.valueBytes :=
    get_record hn _ (nat_lawful.rt _) (h _ (by simp [leafFields]))
  unfold leafOf
  rw [fields_record]
  simp only [Option.bind_eq_bind, Option.bind_some, h1, h2, h3, h4]
  rfl

theorem branchOf_record (hC : C.Lawful cid) (i : BranchIndex T) (es : List (Bytes × Cbor)) (hn : (es.map Prod.fst).Nodup)
    (h : ∀ e ∈ branchFields C i, e ∈ es) : branchOf C (map (record es)) = some i := by
  have h1 : get boolCodec nSealed (record es) = some i.isSealed :=
    get_record hn _ (bool_lawful.rt _) (h _ (by simp [branchFields]))
  have h2 : get (optionCodec C.link) nLink (record es) = some i.link :=
    get_record hn _ ((option_link_lawful hC.link).rt _) (h _ (by simp [branchFields]))
  have h3 : get C.sums nSummaries (record es) = some i.summaries :=
    get_record hn _ (hC.sums.rt _) (h _ (by simp [branchFields]))
  have h4 : get natCodec nValueBytes (record es) = some i.valueBytes :=
    get_record hn _ (nat_lawful.rt _) (h _ (by simp [branchFields]))
  have h5 : get natCodec nCount (record es) = some i.count := get_record hn _ (nat_lawful.rt _) (h _ (by simp [branchFields]))
  have h6 : get natCodec nLevel (record es) = some i.level := get_record hn _ (nat_lawful.rt _) (h _ (by simp [branchFields]))
  have h7 : get natCodec nKeyBytes (record es) = some i.keyBytes :=
    get_record hn _ (nat_lawful.rt _) (h _ (by simp [branchFields]))
  unfold branchOf
  rw [fields_record]
  simp only [Option.bind_eq_bind, Option.bind_some, h1, h2, h3, h4, h5, h6, h7]
  rfl

theorem leafOf_none (es : List (Bytes × Cbor)) (h : nKeys ∉ es.map Prod.fst) : leafOf C (map (record es)) = none := by
  have h1 : get C.keys nKeys (record es) = none := by
    unfold get
    rw [field_none h]
    rfl
  unfold leafOf
  rw [fields_record]
  simp only [Option.bind_eq_bind, Option.bind_some, h1, Option.bind_none]
  cases get boolCodec nSealed (record es) with
  | none => rfl
  | some a => cases get (optionCodec C.link) nLink (record es) <;> rfl

theorem field_mem {es : List (Bytes × Cbor)} {k : Bytes} {v : Cbor} (h : field k (record es) = some v) : (k, v) ∈ es := by
  induction es with
  | nil => cases h
  | cons e es ih =>
    obtain ⟨k', v'⟩ := e
    simp only [record, field] at h
    cases hf : field k (record es) with
    | some x =>
      rw [hf] at h
      simp only [Option.some.injEq] at h
      subst h
      exact List.mem_cons_of_mem _ (ih hf)
    | none =>
      rw [hf] at h
      simp only at h
      split at h
      · rename_i he
        cases h
        subst he
        exact List.mem_cons_self
      · cases h

theorem get_mem {β : Type} {c : Codec β} {es : List (Bytes × Cbor)} {k : Bytes} {b : β} (h : get c k (record es) = some b) :
    ∃ x, (k, x) ∈ es ∧ c.of x = some b := by
  unfold get at h
  cases hf : field k (record es) with
  | none => rw [hf] at h; cases h
  | some x => rw [hf] at h; exact ⟨x, field_mem hf, h⟩

theorem get_nat_mem {es : List (Bytes × Cbor)} {k : Bytes} {n : Nat} (h : get natCodec k (record es) = some n) :
    (k, uint n) ∈ es := by
  obtain ⟨x, h1, h2⟩ := get_mem h
  simp only [natCodec] at h2
  split at h2
  · cases h2; exact h1
  · cases h2

theorem get_bool_mem {es : List (Bytes × Cbor)} {k : Bytes} {b : Bool} (h : get boolCodec k (record es) = some b) :
    (k, simple (if b then 21 else 20)) ∈ es := by
  obtain ⟨x, h1, h2⟩ := get_mem h
  simp only [boolCodec] at h2
  split at h2
  · cases h2; exact h1
  · cases h2; exact h1
  · cases h2

theorem get_link_mem {β : Type} {c : Codec β} {es : List (Bytes × Cbor)} {k : Bytes} {l : Option β}
    (h : get (optionCodec c) k (record es) = some l) : ∃ x, (k, x) ∈ es ∧ IsLink c x l := by
  obtain ⟨x, h1, h2⟩ := get_mem h
  refine ⟨x, h1, ?_⟩
  simp only [optionCodec] at h2
  split at h2
  · cases h2; exact Or.inl ⟨rfl, rfl⟩
  · cases hc : c.of x with
    | none => rw [hc] at h2; cases h2
    | some b => rw [hc] at h2; cases h2; exact Or.inr ⟨b, hc, rfl⟩

theorem index_says (es : List (Bytes × Cbor)) (i : Index T) (h : (indexCodec C).of (map (record es)) = some i) : Says C es i := by
  simp only [indexCodec] at h
  split at h
  · rename_i l hl
    cases h
    unfold leafOf at hl
    rw [fields_record] at hl
    simp only [Option.bind_eq_bind, Option.bind_some, Option.bind_eq_some_iff, Option.pure_def, Option.some.injEq] at hl
    obtain ⟨a1, h1, a2, h2, a3, h3, a4, h4, rfl⟩ := hl
    exact ⟨get_mem h3, get_link_mem h2, get_bool_mem h1, get_nat_mem h4⟩
  · cases hb : branchOf C (map (record es)) with
    | none => rw [hb] at h; cases h
    | some b =>
      rw [hb] at h
      cases h
      unfold branchOf at hb
      rw [fields_record] at hb
      simp only [Option.bind_eq_bind, Option.bind_some, Option.bind_eq_some_iff, Option.pure_def, Option.some.injEq] at hb
      obtain ⟨a1, h1, a2, h2, a3, h3, a4, h4, a5, h5, a6, h6, a7, h7, rfl⟩ := hb
      exact ⟨get_mem h5, get_link_mem h4, get_bool_mem h3, get_nat_mem h6, get_nat_mem h1, get_nat_mem h2, get_nat_mem h7⟩

theorem record_of_textKeys : ∀ xs : List Cbor, textKeys xs = true → ∃ es, xs = record es
  | [], _ => ⟨[], rfl⟩
  | [x], h => by cases x <;> cases h
  | x :: v :: r, h => by
    cases x with
    | text k =>
      obtain ⟨es, hes⟩ := record_of_textKeys r h
      exact ⟨(k, v) :: es, by rw [hes]; rfl⟩
    | _ => cases h

theorem fields_some {c : Cbor} {xs : List Cbor} (h : fields c = some xs) : ∃ es, c = map (record es) := by
  cases c with
  | map ys =>
    simp only [fields] at h
    split at h
    · rename_i hk
      obtain ⟨es, rfl⟩ := record_of_textKeys ys hk
      exact ⟨es, rfl⟩
    · cases h
  | _ => cases h

/-- An index is read only from a map with names as keys. -/
theorem index_record {c : Cbor} {i : Index T} (h : (indexCodec C).of c = some i) : ∃ es, c = map (record es) := by
  simp only [indexCodec] at h
  split at h
  · rename_i l hl
    unfold leafOf at hl
    obtain ⟨xs, hx, _⟩ := Option.bind_eq_some_iff.mp hl
    exact fields_some hx
  · cases hb : branchOf C c with
    | none => rw [hb] at h; cases h
    | some b =>
      unfold branchOf at hb
      obtain ⟨xs, hx, _⟩ := Option.bind_eq_some_iff.mp hb
      exact fields_some hx

theorem index_to (i : Index T) : (indexCodec C).to i = map (record (indexFields C i)) := by cases i <;> rfl

theorem indexOf_record (hC : C.Lawful cid) (i : Index T) (es : List (Bytes × Cbor)) (hn : (es.map Prod.fst).Nodup)
    (h : ∀ e ∈ indexFields C i, e ∈ es) (hf : Foreign i (es.map Prod.fst)) : (indexCodec C).of (map (record es)) = some i := by
  cases i with
  | leaf i =>
    simp only [indexCodec]
    rw [leafOf_record hC i es hn h]
  | branch i =>
    simp only [indexCodec]
    rw [leafOf_none es hf, branchOf_record hC i es hn h]
    rfl

theorem index_rt (hC : C.Lawful cid) (i : Index T) : (indexCodec C).of ((indexCodec C).to i) = some i := by
  rw [index_to]
  cases i with
  | leaf i => exact indexOf_record hC (.leaf i) _ (leafFields_nodup i) (fun e he => he) trivial
  | branch i =>
    refine indexOf_record hC (.branch i) _ (branchFields_nodup i) (fun e he => he) ?_
    show nKeys ∉ (branchFields C i).map Prod.fst
    simp only [branchFields, List.map_cons, List.map_nil]
    decide

theorem index_fields_lawful (hC : C.Lawful cid) (i : Index T) :
    ∀ e ∈ indexFields C i, e.2.Wf ∧ ∃ ls, scrape [] e.2 = some ls := by
  have ho := option_link_lawful hC.link
  intro e he
  cases i with
  | leaf i =>
    have he : e ∈ leafFields C i := he
    simp only [leafFields, List.mem_cons, List.not_mem_nil, or_false] at he
    rcases he with rfl | rfl | rfl | rfl
    · exact ⟨hC.keys.wf _, hC.keys.visit _⟩
    · exact ⟨ho.wf _, ho.visit _⟩
    · exact ⟨bool_lawful.wf _, bool_lawful.visit _⟩
    · exact ⟨nat_lawful.wf _, nat_lawful.visit _⟩
  | branch i =>
    have he : e ∈ branchFields C i := he
    simp only [branchFields, List.mem_cons, List.not_mem_nil, or_false] at he
    rcases he with rfl | rfl | rfl | rfl | rfl | rfl | rfl
    · exact ⟨ho.wf _, ho.visit _⟩
    · exact ⟨nat_lawful.wf _, nat_lawful.visit _⟩
    · exact ⟨nat_lawful.wf _, nat_lawful.visit _⟩
    · exact ⟨bool_lawful.wf _, bool_lawful.visit _⟩
    · exact ⟨nat_lawful.wf _, nat_lawful.visit _⟩
    · exact ⟨hC.sums.wf _, hC.sums.visit _⟩
    · exact ⟨nat_lawful.wf _, nat_lawful.visit _⟩

theorem index_wf (hC : C.Lawful cid) (i : Index T) : ((indexCodec C).to i).Wf := by
  rw [index_to]
  exact record_wf _ fun e he => (index_fields_lawful hC i e he).1

theorem link_field (i : Index T) (l : T.Link) (h : i.link = some l) : (nLink, C.link.to l) ∈ indexFields C i := by
  cases i with
  | leaf i =>
    have h : i.link = some l := h
    simp [indexFields, leafFields, h, optionCodec]
  | branch i =>
    have h : i.link = some l := h
    simp [indexFields, branchFields, h, optionCodec]

theorem index_visit (hC : C.Lawful cid) (i : Index T) :
    ∃ ls, scrape [] ((indexCodec C).to i) = some ls ∧ ∀ l, i.link = some l → cid l ∈ ls := by
  rw [index_to]
  obtain ⟨ls, h1, h2⟩ := record_visit (indexFields C i) fun e he => (index_fields_lawful hC i e he).2
  refine ⟨ls, h1, ?_⟩
  intro l hl
  exact h2 _ (link_field i l hl) [cid l] (link_scrape hC.link l) _ List.mem_cons_self

/-! Scraping -/

/-- An item with tags around it. -/
def wrap (ts : List Nat) (c : Cbor) : Cbor := ts.foldr tag c

theorem wrap_append (ts : List Nat) (n : Nat) (c : Cbor) : wrap (ts ++ [n]) c = wrap ts (tag n c) := by
  simp [wrap, List.foldr_append]

theorem strip_wrap (ts : List Nat) (c : Cbor) : strip (wrap ts c) = strip c := by
  induction ts with
  | nil => rfl
  | cons t ts ih => exact ih

theorem parts_wrap (ts : List Nat) (c : Cbor) : parts (wrap ts c) = parts c := by
  unfold parts
  rw [strip_wrap]

/-- What is to be shown about the result of scraping an item. -/
def Scraped (r : Option (List Cid)) (c : Cbor) : Prop :=
  (∃ ls, r = some ls ∧ (∀ l, l ∈ ls ↔ LinkIn l c) ∧ ¬ BadLinkIn c) ∨ (r = none ∧ BadLinkIn c)

/-- The same for a list of items. -/
def ScrapedAll (r : Option (List Cid)) (xs : List Cbor) : Prop :=
  (∃ ls, r = some ls ∧ (∀ l, l ∈ ls ↔ ∃ x ∈ xs, LinkIn l x) ∧ ¬ ∃ x ∈ xs, BadLinkIn x) ∨ (r = none ∧ ∃ x ∈ xs, BadLinkIn x)

theorem wrap_bytes {ts : List Nat} {c : Cbor} {n : Nat} {b : Bytes} (h : wrap ts c = tag n (bytes b)) :
    (ts = [n] ∧ c = bytes b) ∨ (ts = [] ∧ c = tag n (bytes b)) := by
  cases ts with
  | nil => exact Or.inr ⟨rfl, h⟩
  | cons t ts =>
    have h : tag t (wrap ts c) = tag n (bytes b) := h
    injection h with h1 h2
    subst h1
    cases ts with
    | nil => exact Or.inl ⟨rfl, h2⟩
    | cons t' ts => cases h2

theorem linkIn_container {l : Cid} {c : Cbor} (hc : ∀ b, c ≠ tag 42 (bytes b)) : LinkIn l c ↔ ∃ x ∈ parts c, LinkIn l x := by
  constructor
  · intro h
    cases h with
    | here r _ => exact absurd rfl (hc _)
    | inside _ x h1 h2 => exact ⟨x, h1, h2⟩
  · rintro ⟨x, h1, h2⟩
    exact .inside _ x h1 h2

theorem badLinkIn_container {c : Cbor} (hc : ∀ b, c ≠ tag 42 (bytes b)) : BadLinkIn c ↔ ∃ x ∈ parts c, BadLinkIn x := by
  constructor
  · intro h
    cases h with
    | here r _ => exact absurd rfl (hc _)
    | inside _ x h1 h2 => exact ⟨x, h1, h2⟩
  · rintro ⟨x, h1, h2⟩
    exact .inside _ x h1 h2

theorem scraped_container {r : Option (List Cid)} {c : Cbor} (hc : ∀ b, c ≠ tag 42 (bytes b)) (h : ScrapedAll r (parts c)) : Scraped r c := by
  rcases h with ⟨ls, h1, h2, h3⟩ | ⟨h1, h2⟩
  · exact Or.inl ⟨ls, h1, fun l => (h2 l).trans (linkIn_container hc).symm, fun hb => h3 ((badLinkIn_container hc).mp hb)⟩
  · exact Or.inr ⟨h1, (badLinkIn_container hc).mpr h2⟩

theorem scrapedAll_nil : ScrapedAll (some []) [] :=
  Or.inl ⟨[], rfl, fun l => by simp, by simp⟩

theorem scraped_other (ts : List Nat) (c : Cbor) (hp : parts c = []) (hb : ∀ b, c ≠ bytes b) (ht : ∀ n x, c ≠ tag n x) : Scraped (some []) (wrap ts c) := by
  apply scraped_container
  · intro b h
    rcases wrap_bytes h with ⟨_, h⟩ | ⟨_, h⟩
    · exact hb _ h
    · exact ht _ _ h
  · rw [parts_wrap, hp]
    exact scrapedAll_nil

theorem scraped_bytes (ts : List Nat) (b : Bytes) : Scraped (scrape ts (bytes b)) (wrap ts (bytes b)) := by
  unfold scrape
  by_cases h : ts = [42]
  · subst h
    rw [if_pos rfl]
    have hp : parts (tag 42 (bytes b)) = [] := rfl
    show Scraped _ (tag 42 (bytes b))
    cases b with
    | nil => exact Or.inr ⟨rfl, .here _ fun r h => nomatch h⟩
    | cons x r =>
      by_cases hx : x = 0
      · subst hx
        show Scraped ((readCid r).map fun c => [c]) _
        cases hr : readCid r with
        | none =>
          refine Or.inr ⟨rfl, .here _ fun r' h => ?_⟩
          injection h with _ h
          rw [← h, hr]
        | some c =>
          refine Or.inl ⟨[c], rfl, fun l => ?_, fun hb => ?_⟩
          · rw [List.mem_singleton]
            constructor
            · rintro rfl
              exact .here r hr
            · intro hl
              cases hl with
              | here _ h' => rw [hr] at h'; injection h' with h'; exact h'.symm
              | inside _ x h1 _ => rw [hp] at h1; cases h1
          · cases hb with
            | here _ h' => rw [h' r rfl] at hr; cases hr
            | inside _ x h1 _ => rw [hp] at h1; cases h1
      · right
        constructor
        · split
          · rename_i heq
            injection heq with h1 _
            exact absurd h1 hx
          · rfl
        · refine .here _ fun r' h => ?_
          injection h with h _
          exact absurd h hx
  · rw [if_neg h]
    apply scraped_container
    · intro b' h'
      rcases wrap_bytes h' with ⟨h1, _⟩ | ⟨_, h2⟩
      · exact h h1
      · cases h2
    · rw [parts_wrap]
      exact scrapedAll_nil

theorem wrap_container (ts : List Nat) (xs : List Cbor) (b : Bytes) : wrap ts (array xs) ≠ tag 42 (bytes b) ∧ wrap ts (map xs) ≠ tag 42 (bytes b) := by
  constructor <;> intro h <;> rcases wrap_bytes h with ⟨_, h⟩ | ⟨_, h⟩ <;> cases h

mutual
theorem scrape_spec : ∀ (c : Cbor) (ts : List Nat), Scraped (scrape ts c) (wrap ts c)
  | tag n x, ts => by
    rw [← wrap_append]
    show Scraped (scrape (ts ++ [n]) x) _
    exact scrape_spec x (ts ++ [n])
  | array xs, ts => by
    refine scraped_container (fun b => (wrap_container ts xs b).1) ?_
    rw [parts_wrap]
    exact scrapes_spec xs
  | map xs, ts => by
    refine scraped_container (fun b => (wrap_container ts xs b).2) ?_
    rw [parts_wrap]
    exact scrapes_spec xs
  | bytes b, ts => scraped_bytes ts b
  | uint n, ts => scraped_other ts _ rfl (fun _ h => nomatch h) (fun _ _ h => nomatch h)
  | nint n, ts => scraped_other ts _ rfl (fun _ h => nomatch h) (fun _ _ h => nomatch h)
  | text b, ts => scraped_other ts _ rfl (fun _ h => nomatch h) (fun _ _ h => nomatch h)
  | simple n, ts => scraped_other ts _ rfl (fun _ h => nomatch h) (fun _ _ h => nomatch h)
  | float b, ts => scraped_other ts _ rfl (fun _ h => nomatch h) (fun _ _ h => nomatch h)

theorem scrapes_spec : ∀ xs : List Cbor, ScrapedAll (scrapes xs) xs
  | [] => scrapedAll_nil
  | x :: xs => by
    have h1 : Scraped (scrape [] x) x := scrape_spec x []
    have h2 := scrapes_spec xs
    unfold scrapes
    rcases h1 with ⟨a, e1, f1, g1⟩ | ⟨e1, g1⟩
    · rcases h2 with ⟨b, e2, f2, g2⟩ | ⟨e2, g2⟩
      · left
        rw [e1, e2]
        refine ⟨a ++ b, rfl, fun l => ?_, ?_⟩
        · rw [List.mem_append, f1, f2]
          simp
        · simpa using ⟨g1, by simpa using g2⟩
      · right
        rw [e1, e2]
        obtain ⟨y, hy, hb⟩ := g2
        exact ⟨rfl, y, List.mem_cons_of_mem _ hy, hb⟩
    · right
      rw [e1]
      exact ⟨rfl, x, List.mem_cons_self, g1⟩
end

end Banyan.Cbor
