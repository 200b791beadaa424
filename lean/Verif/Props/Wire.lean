import Verif.Concrete.Wire
import Verif.Concrete.States
import Verif.Props.Tags
import Verif.Props.TagTree
import Verif.Props.Append
import Verif.Props.Nodes
/-
Properties of the wire format: C57, C63, C64, C65.
-/
set_option autoImplicit false
namespace Banyan

open Cbor Tag

variable {T : TreeTypes} {V : Type}

/-- C57: the envelope of a block is read back as it was written, whatever follows it. -/
theorem C57_envelope (offset : Nat) (links : List Cid) (data rest : Bytes) :
    Cbor.decNode (Cbor.encNode (offset, links, data) ++ rest) = .ok (offset, links, data) :=
  Cbor.decNode_encNode offset links data rest

/-- C57: envelopes of different blocks are different. -/
theorem C57_injective (x y : Nat × List Cid × Bytes) (h : Cbor.encNode x = Cbor.encNode y) : x = y := by
  have h1 := C57_envelope x.1 x.2.1 x.2.2 []
  have h2 := C57_envelope y.1 y.2.1 y.2.2 []
  rw [show Cbor.encNode (x.1, x.2.1, x.2.2) = Cbor.encNode (y.1, y.2.1, y.2.2) from h, h2] at h1
  injection h1 with h1
  exact h1.symm

/-- C63: an index is read back as it was written; reading consumes exactly what was written, so the indexes of a branch come
back one by one. -/
theorem C63_index (C : Codecs T) (cid : T.Link → Cid) (hC : C.Lawful cid) (i : Index T) (rest : Bytes) :
    Cbor.decIdx C (Cbor.encIdx C i ++ rest) = .ok (i, rest) ∧ Cbor.item (Cbor.encIdx C i ++ rest) = .ok (Cbor.encIdx C i, rest) := by
  unfold Cbor.encIdx
  refine ⟨?_, item_encode _ _ (index_wf hC i)⟩
  unfold Cbor.decIdx
  rw [decode_encode _ _ (index_wf hC i)]
  simp only
  rw [index_rt hC i]

/-- C63: the order of the fields does not matter, and unknown fields are ignored (unless a branch has a field `keys`). -/
theorem C63_fields (C : Codecs T) (cid : T.Link → Cid) (hC : C.Lawful cid) (i : Index T) (es : List (Bytes × Cbor)) (rest : Bytes)
    (hn : (es.map Prod.fst).Nodup) (hw : ∀ e ∈ es, e.2.Wf) (h : ∀ e ∈ indexFields C i, e ∈ es) (hf : Foreign i (es.map Prod.fst)) :
    Cbor.decIdx C (encode (.map (record es)) ++ rest) = .ok (i, rest) := by
  unfold Cbor.decIdx
  rw [decode_encode _ _ (record_wf _ hw)]
  simp only
  rw [indexOf_record hC i es hn h hf]

/-- C63: what is read is what is there: an index is only read from a map with names as keys, which has all of its fields, each
of the right form. Nothing is filled in for missing or malformed fields. -/
theorem C63_strict (C : Codecs T) (i : Index T) (c : Cbor) (rest r : Bytes) (hw : c.Wf)
    (h : Cbor.decIdx C (encode c ++ rest) = .ok (i, r)) : ∃ es, c = .map (record es) ∧ Says C es i ∧ r = rest := by
  unfold Cbor.decIdx at h
  rw [decode_encode _ _ hw] at h
  simp only at h
  split at h
  · rename_i i' hi
    cases h
    obtain ⟨es, rfl⟩ := index_record hi
    exact ⟨es, rfl, index_says es i hi, rfl⟩
  · cases h

/-- C63: the wire format fulfils all assumptions about encodings on which the other theorems are based. -/
theorem C63_env (E : Env T V) (hE : E.BaseLawful) (C : Codecs T) (cid : T.Link → Cid) (hC : C.Lawful cid) (v : Codec V) (hv : v.Lawful) :
    (E.withWire C cid v).Lawful ∧ (E.withWire C cid v).ScrapesIdx ∧ (E.withWire C cid v).ScrapesVal := by
  refine ⟨?_, ?_, ?_⟩
  · exact
      { put_ok := hE.put_ok
        put_mono := hE.put_mono
        cacheGet_sub := hE.cacheGet_sub
        cachePut_sub := hE.cachePut_sub
        unz_zfin := hE.unz_zfin
        zfin_ne := hE.zfin_ne
        zlen_le := hE.zlen_le
        encV_ne := fun x => encode_ne _
        item_encV := fun x r => item_encode _ _ (hv.wf x)
        decV_encV := fun x => by
          have := decode_encode (v.to x) [] (hv.wf x)
          rw [List.append_nil] at this
          simp only [Env.withWire, this, hv.rt]
        encIdx_ne := fun i => encode_ne _
        item_encIdx := fun i r => (C63_index C cid hC i r).2
        decIdx_encIdx := fun i r => (C63_index C cid hC i r).1
        decNode_encNode := fun x => by
          have := C57_envelope x.1 x.2.1 x.2.2 []
          rw [List.append_nil] at this
          exact this }
  · intro i
    obtain ⟨ls, h1, h2⟩ := index_visit hC i
    exact ⟨ls, itemLinks_encode _ (index_wf hC i) ls h1, h2⟩
  · intro x
    obtain ⟨ls, h1⟩ := hv.visit x
    exact ⟨ls, itemLinks_encode _ (hv.wf x) ls h1⟩

/-- C64: in every item, the scraper finds exactly the links that occur in it, at any depth; it fails exactly if something is
marked as a link that is none. -/
theorem C64_scraper (c : Cbor) (hw : c.Wf) :
    (∃ ls, Cbor.itemLinks (encode c) = .ok ls ∧ (∀ l, l ∈ ls ↔ LinkIn l c) ∧ ¬ BadLinkIn c) ∨
    ((∃ m, Cbor.itemLinks (encode c) = .error m) ∧ BadLinkIn c) := by
  have hd := decode_encode c [] hw
  rw [List.append_nil] at hd
  rcases scrape_spec c [] with ⟨ls, h1, h2, h3⟩ | ⟨h1, h2⟩
  · exact Or.inl ⟨ls, itemLinks_encode c hw ls h1, h2, h3⟩
  · refine Or.inr ⟨⟨"invalid link", ?_⟩, h2⟩
    unfold Cbor.itemLinks
    rw [hd]
    simp only [h1]

/-- C64: the link of an index occurs in what is written. -/
theorem C64_index (C : Codecs T) (cid : T.Link → Cid) (hC : C.Lawful cid) (i : Index T) (l : T.Link) (h : i.link = some l) :
    LinkIn (cid l) ((indexCodec C).to i) := by
  obtain ⟨ls, h1, h2⟩ := index_visit hC i
  rcases scrape_spec ((indexCodec C).to i) [] with ⟨ls', h3, h4, _⟩ | ⟨h3, _⟩
  · rw [h1] at h3
    cases h3
    exact (h4 _).mp (h2 l h)
  · rw [h1] at h3
    cases h3

section Tags
variable {α : Type} [TotalOrd α]

theorem tagIndex_rt (c : Codec α) (hc : c.Lawful) (t : TagIndex α) (h : t.Valid) : (tagIndexCodec c).of ((tagIndexCodec c).to t) = some t := by
  have hl := pair_lawful (list_lawful hc) (list_lawful (list_lawful nat_lawful))
  show ((pairCodec (listCodec c) (listCodec (listCodec natCodec))).of ((pairCodec (listCodec c) (listCodec (listCodec natCodec))).to t.parts)).bind
    TagIndex.ofParts = some t
  rw [hl.rt]
  exact C43_codec t h

theorem keySeq_rt (c : Codec α) (hc : c.Lawful) (s : KeySeq α) (h : s.Valid) : (keySeqCodec c).of ((keySeqCodec c).to s) = some s := by
  obtain ⟨a, b, d, t⟩ := s
  have ht : t.Valid := h.2.2.2
  have hl := list_lawful nat_lawful
  let es : List (Bytes × Cbor) :=
    [(nTags, (tagIndexCodec c).to t), (nMaxTime, (listCodec natCodec).to d), (nMinTime, (listCodec natCodec).to b),
      (nMinLamport, (listCodec natCodec).to a)]
  have hn : (es.map Prod.fst).Nodup := by simp only [es, List.map_cons, List.map_nil]; decide
  have h1 : get (listCodec natCodec) nMinLamport (record es) = some a := get_record hn _ (hl.rt _) (by simp [es])
  have h2 : get (listCodec natCodec) nMinTime (record es) = some b := get_record hn _ (hl.rt _) (by simp [es])
  have h3 : get (listCodec natCodec) nMaxTime (record es) = some d := get_record hn _ (hl.rt _) (by simp [es])
  have h4 : get (tagIndexCodec c) nTags (record es) = some t := get_record hn _ (tagIndex_rt c hc t ht) (by simp [es])
  show (keySeqCodec c).of (.map (record es)) = _
  simp only [keySeqCodec]
  rw [fields_record]
  simp only [Option.bind_eq_bind, Option.bind_some, h1, h2, h3, h4]
  rfl

theorem keySeq_fields (c : Codec α) (hc : c.Lawful) (s : KeySeq α) :
    ((keySeqCodec c).to s).Wf ∧ ∃ ls, scrape [] ((keySeqCodec c).to s) = some ls := by
  have hl := list_lawful nat_lawful
  have ht := pair_lawful (list_lawful hc) (list_lawful (list_lawful nat_lawful))
  have key : ∀ e ∈ ([(nTags, (tagIndexCodec c).to s.tags), (nMaxTime, (listCodec natCodec).to s.maxTime),
      (nMinTime, (listCodec natCodec).to s.minTime), (nMinLamport, (listCodec natCodec).to s.minLamport)] : List (Bytes × Cbor)),
      e.2.Wf ∧ ∃ ls, scrape [] e.2 = some ls := by
    intro e he
    simp only [List.mem_cons, List.not_mem_nil, or_false] at he
    rcases he with rfl | rfl | rfl | rfl
    · exact ⟨ht.wf _, ht.visit _⟩
    · exact ⟨hl.wf _, hl.visit _⟩
    · exact ⟨hl.wf _, hl.visit _⟩
    · exact ⟨hl.wf _, hl.visit _⟩
  obtain ⟨ls, h1, _⟩ := record_visit _ fun e he => (key e he).2
  exact ⟨record_wf _ fun e he => (key e he).1, ls, h1⟩

/-- C65: sequences of keys with at most 2^32 different tags are read back as they were written. -/
theorem C65_keys (c : Codec α) (hc : c.Lawful) (l : List (Key α)) (h : FewTags (l.map Key.tags)) (rest : Bytes) :
    ∃ s x, KeySeq.fromIter l = some s ∧ decode (encode ((keySeqCodec c).to s) ++ rest) = some (x, rest) ∧
      ∃ s', (keySeqCodec c).of x = some s' ∧ s'.toVec = some l := by
  obtain ⟨s, h1, h2, _⟩ := fromIter_spec h
  obtain ⟨s', h3, h4, _⟩ := C56_keys l h
  rw [h1] at h3
  cases h3
  exact ⟨s, _, h1, decode_encode _ _ (keySeq_fields c hc s).1, s, keySeq_rt c hc s h2, h4⟩

/-- C65: a tag table that is read is complete; others are rejected. -/
theorem C65_tables (c : Codec α) (x : Cbor) (t : TagIndex α) (h : (tagIndexCodec c).of x = some t) :
    t.Valid ∧ (∃ e, t.asElements = some e) ∧ ∀ i : Nat, ∃ r, t.get i = some r := by
  obtain ⟨p, _, h2⟩ := Option.bind_eq_some_iff.mp h
  exact C43_decoded p t h2

/-- C65: all assumptions about encodings hold for the tree types of `banyan-utils`. -/
theorem C65_lawful (c : Codec α) (hc : c.Lawful) : (tagCodecs c).Lawful digestCid where
  link := digest_lawful
  keys := by
    refine ⟨fun s => ?_, fun s => (keySeq_fields c hc s.1).1, fun s => (keySeq_fields c hc s.1).2⟩
    show ((keySeqCodec c).of ((keySeqCodec c).to s.1)).bind _ = _
    rw [keySeq_rt c hc s.1 s.2]
    simp only [Option.bind_some]
    rw [dif_pos s.2]
    rfl
  sums := by
    refine ⟨fun s => ?_, fun s => (keySeq_fields c hc s.1).1, fun s => (keySeq_fields c hc s.1).2⟩
    show ((keySeqCodec c).of ((keySeqCodec c).to s.1)).bind _ = _
    rw [keySeq_rt c hc s.1 s.2]
    simp only [Option.bind_some]
    rw [dif_pos s.2]
    rfl

end Tags

namespace Concrete

/-- Tags as text. -/
instance byteOrd : TotalOrd UInt8 where
  decEq := inferInstance
  lt a b := decide (a.toNat < b.toNat)
  irrefl a := by simp
  trans a b c := by simp only [decide_eq_true_eq]; omega
  total a b := by
    simp only [decide_eq_false_iff_not]
    intro h1 h2
    exact UInt8.toNat_inj.mp (by omega)

instance textOrd : TotalOrd Bytes where
  decEq := inferInstance
  lt a b := lexLt a b
  irrefl := lexLt_irrefl
  trans := lexLt_trans
  total := lexLt_total

/-- C65, false: a sequence of keys that is accepted when reading can make a query panic, because the lengths of the columns
are not checked (here `min_time` is empty). -/
theorem C65_refuted : ∃ (x : Cbor) (s : KeySeq Bytes) (q : List (Key Bytes)), x.Wf ∧ (keySeqCodec textCodec).of x = some s ∧
    s.len = 1 ∧ containing q s [true] = none := by
  refine ⟨(keySeqCodec textCodec).to ⟨[1], [], [2], ⟨⟨[[0x61]], by decide⟩, [⟨[0], by decide⟩]⟩⟩,
    ⟨[1], [], [2], ⟨⟨[[0x61]], by decide⟩, [⟨[0], by decide⟩]⟩⟩, [⟨⟨0, 0, 9⟩, ⟨[[0x61]], by decide⟩⟩], ?_, ?_, rfl, ?_⟩
  · exact (keySeq_fields textCodec text_lawful _).1
  · decide +kernel
  · decide +kernel

/-- The digest of the wire format tests. -/
def testDigest : Digest :=
  ⟨[0xF3, 0xBF, 0xFB, 0xA2, 0xB0, 0xBB, 0xC8, 0x0A, 0x1C, 0x4B, 0xA3, 0x9C, 0x78, 0x9B, 0xB8, 0xE1, 0xEE, 0xF0, 0x8D, 0xC2, 0x79, 0x2E, 0x4B, 0xEB,
    0x0F, 0xBA, 0xFF, 0x13, 0x69, 0xB7, 0xA0, 0x35], by decide⟩

def testLeaf : LeafIndex wireTypes := ⟨true, some testDigest, [1, 2], 1234⟩

def testBranch : BranchIndex wireTypes := ⟨36784, 3, true, some testDigest, [(0, 1), (1, 2)], 123478912, 67834⟩

def testLeafBytes : Bytes :=
  [0xA4, 0x64, 0x6B, 0x65, 0x79, 0x73, 0x81, 0x82, 0x81, 0x01, 0x81, 0x02, 0x64, 0x6C, 0x69, 0x6E, 0x6B, 0xD8, 0x2A, 0x58, 0x25, 0x00, 0x01, 0x71,
    0x12, 0x20, 0xF3, 0xBF, 0xFB, 0xA2, 0xB0, 0xBB, 0xC8, 0x0A, 0x1C, 0x4B, 0xA3, 0x9C, 0x78, 0x9B, 0xB8, 0xE1, 0xEE, 0xF0, 0x8D, 0xC2, 0x79, 0x2E,
    0x4B, 0xEB, 0x0F, 0xBA, 0xFF, 0x13, 0x69, 0xB7, 0xA0, 0x35, 0x66, 0x73, 0x65, 0x61, 0x6C, 0x65, 0x64, 0xF5, 0x6B, 0x76, 0x61, 0x6C, 0x75, 0x65,
    0x5F, 0x62, 0x79, 0x74, 0x65, 0x73, 0x19, 0x04, 0xD2]

def testBranchBytes : Bytes :=
  [0xA7, 0x64, 0x6C, 0x69, 0x6E, 0x6B, 0xD8, 0x2A, 0x58, 0x25, 0x00, 0x01, 0x71, 0x12, 0x20, 0xF3, 0xBF, 0xFB, 0xA2, 0xB0, 0xBB, 0xC8, 0x0A, 0x1C,
    0x4B, 0xA3, 0x9C, 0x78, 0x9B, 0xB8, 0xE1, 0xEE, 0xF0, 0x8D, 0xC2, 0x79, 0x2E, 0x4B, 0xEB, 0x0F, 0xBA, 0xFF, 0x13, 0x69, 0xB7, 0xA0, 0x35, 0x65,
    0x63, 0x6F, 0x75, 0x6E, 0x74, 0x19, 0x8F, 0xB0, 0x65, 0x6C, 0x65, 0x76, 0x65, 0x6C, 0x03, 0x66, 0x73, 0x65, 0x61, 0x6C, 0x65, 0x64, 0xF5, 0x69,
    0x6B, 0x65, 0x79, 0x5F, 0x62, 0x79, 0x74, 0x65, 0x73, 0x1A, 0x00, 0x01, 0x08, 0xFA, 0x69, 0x73, 0x75, 0x6D, 0x6D, 0x61, 0x72, 0x69, 0x65, 0x73,
    0x81, 0x82, 0x82, 0x00, 0x01, 0x82, 0x01, 0x02, 0x6B, 0x76, 0x61, 0x6C, 0x75, 0x65, 0x5F, 0x62, 0x79, 0x74, 0x65, 0x73, 0x1A, 0x07, 0x5C, 0x23,
    0x80]

def testOldBytes : Bytes :=
  [0xA7, 0x65, 0x63, 0x6F, 0x75, 0x6E, 0x74, 0x19, 0x8F, 0xB0, 0x69, 0x6B, 0x65, 0x79, 0x5F, 0x62, 0x79, 0x74, 0x65, 0x73, 0x1A, 0x00, 0x01, 0x08,
    0xFA, 0x65, 0x6C, 0x65, 0x76, 0x65, 0x6C, 0x03, 0x64, 0x6C, 0x69, 0x6E, 0x6B, 0xD8, 0x2A, 0x58, 0x25, 0x00, 0x01, 0x71, 0x12, 0x20, 0xF3, 0xBF,
    0xFB, 0xA2, 0xB0, 0xBB, 0xC8, 0x0A, 0x1C, 0x4B, 0xA3, 0x9C, 0x78, 0x9B, 0xB8, 0xE1, 0xEE, 0xF0, 0x8D, 0xC2, 0x79, 0x2E, 0x4B, 0xEB, 0x0F, 0xBA,
    0xFF, 0x13, 0x69, 0xB7, 0xA0, 0x35, 0x66, 0x73, 0x65, 0x61, 0x6C, 0x65, 0x64, 0xF5, 0x69, 0x73, 0x75, 0x6D, 0x6D, 0x61, 0x72, 0x69, 0x65, 0x73,
    0x81, 0x82, 0x82, 0x00, 0x01, 0x82, 0x01, 0x02, 0x6B, 0x76, 0x61, 0x6C, 0x75, 0x65, 0x5F, 0x62, 0x79, 0x74, 0x65, 0x73, 0x1A, 0x07, 0x5C, 0x23,
    0x80]

/-! What the wire format tests of the repository check: `banyan/tests/build_check.rs:544-674`,
`banyan/src/store/zstd_dag_cbor_seq.rs:752-759`. -/

example : Cbor.encIdx wireCodecs (.leaf testLeaf) = testLeafBytes := by decide +kernel

example : Cbor.encIdx wireCodecs (.branch testBranch) = testBranchBytes := by decide +kernel

/-- The fields of `testBranch` in the order of the old format. -/
def oldFields : List (Bytes × Cbor) :=
  [(nCount, natCodec.to 36784), (nKeyBytes, natCodec.to 67834), (nLevel, natCodec.to 3), (nLink, digestCodec.to testDigest),
    (nSealed, boolCodec.to true), (nSummaries, wireCodecs.sums.to [(0, 1), (1, 2)]), (nValueBytes, natCodec.to 123478912)]

theorem old_bytes : encode (.map (record oldFields)) = testOldBytes := by decide +kernel

/-- The hypotheses of `C63_fields` hold for the old format, also with a field of a later version. -/
theorem old_format (es : List (Bytes × Cbor)) (hn : ((es ++ oldFields).map Prod.fst).Nodup) (hw : ∀ e ∈ es, e.2.Wf)
    (hk : nKeys ∉ es.map Prod.fst) (rest : Bytes) :
    Cbor.decIdx wireCodecs (encode (.map (record (es ++ oldFields))) ++ rest) = .ok (.branch testBranch, rest) := by
  refine C63_fields wireCodecs digestCid wireCodecs_lawful (.branch testBranch) (es ++ oldFields) rest hn ?_ ?_ ?_
  · intro e he
    rcases List.mem_append.mp he with he | he
    · exact hw e he
    · refine (index_fields_lawful wireCodecs_lawful (.branch testBranch) e ?_).1
      simp only [oldFields, List.mem_cons, List.not_mem_nil, or_false] at he
      simp only [indexFields, branchFields, List.mem_cons, List.not_mem_nil, or_false]
      rcases he with h | h | h | h | h | h | h <;> subst h
      · exact .inr (.inl rfl)
      · exact .inr (.inr (.inr (.inr (.inl rfl))))
      · exact .inr (.inr (.inl rfl))
      · exact .inl rfl
      · exact .inr (.inr (.inr (.inl rfl)))
      · exact .inr (.inr (.inr (.inr (.inr (.inl rfl)))))
      · exact .inr (.inr (.inr (.inr (.inr (.inr rfl)))))
  · intro e he
    refine List.mem_append.mpr (Or.inr ?_)
    simp only [indexFields, branchFields, List.mem_cons, List.not_mem_nil, or_false] at he
    simp only [oldFields, List.mem_cons, List.not_mem_nil, or_false]
    rcases he with h | h | h | h | h | h | h <;> subst h
    · exact .inr (.inr (.inr (.inl rfl)))
    · exact .inl rfl
    · exact .inr (.inr (.inl rfl))
    · exact .inr (.inr (.inr (.inr (.inl rfl))))
    · exact .inr (.inl rfl)
    · exact .inr (.inr (.inr (.inr (.inr (.inl rfl)))))
    · exact .inr (.inr (.inr (.inr (.inr (.inr rfl)))))
  · show nKeys ∉ (es ++ oldFields).map Prod.fst
    rw [List.map_append, List.mem_append, not_or]
    exact ⟨hk, by simp only [oldFields, List.map_cons, List.map_nil]; decide⟩

example : Cbor.decIdx wireCodecs (testOldBytes ++ [1, 2, 3]) = .ok (.branch testBranch, [1, 2, 3]) := by
  rw [← old_bytes]
  exact old_format [] (by simp only [oldFields, List.nil_append, List.map_cons, List.map_nil]; decide) (fun e h => nomatch h) (by simp) [1, 2, 3]

example : Cbor.decIdx wireCodecs (encode (.map (record ([([0x78], .float [0, 0])] ++ oldFields))) ++ [1]) = .ok (.branch testBranch, [1]) :=
  old_format [([0x78], .float [0, 0])] (by simp only [oldFields, List.cons_append, List.nil_append, List.map_cons, List.map_nil]; decide)
    (fun e h => by rw [List.mem_singleton.mp h]; exact Or.inl rfl) (by decide) [1]

example : ∃ es, Cbor.map (record ([([0x78], .float [0, 0])] ++ oldFields)) = .map (record es) ∧ Says wireCodecs es (.branch testBranch) ∧
    ([1] : Bytes) = [1] :=
  C63_strict wireCodecs (.branch testBranch) _ [1] [1]
    (record_wf _ <| by
      intro e he
      rcases List.mem_append.mp he with he | he
      · rw [List.mem_singleton.mp he]; exact Or.inl rfl
      · refine (index_fields_lawful wireCodecs_lawful (.branch testBranch) e ?_).1
        simp only [oldFields, List.mem_cons, List.not_mem_nil, or_false] at he
        simp only [indexFields, branchFields, List.mem_cons, List.not_mem_nil, or_false]
        rcases he with h | h | h | h | h | h | h <;> subst h
        · exact .inr (.inl rfl)
        · exact .inr (.inr (.inr (.inr (.inl rfl))))
        · exact .inr (.inr (.inl rfl))
        · exact .inl rfl
        · exact .inr (.inr (.inr (.inl rfl)))
        · exact .inr (.inr (.inr (.inr (.inr (.inl rfl)))))
        · exact .inr (.inr (.inr (.inr (.inr (.inr rfl))))))
    (old_format [([0x78], .float [0, 0])] (by simp only [oldFields, List.cons_append, List.nil_append, List.map_cons, List.map_nil]; decide)
      (fun e h => by rw [List.mem_singleton.mp h]; exact Or.inl rfl) (by decide) [1])

example : (Cbor.encNode (7, [], [1, 2])).take 3 = [0x83, 0x07, 0x80] := by decide +kernel

example : Cbor.decNode (Cbor.encNode (70000, [digestCid testDigest], [1, 2]) ++ [5]) = .ok (70000, [digestCid testDigest], [1, 2]) :=
  C57_envelope _ _ _ _

/-- An environment with the wire format exists. -/
theorem wireEnv_lawful : wireEnv.Lawful ∧ wireEnv.ScrapesIdx ∧ wireEnv.ScrapesVal :=
  C63_env (wireBase toyDigest) (wireBase_lawful toyDigest) wireCodecs digestCid wireCodecs_lawful natCodec nat_lawful

theorem wire_ok : (wireCtx tiny).Ok := ⟨wireEnv_lawful.1, wireTypes_lawful, tiny_valid⟩

def wire7 : St wireEnv := endState (extend (wireCtx tiny) 10 (seq 0 7)) wireStart

def wireSucceeds : Bool :=
  match extend (wireCtx tiny) 10 (seq 0 7) wireStart with
  | .ok _ _ => true
  | .error _ _ => false

theorem wireStart_reach : Reach (wireCtx tiny) wireStart := Reach.fresh _ rfl (by intro l b h; cases h)

theorem wire_extend {cfg : Config} {s : St wireEnv} (h : Reach (wireCtx cfg) s) (fuel : Nat) (xs : List (Nat × Nat)) (hf : rootLevel s.root < fuel)
    (hn : rootCount s.root + xs.length ≤ maxElements) : Reach (wireCtx cfg) (endState (extend (wireCtx cfg) fuel xs) s) :=
  h.run (.extend fuel xs (.refl _) hf hn)

theorem wire7_reach : Reach (wireCtx tiny) wire7 :=
  wire_extend wireStart_reach 10 (seq 0 7) (by decide) (by show 0 + (seq 0 7).length ≤ maxElements; decide +kernel)

/-- All other theorems apply to trees in the wire format, e.g. appending. -/
example : ∃ c, Contains (wireCtx tiny) wire7 c :=
  reach_readable wire_ok wire7_reach
    (by
      have h : (wire7.written.all fun cs => decide ((cs.map wireEnv.encIdx).flatten.length ≤ maxCapacity)) = true := by decide +kernel
      intro cs hcs
      have := List.all_eq_true.mp h cs hcs
      simpa using this)

example : wireSucceeds = true ∧ wire7.store.length = 7 := by decide +kernel

/-- A value with two links, one of them below another tag and in a map, and bytes that are no links. -/
def linky : Cbor :=
  .array [cidCodec.to (natCid 3), .bytes [0, 1], .tag 7 (.map [.text [0x61], cidCodec.to (natCid 300)]), .tag 7 (cidCodec.to (natCid 5))]

example : linky.Wf := by simp [linky, Wf, Wfs, cidCodec]

example : (match Cbor.itemLinks (encode linky) with | .ok ls => some ls | .error _ => none) = some [natCid 3, natCid 300] := by decide +kernel

example : BadLinkIn (.array [.tag 42 (.bytes [1])]) := .inside _ _ List.mem_cons_self (.here _ fun _ h => nomatch h)

def textKeys2 : List (Key Bytes) := [⟨⟨1, 2, 3⟩, VecSet.ofList [[0x61], [0x62]]⟩, ⟨⟨2, 3, 4⟩, VecSet.ofList [[0x62]]⟩]

/-- A list of keys to which `C65_keys` applies. -/
theorem textKeys2_few : FewTags (textKeys2.map Key.tags) := by
  intro l hl h
  have hsub : l ⊆ [[0x61], [0x62]] := by
    intro x hx
    obtain ⟨a, ha, hxa⟩ := h x hx
    have : ∀ a ∈ textKeys2.map Key.tags, ∀ x ∈ a.elems, x ∈ ([[0x61], [0x62]] : List Bytes) := by decide
    exact this a ha x hxa
  have := length_le_of_subset hl hsub
  simp at this
  omega

example : ∃ s x, KeySeq.fromIter textKeys2 = some s ∧ decode (encode ((keySeqCodec textCodec).to s) ++ [1]) = some (x, [1]) ∧
    ∃ s', (keySeqCodec textCodec).of x = some s' ∧ s'.toVec = some textKeys2 := C65_keys textCodec text_lawful textKeys2 textKeys2_few [1]

end Concrete

end Banyan
