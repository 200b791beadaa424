import Verif.Proofs.Dump
import Verif.Props.Graph
import Verif.Props.Shape
import Verif.Props.Cipher
/-
Dumps of blocks (C79) and of trees (C80).
-/
set_option autoImplicit false
namespace Banyan

open PTree Concrete

variable {T : TreeTypes} {V : Type} {E : Env T V} {cx : Ctx E} {s s' : St E} {t : PTree T V}

/-! ### C79 -/

/-- C79: the dump of the block of a leaf shows the values of the leaf in order, one per line. -/
theorem C79_leaf_partial (ok : cx.Ok) (hr : Reach cx s) (hs : Small E s) (ht : Shows cx s t) {i : LeafIndex T} {vs : List V}
    (hx : .leaf i vs ∈ t.nodes) (P : Printers) :
    ∃ l, i.link = some l ∧
      dumpCbor E P s.store l cx.sec.valueKey = ("ZstdDagCborSeq" :: vs.map (fun v => P.text (E.encV v)), .ok ()) ∧
      ∀ line : Bytes → String, (∀ v ∈ vs, PrintsAs P (E.encV v) (line (E.encV v))) →
        dumpJson E P s.store l cx.sec.valueKey = ("ZstdDagCborSeq" :: vs.map (fun v => line (E.encV v)), .ok ()) := by
  have _ := ht.inv ok hr hs
  obtain ⟨l, z, r, h1, h2, _, h4⟩ := ht.stored _ hx
  refine ⟨l, h1, ?_⟩
  unfold loadLeafFromLink at h2
  cases hb : getBlock E s.store l with
  | error e => rw [hb] at h2; cases h2
  | ok b =>
    rw [hb] at h2
    simp only at h2
    cases hd : decrypt E b cx.sec.valueKey with
    | error e => rw [hd] at h2; cases h2
    | ok x =>
      obtain ⟨z', r'⟩ := x
      rw [hd] at h2
      injection h2 with h2
      injection h2 with h2 h3
      subst h2
      have hi : ∀ b ∈ vs.map E.encV, IsItem E b := by
        intro b hb
        obtain ⟨v, _, rfl⟩ := List.mem_map.mp hb
        exact isItem_encV ok.env v
      obtain ⟨h5, h6⟩ := dump_items P hb hd h4 hi
      rw [List.map_map] at h5
      refine ⟨h5, fun line hl => ?_⟩
      have := h6 line (by
        intro b hb
        obtain ⟨v, hv, rfl⟩ := List.mem_map.mp hb
        exact hl v hv)
      rw [List.map_map] at this
      exact this

/-- C79: the dump of any block in the format of the library, with the key used for writing it, shows its items in order, one per line. -/
theorem C79_block_partial (h : E.Lawful) (P : Printers) (σ : E.σ) (l : T.Link) (key : E.CKey) (offset : Nat) (links : List Cid) (level : Int)
    (items : List Bytes) (hi : ∀ b ∈ items, b ≠ [] ∧ ∀ r, E.item (b ++ r) = .ok (b, r)) (hm : items.flatten.length ≤ maxCapacity)
    (ho : offset + (E.zfin level items).length < 2 ^ 64)
    (hb : E.get σ l = .ok (E.encNode (offset, links, applyKeystream E key offset (E.zfin level items)))) :
    dumpCbor E P σ l key = ("ZstdDagCborSeq" :: items.map P.text, .ok ()) ∧
    ∀ line : Bytes → String, (∀ b ∈ items, PrintsAs P b (line b)) → dumpJson E P σ l key = ("ZstdDagCborSeq" :: items.map line, .ok ()) := by
  refine dump_items P (getBlock_eq.mpr hb) (z := ⟨E.zfin level items, links⟩)
    (r := (offset, offset + (applyKeystream E key offset (E.zfin level items)).length)) ?_ ?_ hi
  · unfold decrypt
    rw [h.decNode_encNode]
    simp only
    rw [applyKeystream_length, if_pos ho, applyKeystream_involutive]
  · unfold decompress
    simp only
    rw [h.unz_zfin]
    simp only
    rw [if_pos hm]

/-- C79: a block that is not in the format of the library is shown as one item. -/
theorem C79_foreign (P : Printers) (σ : E.σ) (l : T.Link) (key : E.CKey) (b : Bytes) (e : String) (hb : E.get σ l = .ok b)
    (hd : E.decNode b = .error e) :
    (E.item b = .ok (b, []) → dumpCbor E P σ l key = ([P.text b], .ok ())) ∧
    ∀ line, PrintsAs P b line → dumpJson E P σ l key = ([line], .ok ()) := by
  have hd' : decrypt E b key = .error (.fail e) := by
    unfold decrypt
    rw [hd]
  constructor
  · intro hi
    unfold dumpCbor
    rw [getBlock_eq.mpr hb]
    simp only
    rw [hd']
    simp only
    rw [hi]
    rfl
  · rintro line ⟨i, h1, h2⟩
    unfold dumpJson
    rw [getBlock_eq.mpr hb]
    simp only
    rw [hd']
    simp only
    have := h1 []
    rw [List.append_nil] at this
    rw [this]
    simp only [printJson]
    rw [h2]
    rfl

/-! ### C80 -/

/-- C80: the text dump of a tree shows each node once, a node before its children and indented less, with the right numbers of elements and
children. -/
theorem C80_dump (ok : cx.Ok) (hr : Reach cx s) (hs : Small E s) (ht : Shows cx s t) : Yields Tree.dump (snapshot cx s) s (t.lines 0) := by
  have hsn := (ht.inv ok hr hs).holds.snap
  intro fuel hf
  rw [snapshot_level] at hf
  unfold Tree.dump snapshot
  have hroot := hsn.root
  rw [hsn.level] at hf
  rw [hroot]
  obtain ⟨γ, _, h2⟩ := dump0_reads ok.env ok.types fuel 0 t s (hsn.stored t rfl).outlined (hsn.wf t rfl).counts hsn.coherent hf
  exact ⟨_, h2⟩

mutual
theorem lines_length : ∀ (t : PTree T V) (pre : Nat), (t.lines pre).length = t.nodes.length
  | .leaf _ _, _ => rfl
  | .purgedLeaf _, _ => rfl
  | .purgedBranch _, _ => rfl
  | .branch i cs, pre => by
    simp only [PTree.lines, PTree.nodes, List.length_cons]
    rw [linesL_length cs (pre + 2)]
theorem linesL_length : ∀ (cs : List (PTree T V)) (pre : Nat), (linesL cs pre).length = (nodesL cs).length
  | [], _ => rfl
  | c :: cs, pre => by
    simp only [linesL, nodesL, List.length_append]
    rw [lines_length c pre, linesL_length cs pre]
end

/-- C80: there are as many lines as nodes. -/
theorem C80_lines (t : PTree T V) : (t.lines 0).length = t.nodes.length := lines_length t 0

theorem linkText_eq {L : Type} (showLink : L → String) (l : Option L) : linkText showLink l = (l.map showLink).getD "" := by
  cases l <;> rfl
theorem leaf_text (a b c d : String) : s!"Leaf(count={a}, value_bytes={b}, sealed={c}, link={d})" = "Leaf" ++ "(" ++ fieldsText [("count",a),("value_bytes",b),("sealed",c),("link",d)] ++ ")" := by
    simp only [fieldsText, toString]
    apply String.toList_inj.mp
    simp
theorem branch_text (a b c d e f : String) : s!"Branch(count={a}, key_bytes={b}, value_bytes={c}, sealed={d}, link={e}, children={f})" =
   "Branch" ++ "(" ++ fieldsText [("count",a),("key_bytes",b),("value_bytes",c),("sealed",d),("link",e),("children",f)] ++ ")" := by
    simp only [fieldsText, toString]
    apply String.toList_inj.mp
    simp
theorem purgedBranch_text (a b c d : String) : s!"PurgedBranch(count={a}, key_bytes={b}, value_bytes={c}, sealed={d})" =
   "PurgedBranch" ++ "(" ++ fieldsText [("count",a),("key_bytes",b),("value_bytes",c),("sealed",d)] ++ ")" := by
    simp only [fieldsText, toString]
    apply String.toList_inj.mp
    simp
theorem purgedLeaf_text (a b c : String) : s!"PurgedLeaf(count={a}, key_bytes={b}, sealed={c})" =
   "PurgedLeaf" ++ "(" ++ fieldsText [("count",a),("key_bytes",b),("sealed",c)] ++ ")" := by
    simp only [fieldsText, toString]
    apply String.toList_inj.mp
    simp
/-- C80: the text of a line is the name of the kind of node, followed by the fields in parentheses. -/
theorem C80_text {L : Type} (showLink : L → String) (l : NodeLine L) :
    l.text showLink = (l.fields showLink).1 ++ "(" ++ fieldsText (l.fields showLink).2 ++ ")" := by
  cases l with
  | leaf count vb sl link => 
    have h := leaf_text (toString count) (toString vb) (toString sl) (linkText showLink link)
    rw [linkText_eq] at h
    unfold NodeLine.text NodeLine.fields
    simp only
    rw [linkText_eq]
    exact h
  | branch count kb vb sl link ch => 
    have h := branch_text (toString count) (toString kb) (toString vb) (toString sl) (linkText showLink link) (toString ch)
    rw [linkText_eq] at h
    unfold NodeLine.text NodeLine.fields
    simp only
    rw [linkText_eq]
    exact h
  | purgedBranch count kb vb sl =>
    unfold NodeLine.text NodeLine.fields
    exact purgedBranch_text (toString count) (toString kb) (toString vb) (toString sl)
  | purgedLeaf count vb sl =>
    unfold NodeLine.text NodeLine.fields
    exact purgedLeaf_text (toString count) (toString vb) (toString sl)

/-- C80: nothing is shown for the empty tree. -/
theorem C80_empty (hn : s.root = none) : Yields Tree.dump (snapshot cx s) s [] := by
  intro fuel _
  unfold Tree.dump snapshot
  rw [hn]
  exact ⟨s, rfl⟩

theorem foldl_count {α : Type} (l : List α) (n : Nat) : l.foldl (fun acc _ => acc + 1) n = n + l.length := by
  induction l generalizing n with
  | nil => rfl
  | cons a l ih => rw [List.foldl_cons, ih, List.length_cons]; omega

theorem find_numbered (ds : List NodeDescriptor) (k a : Nat) (hk : k ≤ a) :
    ((List.range' k ds.length).zip ds).find? (·.1 == a) = (ds[a - k]?).map fun d => (a, d) := by
  induction ds generalizing k with
  | nil => simp
  | cons d ds ih =>
    simp only [List.length_cons, List.range'_succ, List.zip_cons_cons, List.find?_cons]
    by_cases h : k = a
    · subst h
      simp
    · rw [show ((k, d).1 == a) = false by simpa using h]
      simp only
      rw [ih (k + 1) (by omega), show a - k = a - (k + 1) + 1 by omega]
      simp

theorem graphEnds_spec (ds : List NodeDescriptor) (edges : List (Nat × Nat)) (h : ∀ a b, (a, b) ∈ edges → a < ds.length ∧ b < ds.length) :
    ∃ ends, graphEnds ((List.range' 0 ds.length).zip ds) edges = .ok ends ∧ ends.length = edges.length ∧
      ∀ (n a b : Nat), edges[n]? = some (a, b) → ∃ x y, ds[a]? = some x ∧ ds[b]? = some y ∧ ends[n]? = some (x, y) := by
  induction edges with
  | nil => exact ⟨[], rfl, rfl, fun n a b h => by simp at h⟩
  | cons e edges ih =>
    obtain ⟨a, b⟩ := e
    obtain ⟨ends, h1, h2, h3⟩ := ih fun a b hab => h a b (List.mem_cons_of_mem _ hab)
    obtain ⟨ha, hb⟩ := h a b (by simp)
    refine ⟨(ds[a], ds[b]) :: ends, ?_, by simp [h2], ?_⟩
    · unfold graphEnds
      rw [find_numbered ds 0 a (Nat.zero_le _), find_numbered ds 0 b (Nat.zero_le _)]
      simp only [Nat.sub_zero]
      rw [List.getElem?_eq_getElem ha, List.getElem?_eq_getElem hb]
      simp only [Option.map_some]
      rw [h1]
    · intro n a' b' hn
      cases n with
      | zero =>
        simp only [List.getElem?_cons_zero, Option.some.injEq, Prod.mk.injEq] at hn
        obtain ⟨rfl, rfl⟩ := hn
        exact ⟨ds[a], ds[b], List.getElem?_eq_getElem ha, List.getElem?_eq_getElem hb, rfl⟩
      | succ n =>
        rw [List.getElem?_cons_succ] at hn
        obtain ⟨x, y, h4, h5, h6⟩ := h3 n a' b' hn
        exact ⟨x, y, h4, h5, by rw [List.getElem?_cons_succ]; exact h6⟩

/-- C80: the graph handed to the renderer has a node for each node of the tree, with the right labels, and an edge for each child; looking
up the ends of the edges does not panic. -/
theorem C80_graph (ok : cx.Ok) (hr : Reach cx s) (hs : Small E s) (ht : Shows cx s t) :
    ∃ nodes ends, Yields Tree.graph (snapshot cx s) s (nodes, ends) ∧ nodes.length = t.nodes.length ∧
      (∀ (n : Nat) x d, t.nodes[n]? = some x → nodes[n]? = some d → Describes n x d) ∧
      ∃ edges : List (Nat × Nat), (∀ a b, (a, b) ∈ edges ↔ Edge t a b) ∧ ends.length = edges.length ∧
        ∀ (n a b : Nat), edges[n]? = some (a, b) → ∃ x y, nodes[a]? = some x ∧ nodes[b]? = some y ∧ ends[n]? = some (x, y) := by
  have hi := ht.inv ok hr hs
  have hcnt := (hi.holds.snap.wf t rfl).counts
  obtain ⟨edges, nodes, h1, h2, h3, h4, h5, h6⟩ := C42_dump ok hr hs ht
  have hlen : nodes.length = t.nodes.length := by
    have := congrArg List.length h2
    simpa using this
  have hds : nodes.map (fun x => (x.1, nodeDescriptor x)) =
      (List.range' 0 (nodes.map nodeDescriptor).length).zip (nodes.map nodeDescriptor) := by
    rw [List.length_map, hlen, ← List.range_eq_range', ← h2, List.zip_map_left, List.zip_map_right]
    clear h1 h2 h3 hlen
    induction nodes with
    | nil => rfl
    | cons x nodes ih => simp only [List.map_cons, List.zip_cons_cons]; rw [ih]; rfl
  obtain ⟨ends, h7, h8, h9⟩ := graphEnds_spec (nodes.map nodeDescriptor) edges (by
    intro a b hab
    have hb : b ∈ edges.map Prod.snd := List.mem_map.mpr ⟨(a, b), hab, rfl⟩
    rw [h5, List.mem_range'_1] at hb
    have := h6 a b hab
    rw [List.length_map, hlen]
    omega)
  refine ⟨nodes.map nodeDescriptor, ends, ?_, by rw [List.length_map, hlen], ?_, edges, h4, h8, h9⟩
  · intro fuel hf
    obtain ⟨s1, hy⟩ := h1 fuel hf
    refine ⟨s1, ?_⟩
    unfold Tree.graph
    rw [bind_apply, hy]
    simp only
    rw [hds, h7]
    show EStateM.Result.ok _ _ = _
    rw [← hds, List.map_map]
    rfl
  · intro n x d hx hd
    rw [List.getElem?_map, Option.map_eq_some_iff] at hd
    obtain ⟨y, hy, rfl⟩ := hd
    have hn : y.1 = n := by
      have h10 : (nodes.map Prod.fst)[n]? = some y.1 := by rw [List.getElem?_map, hy]; rfl
      rw [h2] at h10
      obtain ⟨_, h11⟩ := List.getElem?_eq_some_iff.mp h10
      rw [List.getElem_range] at h11
      exact h11.symm
    have hix : y.2 = x.index := by
      have h10 : (nodes.map Prod.snd)[n]? = some y.2 := by rw [List.getElem?_map, hy]; rfl
      rw [h3, List.getElem?_map, hx] at h10
      injection h10 with h10
      exact h10.symm
    have hxm : x ∈ t.nodes := List.mem_of_getElem? hx
    have hc := content_length ok.types (t := x) (fun m hm => hcnt m (nodes_trans hxm hm))
    unfold nodeDescriptor
    rw [hix, hn]
    cases hxi : x.index with
    | branch i => exact ⟨rfl, i, hxi, rfl, rfl⟩
    | leaf i =>
      refine ⟨rfl, ?_, i, hxi, rfl, rfl⟩
      rw [hc, hxi, foldl_count, Nat.zero_add]
      exact CompactSeq.length_toVec ok.types.keys i.keys

/-- C15: the dumps of a snapshot are the same as before, whatever happens after it has been taken. -/
theorem C15_dumps (ok : cx.Ok) (hr : Reach cx s) (hs : Small E s) (hl : Later cx.sec s s') :
    SameResult Tree.dump (snapshot cx s) s s' ∧ (s.root ≠ none → SameResult Tree.graph (snapshot cx s) s s') := by
  obtain ⟨t, hi⟩ := ok.inv hr hs
  cases t with
  | none =>
    have hn : s.root = none := hi.holds.root
    refine ⟨⟨[], C80_empty hn, fun fuel _ => ⟨s', ?_⟩⟩, fun h => absurd hn h⟩
    unfold Tree.dump snapshot
    rw [hn]
    rfl
  | some t =>
    have key : ∀ {x : St E}, Snap cx s (some t) x → Yields Tree.dump (snapshot cx s) x (t.lines 0) := by
      intro x hsn fuel hf
      rw [snapshot_level] at hf
      unfold Tree.dump snapshot
      have hroot := hsn.root
      rw [hsn.level] at hf
      rw [hroot]
      obtain ⟨γ, _, h2⟩ := dump0_reads ok.env ok.types fuel 0 t x (hsn.stored t rfl).outlined (hsn.wf t rfl).counts hsn.coherent hf
      exact ⟨_, h2⟩
    refine ⟨⟨_, key hi.holds.snap, key (hi.holds.later ok.env hl)⟩, fun hn => ?_⟩
    obtain ⟨a, h1, h2⟩ := (C15_reads ok hr hs hl).2.2.2.2.2 hn
    obtain ⟨nodes, ends, h3, _⟩ := C80_graph ok hr hs hi.holds.shows
    refine ⟨_, h3, fun fuel hf => ?_⟩
    obtain ⟨s1, g1⟩ := (h1 : Yields Tree.dumpGraph (snapshot cx s) s a) fuel hf
    obtain ⟨s2, g2⟩ := h2 fuel hf
    obtain ⟨s3, g3⟩ := h3 fuel hf
    refine ⟨s2, ?_⟩
    have e : ∀ {x y z : St E} {b}, Tree.dumpGraph fuel (snapshot cx s) x = .ok b y → ∀ {c}, Tree.graph fuel (snapshot cx s) x = .ok c z →
        ∃ ends, graphEnds (b.2.map fun x => (x.1, nodeDescriptor x)) b.1 = .ok ends ∧ c = ((b.2.map fun x => (x.1, nodeDescriptor x)).map Prod.snd, ends) := by
      intro x y z b hb c hc
      unfold Tree.graph at hc
      rw [bind_apply, hb] at hc
      simp only at hc
      cases hg : graphEnds (b.2.map fun x => (x.1, nodeDescriptor x)) b.1 with
      | ok ends => rw [hg] at hc; cases hc; exact ⟨ends, rfl, rfl⟩
      | error m => rw [hg] at hc; cases hc
    obtain ⟨ends', k1, k2⟩ := e g1 g3
    unfold Tree.graph
    rw [bind_apply, g2]
    simp only
    rw [k1, k2]
    rfl

theorem toString_inj {a b : Nat} (h : toString a = toString b) : a = b := by
  have h1 : Nat.toDigits 10 a = Nat.toDigits 10 b := by simpa using congrArg String.toList h
  simpa [Nat.ofDigitChars_ten_toDigits] using congrArg (fun l => Nat.ofDigitChars 10 l 0) h1

/-- C80: the nodes are drawn as they should be, and different nodes have different names, so that no edge of the drawing is between other
nodes than those of the tree. -/
theorem C80_drawn (ok : cx.Ok) (hr : Reach cx s) (hs : Small E s) (ht : Shows cx s t) :
    ∃ nodes ends, Yields Tree.graph (snapshot cx s) s (nodes, ends) ∧ nodes.length = t.nodes.length ∧
      (∀ (n : Nat) x d, t.nodes[n]? = some x → nodes[n]? = some d → DrawnAs n x d.dot) ∧
      (nodes.map fun d => d.dot.id).Nodup := by
  obtain ⟨nodes, ends, h1, h2, h3, -⟩ := C80_graph ok hr hs ht
  have hd : ∀ (n : Nat) x d, t.nodes[n]? = some x → nodes[n]? = some d → DrawnAs n x d.dot := by
    intro n x d hx hd
    have h := h3 n x d hx hd
    cases d with
    | branch level id sl =>
      obtain ⟨rfl, i, hi, -, hs⟩ := h
      subst hs
      refine ⟨rfl, fun j hj => (by rw [hi] at hj; cases hj), fun _ _ => ⟨rfl, rfl⟩, fun h => ?_, fun h => ?_⟩ <;>
        · rw [hi] at h
          have h' : i.isSealed = _ := h
          unfold NodeDescriptor.dot NodeDescriptor.color
          simp only [h']
          exact ⟨rfl, rfl⟩
    | leaf id items bytes sl =>
      obtain ⟨rfl, hn, i, hi, -, hs⟩ := h
      subst hs
      refine ⟨rfl, fun _ _ => ⟨rfl, by rw [← hn]; rfl⟩, fun j hj => (by rw [hi] at hj; cases hj), fun h => ?_, fun h => ?_⟩ <;>
        · rw [hi] at h
          have h' : i.isSealed = _ := h
          unfold NodeDescriptor.dot NodeDescriptor.color
          simp only [h']
          exact ⟨rfl, rfl⟩
  refine ⟨nodes, ends, h1, h2, hd, ?_⟩
  unfold List.Nodup
  rw [List.pairwise_iff_getElem]
  intro i j hi hj hij heq
  rw [List.length_map] at hj
  have hj' : j < t.nodes.length := h2 ▸ hj
  have ei := hd i _ _ (List.getElem?_eq_getElem (Nat.lt_trans hij hj')) (List.getElem?_eq_getElem (Nat.lt_trans hij hj))
  have ej := hd j _ _ (List.getElem?_eq_getElem hj') (List.getElem?_eq_getElem hj)
  rw [List.getElem_map, List.getElem_map] at heq
  have h4 : "N" ++ toString i = "N" ++ toString j := by rw [← ei.id, ← ej.id]; exact heq
  have h5 : i = j := by
    apply toString_inj
    have h6 := congrArg String.toList h4
    rw [String.toList_append, String.toList_append] at h6
    exact String.toList_inj.mp (List.append_cancel_left h6)
  omega

/-! ### examples -/

namespace Concrete

/-- Printers for the examples: the text of an item has one character for each byte. -/
def letters : Printers where
  Ipld := Bytes
  decIpld := env.item
  json := fun b => .ok (String.ofList (b.map fun x => Char.ofNat x.toNat))
  text := fun b => String.ofList (b.map fun x => Char.ofNat x.toNat)

/-- C79 is false for branches: the tool uses the key for values for each block (`cli.rs:381-388`). With different keys for the indexes and
for the values, nothing but an error is shown for the block of the root, although the block is intact and has two items. -/
theorem C79_refuted : ∃ (P : Printers) (l : Nat), Reach (ctx tiny) packed7 ∧ Small env packed7 ∧
    (packed7.root.bind Index.link : Option Nat) = some l ∧
    (dumpCbor env P packed7.store l (ctx tiny).sec.valueKey).1 = [] ∧
    (dumpCbor env P packed7.store l (ctx tiny).sec.valueKey).2.toOption.isSome = false ∧
    (dumpJson env P packed7.store l (ctx tiny).sec.valueKey).1 = [] ∧
    (dumpCbor env P packed7.store l (ctx tiny).sec.indexKey).1.length = 3 := by
  refine ⟨letters, (6 : Nat), packed7_reach, packed7_small, ?_, ?_, ?_, ?_, ?_⟩ <;> decide +kernel

/-- The text dump. -/
example : (valueOf (Tree.dump 20 (snapshot (ctx tiny) packed7)) packed7 : Option (List (Nat × NodeLine Nat))) =
    some [(0, .branch 7 96 25 false (some 6) 2), (2, .branch 4 29 14 true (some 2) 2), (4, .leaf 2 7 true (some 0)), (4, .leaf 2 7 true (some 1)),
      (2, .branch 3 28 11 false (some 5) 2), (4, .leaf 2 7 true (some 3)), (4, .leaf 1 4 false (some 4))] := by decide +kernel

/-- The graph. -/
example : ((valueOf (Tree.graph 20 (snapshot (ctx tiny) packed7)) packed7).map fun x => (x.1, x.2.length)) =
    some ([.branch 2 0 false, .branch 1 1 true, .leaf 2 2 7 true, .leaf 3 2 7 true, .branch 1 4 false, .leaf 5 2 7 true, .leaf 6 1 4 false], 6) := by
  decide +kernel

/-- The same graph as it is drawn. -/
example : ((valueOf (Tree.graph 20 (snapshot (ctx tiny) packed7)) packed7).map fun x => (x.1.drop 4).map NodeDescriptor.dot) =
    some [⟨"N4", "4", "box", none, false⟩, ⟨"N5", "2", "circle", some "grey", true⟩, ⟨"N6", "1", "circle", none, false⟩] := by
  decide +kernel

/-- The text of a line. -/
example : (NodeLine.branch 4 29 14 true (some 2) 2).text (fun l : Nat => s!"link{l}") =
    "Branch(count=4, key_bytes=29, value_bytes=14, sealed=true, link=link2, children=2)" := by decide +kernel

/-- The dump of the first leaf: the header and two values. -/
example : (dumpCbor env letters packed7.store (0 : Nat) (ctx tiny).sec.valueKey).1 = ["ZstdDagCborSeq", "\x02\x00\x00", "\x02\x00\x0a"] := by
  decide +kernel

/-- Each value of the example is printed by `dump_json`. -/
theorem letters_prints (v : Nat) : PrintsAs letters (env.encV v) (letters.text (env.encV v)) :=
  ⟨env.encV v, fun r => (isItem_encV env_lawful v).2 r, rfl⟩

/-- The values of a leaf. -/
def leafValues : PTree types Nat → List Nat
  | .leaf _ vs => vs
  | _ => []

/-- C79_leaf: a leaf of the example has two values, they are shown. -/
example : ∃ l, dumpJson env letters packed7.store l (ctx tiny).sec.valueKey =
    (["ZstdDagCborSeq", letters.text (env.encV 20), letters.text (env.encV 30)], .ok ()) := by
  have h1 : (match loaded tiny packed7 with | some t => t.nodes.any fun n => decide (leafValues n = [20, 30]) | none => false) = true := by
    decide +kernel
  cases ht : loaded tiny packed7 with
  | none => rw [ht] at h1; cases h1
  | some t =>
    rw [ht] at h1
    obtain ⟨x, hx, hv⟩ := List.any_eq_true.mp h1
    have hv := of_decide_eq_true hv
    have st := shows_of_loaded tiny_ok packed7_reach packed7_small ht
    cases x with
    | leaf i vs =>
      have hv : vs = [20, 30] := hv
      subst hv
      obtain ⟨l, _, _, h3⟩ := C79_leaf_partial tiny_ok packed7_reach packed7_small st hx letters
      exact ⟨l, h3 letters.text fun v _ => letters_prints v⟩
    | branch i cs => cases hv
    | purgedLeaf i => cases hv
    | purgedBranch i => cases hv

/-- C79_foreign: a block with one item that is not a block of the library. -/
example : (env.decNode [1, 7]).toOption = none ∧ (env.item [1, 7]).toOption = some ([1, 7], []) := by decide +kernel

end Concrete

end Banyan
