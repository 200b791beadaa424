import Verif.Model.Builder
/-
Dumps for people: `dump` in `banyan/src/tree.rs` with `dump0` in `banyan/src/forest/read.rs` and the `Display` of nodes in
`banyan/src/index.rs`; `banyan-utils/src/dump.rs`.

What is printed is returned. If there is an error half way, the lines printed before it are returned for blocks (`Printed`); for trees only
the error is returned (simplification).
-/
set_option autoImplicit false
namespace Banyan

variable {T : TreeTypes} {V : Type} {E : Env T V}

/-! ### trees -/

/-- The line for a node, without the indentation: the parts of the texts in `index.rs:379-428` and `read.rs:642-653`. -/
inductive NodeLine (L : Type) where
  | leaf (count valueBytes : Nat) (isSealed : Bool) (link : Option L)
  | branch (count keyBytes valueBytes : Nat) (isSealed : Bool) (link : Option L) (children : Nat)
  | purgedBranch (count keyBytes valueBytes : Nat) (isSealed : Bool)
  /-- the number of value bytes is printed with the label `key_bytes` -/
  | purgedLeaf (count valueBytes : Nat) (isSealed : Bool)
deriving DecidableEq, Repr

/-- `Option<Link>` as text. -/
def linkText {L : Type} (showLink : L → String) (l : Option L) : String :=
  match l with
  | some l => showLink l
  | none => ""

/-- The text of a line, `index.rs:379-428`, `read.rs:643-653`. -/
def NodeLine.text {L : Type} (showLink : L → String) : NodeLine L → String
  | .leaf count vb sealed link => s!"Leaf(count={count}, value_bytes={vb}, sealed={sealed}, link={linkText showLink link})"
  | .branch count kb vb sealed link children =>
    s!"Branch(count={count}, key_bytes={kb}, value_bytes={vb}, sealed={sealed}, link={linkText showLink link}, children={children})"
  | .purgedBranch count kb vb sealed => s!"PurgedBranch(count={count}, key_bytes={kb}, value_bytes={vb}, sealed={sealed})"
  | .purgedLeaf count vb sealed => s!"PurgedLeaf(count={count}, key_bytes={vb}, sealed={sealed})"

/-- The loop over the children in `dump0`, `read.rs:656-658`. -/
def dumpLoop (rec : Index T → M E (List (Nat × NodeLine T.Link))) : List (Index T) → M E (List (Nat × NodeLine T.Link))
  | [] => pure []
  | x :: rest => do
    let a ← rec x
    let b ← dumpLoop rec rest
    pure (a ++ b)

/-- `dump0`, `read.rs:638-663`: the lines with the lengths of the prefixes, which consist of blanks. -/
def dump0 (sec : Secrets E) : Nat → Nat → Index T → M E (List (Nat × NodeLine T.Link))
  | 0, _, _ => throw .fuel
  | fuel + 1, pre, index =>
    match index with
    | .branch b =>
      match b.link with
      | some link => do
        let branch ← loadBranchCached sec link
        let lines ← dumpLoop (dump0 sec fuel (pre + 2)) branch.children
        pure ((pre, .branch b.count b.keyBytes b.valueBytes b.isSealed b.link branch.children.length) :: lines)
      | none => pure [(pre, .purgedBranch b.count b.keyBytes b.valueBytes b.isSealed)]
    | .leaf l =>
      match l.link with
      | some _ => pure [(pre, .leaf (T.keys.len l.keys) l.valueBytes l.isSealed l.link)]
      | none => pure [(pre, .purgedLeaf (T.keys.len l.keys) l.valueBytes l.isSealed)]

/-- `dump`, `tree.rs:131-136`. -/
def Tree.dump (fuel : Nat) (t : Tree E) : M E (List (Nat × NodeLine T.Link)) :=
  match t with
  | some (index, sec, _) => dump0 sec fuel 0 index
  | none => pure []

/-! ### graphs -/

/-- `enum NodeDescriptor`, `banyan-utils/src/dump.rs:18-31`. -/
inductive NodeDescriptor where
  | branch (level id : Nat) (isSealed : Bool)
  | leaf (id items bytes : Nat) (isSealed : Bool)
deriving DecidableEq, Repr

/-- The closure in `graph`, `dump.rs:113-129`. -/
def nodeDescriptor (x : Nat × Index T) : NodeDescriptor :=
  match x.2 with
  | .branch idx => .branch idx.level x.1 idx.isSealed
  | .leaf idx => .leaf x.1 ((T.keys.toVec idx.keys).foldl (fun acc _ => acc + 1) 0) idx.valueBytes idx.isSealed

/-- `source` and `target`, `dump.rs:94-100`: a number without a node is a panic. -/
def graphEnds (nodes : List (Nat × NodeDescriptor)) : List (Nat × Nat) → Except Err (List (NodeDescriptor × NodeDescriptor))
  | [] => .ok []
  | (a, b) :: rest =>
    match (nodes.find? (·.1 == a)), (nodes.find? (·.1 == b)) with
    | some x, some y =>
      match graphEnds nodes rest with
      | .ok r => .ok ((x.2, y.2) :: r)
      | .error e => .error e
    | _, _ => .error (.panic "no entry found for key")

/-- `node_label`, `dump.rs:46-52`. -/
def NodeDescriptor.label : NodeDescriptor → String
  | .branch _ id _ => toString id
  | .leaf _ items _ _ => toString items

/-- `node_id`, `dump.rs:38-44`. -/
def NodeDescriptor.nodeId : NodeDescriptor → String
  | .branch _ id _ => s!"N{id}"
  | .leaf id _ _ _ => s!"N{id}"

/-- `node_shape`, `dump.rs:54-60`. -/
def NodeDescriptor.shape : NodeDescriptor → String
  | .branch _ _ _ => "box"
  | .leaf _ _ _ _ => "circle"

/-- `node_color` and `node_style`, `dump.rs:62-84`: the colour, and whether the node is filled. -/
def NodeDescriptor.color : NodeDescriptor → Option String × Bool
  | .branch _ _ isSealed => if isSealed then (some "grey", true) else (none, false)
  | .leaf _ _ _ isSealed => if isSealed then (some "grey", true) else (none, false)

/-- What the renderer (foreign code) gets to know about a node. -/
structure DotNode where
  id : String
  label : String
  shape : String
  color : Option String
  filled : Bool
deriving DecidableEq, Repr

/-- The answers of the `Labeller`, `dump.rs:33-85`. -/
def NodeDescriptor.dot (d : NodeDescriptor) : DotNode := ⟨d.nodeId, d.label, d.shape, d.color.1, d.color.2⟩

/-- `graph`, `dump.rs:103-134`: what is handed to the renderer, nodes and the ends of the edges. -/
def Tree.graph (fuel : Nat) (t : Tree E) : M E (List NodeDescriptor × List (NodeDescriptor × NodeDescriptor)) := do
  let (edges, nodes) ← Tree.dumpGraph fuel t
  let nodes := nodes.map fun x => (x.1, nodeDescriptor x)
  let ends ← M.lift (graphEnds nodes edges)
  pure (nodes.map Prod.snd, ends)

/-! ### blocks -/

/-- What has been printed, and whether there was an error afterwards. -/
abbrev Printed := List String × Except Err Unit

section Blocks
variable (E)

/-- Foreign code: decoding of any CBOR item from a reader, its text as dag-json, and the text of a CBOR item (`Display` of `Cbor`). -/
structure Printers where
  Ipld : Type
  decIpld : Bytes → Except String (Ipld × Bytes)
  json : Ipld → Except String String
  text : Bytes → String

/-- `items::<CborOwned>`, the loop in `zstd_dag_cbor_seq.rs:325-329`: the items as they are. -/
def rawItemsLoop : Nat → Bytes → List Bytes → Except Err (List Bytes)
  | _, [], acc => .ok acc
  | 0, _ :: _, _ => .error .fuel
  | n + 1, b :: bs, acc =>
    match E.item (b :: bs) with
    | .error m => .error (.fail m)
    | .ok (cbor, rest) => rawItemsLoop n rest (acc ++ [cbor])

/-- `items::<CborOwned>`, `zstd_dag_cbor_seq.rs:322-333`. -/
def ZSeq.rawItems (z : ZSeq) : Except Err (List Bytes) :=
  match decompress E z.data with
  | .error e => .error e
  | .ok d => rawItemsLoop E d.length d []

/-- `items_ipld::<Ipld>`, the loop in `zstd_dag_cbor_seq.rs:341-343`. -/
def ipldLoop (P : Printers) : Nat → Bytes → List P.Ipld → Except Err (List P.Ipld)
  | _, [], acc => .ok acc
  | 0, _ :: _, _ => .error .fuel
  | n + 1, b :: bs, acc =>
    match P.decIpld (b :: bs) with
    | .error m => .error (.fail m)
    | .ok (i, rest) => ipldLoop P n rest (acc ++ [i])

/-- `items_ipld::<Ipld>`, `zstd_dag_cbor_seq.rs:336-347`. -/
def ZSeq.ipldItems (P : Printers) (z : ZSeq) : Except Err (List P.Ipld) :=
  match decompress E z.data with
  | .error e => .error e
  | .ok d => ipldLoop P d.length d []

/-- The loop in `dump_json`, `dump.rs:150-153`. -/
def printJson (P : Printers) : List P.Ipld → List String → Printed
  | [], out => (out, .ok ())
  | x :: rest, out =>
    match P.json x with
    | .error m => (out, .error (.fail m))
    | .ok t => printJson P rest (out ++ [t])

/-- `dump_json`, `dump.rs:138-162`. -/
def dumpJson (P : Printers) (s : E.σ) (hash : T.Link) (valueKey : E.CKey) : Printed :=
  match getBlock E s hash with
  | .error e => ([], .error e)
  | .ok bytes =>
    match decrypt E bytes valueKey with
    | .ok (dagCbor, _) =>
      match ZSeq.ipldItems E P dagCbor with
      | .error e => ([], .error e)
      | .ok ast => printJson P ast ["ZstdDagCborSeq"]
    | .error _ =>
      match P.decIpld bytes with
      | .error m => ([], .error (.fail m))
      | .ok (ipld, _) => printJson P [ipld] []

/-- `dump_cbor`, `dump.rs:166-188`. -/
def dumpCbor (P : Printers) (s : E.σ) (hash : T.Link) (valueKey : E.CKey) : Printed :=
  match getBlock E s hash with
  | .error e => ([], .error e)
  | .ok bytes =>
    match decrypt E bytes valueKey with
    | .ok (dagCbor, _) =>
      match ZSeq.rawItems E dagCbor with
      | .error e => ([], .error e)
      | .ok cs => ("ZstdDagCborSeq" :: cs.map P.text, .ok ())
    | .error _ =>
      match E.item bytes with
      | .error m => ([], .error (.fail m))
      | .ok (cbor, rest) => if rest.isEmpty then ([P.text cbor], .ok ()) else ([], .error (.fail "trailing garbage"))

end Blocks

end Banyan
