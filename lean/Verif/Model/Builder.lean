import Verif.Model.Write
import Verif.Model.Iter
import Verif.Model.IndexIter
/-
The public operations: `banyan/src/tree.rs`, `banyan/src/stream_builder.rs`.

The builder consists of `root` and `offset` of the state `St` and of the read only context `Ctx`. The `fuel` argument
bounds the recursion depth.
-/
namespace Banyan

variable {T : TreeTypes} {V : Type} {E : Env T V}

/-- `set_index`, `stream_builder.rs:201-203`. -/
def setIndex (index : Option (Index T)) : M E Unit := fun s => .ok () { s with root := index }

/-- `as_index_ref` / `index`, `stream_builder.rs:151`, `174`. -/
def getIndex : M E (Option (Index T)) := fun s => .ok s.root s

/-- The inner value of `struct Tree`, `tree.rs:17-18`; `none` is the empty tree. -/
abbrev Tree (E : Env T V) := Option (Index T × Secrets E × Nat)

/-- `StreamBuilder::snapshot`, `stream_builder.rs:135-145`. -/
def snapshot (cx : Ctx E) (s : St E) : Tree E := s.root.map fun r => (r, cx.sec, s.offset)

/-- `count` of an optional root, `tree.rs:47-52`, `stream_builder.rs:164-166`. -/
def rootCount (root : Option (Index T)) : Nat :=
  match root with
  | some r => r.count
  | none => 0

/-- The level of an optional root. -/
def rootLevel (root : Option (Index T)) : Nat :=
  match root with
  | some r => r.level
  | none => 0

/-- `link` of an optional root, `tree.rs:32-34`, `stream_builder.rs:147-149`. -/
def rootLink (root : Option (Index T)) : Option T.Link := root.bind Index.link

/-- `get`, `tree.rs:478-487`. -/
def Tree.get (fuel : Nat) (t : Tree E) (offset : Nat) : M E (Option (T.Key × V)) :=
  match t with
  | some (index, sec, _) => get0 sec fuel index offset
  | none => pure none

/-- `collect_from`, `tree.rs:497-507`. -/
def Tree.collectFrom (fuel : Nat) (t : Tree E) (offset : Nat) : M E (List (Option (T.Key × V))) :=
  match t with
  | some (index, sec, _) => collect0 sec fuel index offset []
  | none => pure []

/-- `collect`, `tree.rs:491-493`. -/
def Tree.collect (fuel : Nat) (t : Tree E) : M E (List (Option (T.Key × V))) := t.collectFrom fuel 0

/-- `is_packed`, `tree.rs:292-298`. -/
def Tree.isPacked (fuel : Nat) (t : Tree E) : M E Bool :=
  match t with
  | some (index, sec, _) => isPacked0 sec fuel index
  | none => pure true

/-- `iter_filtered_chunked` and `iter_filtered_chunked_reverse`, `tree.rs:386-422` (the streams of `tree.rs:424-470`
yield the same): all that is delivered to a consumer making up to `n` calls of `next`. -/
def Tree.chunks {X : Type} (query : Query T) (mode : Mode) (mkExtra : Index T → X) (between : Nat → St E → St E) (n fuel : Nat)
    (t : Tree E) : M E (List (Except String (Chunk T V X))) :=
  match t with
  | some (index, sec, _) => chunkedTake sec query mode mkExtra fuel between n index
  | none => pure []

/-- `iter_filtered`, `iter_filtered_reverse` and `iter_from`, `tree.rs:355-384`: the elements out of the first `n` chunks. Also `stream_filtered`,
`tree.rs:312-323` and `read.rs:560-594`, which is the same iteration as a stream. -/
def Tree.elements (query : Query T) (mode : Mode) (between : Nat → St E → St E) (n fuel : Nat) (t : Tree E) :
    M E (List (Except String (Nat × T.Key × V))) := do
  let l ← t.chunks query mode (fun _ => ()) between n fuel
  pure (flattenChunks l)

/-- `iter_index` and `iter_index_reverse`, `tree.rs:327-353`: up to `n` calls of `next`. -/
def Tree.indexes (query : Query T) (mode : Mode) (between : Nat → St E → St E) (n fuel : Nat) (t : Tree E) :
    M E (List (Except String (Index T))) :=
  match t with
  | some (index, sec, _) => indexTake sec query mode fuel between n (IterState.new mode index)
  | none => pure []

/-- `left_roots0`, `tree.rs:262-275`. `first_child` indexes `children[0]` (`index.rs:289-291`). -/
def leftRoots0 (sec : Secrets E) : Nat → Index T → M E (List (Index T))
  | 0, _ => throw .fuel
  | fuel + 1, index =>
    match index with
    | .branch b =>
      match b.link with
      | some link => do
        let branch ← loadBranchCached sec link
        match branch.children with
        | [] => throw (.panic "index out of bounds")
        | first :: _ => do
          let result ← leftRoots0 sec fuel first
          pure (result ++ [index])
      | none => pure [index]
    | .leaf _ => pure [index]

/-- `left_roots`, `tree.rs:250-259`. The offset `u64::max_value()` of the results is never used. -/
def Tree.leftRoots (fuel : Nat) (t : Tree E) : M E (List (Tree E)) :=
  match t with
  | some (index, sec, _) => do
    let l ← leftRoots0 sec fuel index
    pure (l.map fun x => some (x, sec, 2 ^ 64 - 1))
  | none => pure []

/-- The loop over the children in `dump_graph0`, `tree.rs:229-235`. -/
def dumpGraphLoop (rec : Nat → Index T → M E (List (Nat × Nat) × List (Nat × Index T))) :
    List (Index T) → Nat → List (Nat × Nat) → List (Nat × Index T) →
      M E (List (Nat × Nat) × List (Nat × Index T))
  | [], _, edges, nodes => pure (edges, nodes)
  | x :: rest, cur, edges, nodes => do
    let (e, n) ← rec (cur + 1) x
    dumpGraphLoop rec rest (cur + n.length) (edges ++ e) (nodes ++ n)

/-- `dump_graph0`, `tree.rs:210-239`, with `f = |(id, info)| info.index`. The node map is a list of (id, node) in
insertion order. -/
def dumpGraph0 (sec : Secrets E) : Nat → Option Nat → Nat → Index T →
    M E (List (Nat × Nat) × List (Nat × Index T))
  | 0, _, _, _ => throw .fuel
  | fuel + 1, parent, nextId, index =>
    let edges := match parent with
      | some p => [(p, nextId)]
      | none => []
    let nodes := [(nextId, index)]
    match index with
    | .leaf _ => pure (edges, nodes)
    | .branch b =>
      match b.link with
      | none => pure (edges, nodes)
      | some link => do
        let branch ← loadBranchCached sec link
        dumpGraphLoop (dumpGraph0 sec fuel (some nextId)) branch.children nextId edges nodes

/-- `dump_graph`, `tree.rs:139-148`. -/
def Tree.dumpGraph (fuel : Nat) (t : Tree E) : M E (List (Nat × Nat) × List (Nat × Index T)) :=
  match t with
  | some (index, sec, _) => dumpGraph0 sec fuel none 0 index
  | none => throw (.fail "Tree must not be empty")

/-- `roots`, `tree.rs:242-247`. -/
def roots (cx : Ctx E) (fuel : Nat) : M E (List (Index T)) := do
  match ← getIndex with
  | some index => rootsImpl cx.sec fuel index
  | none => pure []

/-- `check_invariants`, `tree.rs:277-290`. -/
def checkInvariants (cx : Ctx E) (fuel : Nat) : M E (List InvMsg) := do
  match ← getIndex with
  | some root => do
    let (_, msgs) ← checkInvariants0 cx.sec cx.cfg fuel root i32max []
    pure msgs
  | none => pure []

/-- `assert_invariants`, `tree.rs:300-310`; the text of the panic lists the messages. -/
def assertInvariants (cx : Ctx E) (fuel : Nat) : M E Unit := do
  let msgs ← checkInvariants cx fuel
  if !msgs.isEmpty then throw (.panic "assert_invariants failed")
  pure ()

/-- `load_tree`, `tree.rs:123-128`. -/
def loadTree (sec : Secrets E) (link : T.Link) : M E (Tree E) := fun s =>
  match createIndexFromLink E sec (fun _ _ => true) s.store link with
  | .ok (index, range) => .ok (some (index, sec, range.2)) s
  | .error e => .error e s

/-- `load_stream_builder`, `tree.rs:108-121`: the result replaces root and offset of the state. -/
def loadStreamBuilder (cx : Ctx E) (link : T.Link) : M E Unit := fun s =>
  match createIndexFromLink E cx.sec (fun items level => cx.cfg.branchSealed items level) s.store link with
  | .ok (index, range) => .ok () { s with root := some index, offset := range.2 }
  | .error e => .error e s

/-- The `while` loop of `tree_from_roots`, `tree.rs:518-520`; the first argument bounds the number of iterations. -/
def treeFromRootsLoop (cx : Ctx E) : Nat → List (Index T) → M E (List (Index T))
  | fuel, roots =>
    if roots.length > 1 then
      match fuel with
      | 0 => throw .fuel
      | fuel + 1 => do
        let roots ← simplifyRoots cx (roots.length + 1) roots 0
        treeFromRootsLoop cx fuel roots
    else pure roots

/-- `tree_from_roots`, `tree.rs:511-523`. Every iteration either removes a root or turns a leaf into a branch, so twice
the number of roots suffices. -/
def treeFromRoots (cx : Ctx E) (roots : List (Index T)) : M E Unit := do
  M.assert (roots.all Index.isSealed) "assertion failed: roots.iter().all(|x| x.sealed())"
  M.assert (isSorted (roots.map Index.level).reverse) "assertion failed: is_sorted(..)"
  let roots ← treeFromRootsLoop cx (2 * roots.length) roots
  setIndex roots.getLast?

/-- `extend`, `tree.rs:558-577`. -/
def extend (cx : Ctx E) (fuel : Nat) (from_ : List (T.Key × V)) : M E Unit := do
  if from_.isEmpty then pure ()
  else
    let index ← getIndex
    let (index, _) ← extendAbove cx fuel index u32max from_
    setIndex (some index)

/-- `push`, `tree.rs:546-553`. -/
def push (cx : Ctx E) (fuel : Nat) (key : T.Key) (value : V) : M E Unit := extend cx fuel [(key, value)]

/-- `extend_unpacked`, `tree.rs:589-599`. -/
def extendUnpacked (cx : Ctx E) (fuel : Nat) (from_ : List (T.Key × V)) : M E Unit := do
  let index ← getIndex
  let index ← extendUnpacked0 cx fuel index from_
  setIndex index

/-- `.into_iter().collect::<Option<Vec<_>>>()`, `tree.rs:538-539`. -/
def sequenceOpt {α : Type} : List (Option α) → Option (List α)
  | [] => some []
  | none :: _ => none
  | some a :: rest =>
    match sequenceOpt rest with
    | some l => some (a :: l)
    | none => none

/-- `pack`, `tree.rs:532-543`. The recursion bound of `extend` is raised by the level of the intermediate root. -/
def pack (cx : Ctx E) (fuel : Nat) : M E Unit := do
  let initial ← (fun s => .ok (snapshot cx s) s : M E (Tree E))
  let rs ← roots cx fuel
  treeFromRoots cx rs
  let root ← getIndex
  let items ← Tree.collectFrom fuel initial (rootCount root)
  match sequenceOpt items with
  | none => throw (.fail "found purged data")
  | some remainder => extend cx (fuel + rootLevel root) remainder

/-- `retain`, `tree.rs:611-623`. -/
def retain (cx : Ctx E) (fuel : Nat) (query : Query T) : M E Unit := do
  match ← getIndex with
  | some index => do
    let (index, _) ← retain0 cx query fuel 0 index i32max
    setIndex (some index)
  | none => pure ()

/-- `repair`, `tree.rs:632-641`. -/
def repair (cx : Ctx E) (fuel : Nat) : M E (List (RepairMsg T)) := do
  match ← getIndex with
  | some index => do
    let (index, report, _) ← repair0 cx fuel index [] i32max
    setIndex (some index)
    pure report
  | none => pure []

/-- `StreamTransaction`, `stream_builder.rs:183-246`: run `body` on the builder; if `body` ends with `true` commit,
otherwise (dropped without commit, early return of an error, panic) restore the root. -/
def transaction (body : M E Bool) : M E Unit := fun s =>
  match body s with
  | .ok true s' => .ok () s'
  | .ok false s' => .ok () { s' with root := s.root }
  | .error e s' => .error e { s' with root := s.root }

end Banyan
