import Verif.Model.Prog
/-
The writing operations once more, as programs whose accesses to the store and to the branch cache are visible, so that the accesses of
other threads can happen in between. Each definition follows the one with the same name in Model/Seq.lean, Model/Write.lean,
Model/Read.lean or Model/Builder.lean line by line, and cites the same code; `Proofs/WProg.lean` proves that they are the same operations.
-/
set_option autoImplicit false
namespace Banyan

variable {T : TreeTypes} {V : Type} {E : Env T V} {α β : Type}

/-- A program of a builder: it returns, fails, loads a branch through the cache (`load_branch_cached_from_link`, `read.rs:409-423`) or from
the store (`load_branch_from_link`, `read.rs:381-407`), loads a leaf (`load_leaf_from_link`, `read.rs:373-379`), puts a block
(`put_block`, `write.rs:45-51`), reserves a range of the key stream (`stream_builder.rs:27-34`), or gets or sets the root of its builder
(`stream_builder.rs:151`, `201-203`). `log` is the ghost log of branches. An error of an access ends the program (`?`). -/
inductive WProg (T : TreeTypes) (α : Type) where
  | ret (a : α)
  | stop (e : Err)
  | branch (link : T.Link) (k : Branch T → WProg T α)
  | read (link : T.Link) (k : Branch T → WProg T α)
  | leaf (link : T.Link) (k : Leaf → WProg T α)
  | put (data : Bytes) (k : T.Link → WProg T α)
  | reserve (n : Nat) (k : Nat → WProg T α)
  | log (items : List (Index T)) (k : WProg T α)
  | getIndex (k : Option (Index T) → WProg T α)
  | setIndex (index : Option (Index T)) (k : WProg T α)

namespace WProg

def bind : WProg T α → (α → WProg T β) → WProg T β
  | .ret a, f => f a
  | .stop e, _ => .stop e
  | .branch l k, f => .branch l fun b => (k b).bind f
  | .read l k, f => .read l fun b => (k b).bind f
  | .leaf l k, f => .leaf l fun b => (k b).bind f
  | .put d k, f => .put d fun b => (k b).bind f
  | .reserve n k, f => .reserve n fun b => (k b).bind f
  | .log i k, f => .log i (k.bind f)
  | .getIndex k, f => .getIndex fun b => (k b).bind f
  | .setIndex i k, f => .setIndex i (k.bind f)

instance : Monad (WProg T) where
  pure := .ret
  bind := .bind

/-- The program without other threads. -/
def run (sec : Secrets E) : WProg T α → M E α
  | .ret a => pure a
  | .stop e => throw e
  | .branch l k => loadBranchCached sec l >>= fun b => (k b).run sec
  | .read l k => loadBranchM sec l >>= fun b => (k b).run sec
  | .leaf l k => loadLeafM sec l >>= fun b => (k b).run sec
  | .put d k => putBlock d >>= fun l => (k l).run sec
  | .reserve n k => Banyan.reserve n >>= fun o => (k o).run sec
  | .log i k => logBranch i >>= fun _ => k.run sec
  | .getIndex k => Banyan.getIndex >>= fun i => (k i).run sec
  | .setIndex i k => Banyan.setIndex i >>= fun _ => k.run sec

/-- A reading program. -/
def ofProg : Prog T α → WProg T α
  | .ret a => .ret a
  | .stop e => .stop e
  | .branch l k => .branch l fun b => ofProg (k b)
  | .leaf l k => .leaf l fun b => ofProg (k b)

def lift : Except Err α → WProg T α
  | .ok a => .ret a
  | .error e => .stop e

def assert (b : Bool) (msg : String) : WProg T Unit := if b then .ret () else .stop (.panic msg)
def ensure (b : Bool) (msg : String) : WProg T Unit := if b then .ret () else .stop (.fail msg)

/-- `into_encrypted`, `zstd_dag_cbor_seq.rs:411-427`. -/
def intoEncrypted (E : Env T V) (z : ZSeq) (key : E.CKey) : WProg T Bytes :=
  .reserve z.data.length fun offset => .ret (E.encNode (offset, z.links, applyKeystream E key offset z.data))

/-- `extend_leaf`, `write.rs:56-98`. -/
def extendLeaf (cx : Ctx E) (compressed : Bytes) (keys : Option T.KeySeq) (from_ : List (T.Key × V)) :
    WProg T (LeafIndex T × List (T.Key × V)) := do
  assert (!from_.isEmpty) "assertion failed: from.peek().is_some()"
  let (data, isSealed, keys, from_) ← lift (fill E compressed from_ (optKeys keys) cx.cfg.zstdLevel
    cx.cfg.targetLeafSize cx.cfg.maxUncompressedLeafSize cx.cfg.maxLeafCount)
  let valueBytes := data.data.length
  let encrypted ← intoEncrypted E data cx.sec.valueKey
  let keys := T.keys.ofList keys
  .put encrypted fun link => .ret ({ link := some link, valueBytes, isSealed, keys }, from_)

/-- `leaf_from_iter`, `write.rs:36-43`. -/
def leafFromIter (cx : Ctx E) (from_ : List (T.Key × V)) : WProg T (LeafIndex T × List (T.Key × V)) := do
  assert (!from_.isEmpty) "assertion failed: from.peek().is_some()"
  extendLeaf cx [] none from_

/-- `persist_branch`, `write.rs:351-363`. -/
def persistBranch (cx : Ctx E) (items : List (Index T)) : WProg T (T.Link × Nat) :=
  .log items do
    let zs ← lift (seqFromIterIpld E items cx.cfg.zstdLevel)
    let cbor ← intoEncrypted E zs cx.sec.indexKey
    .put cbor fun link => .ret (link, cbor.length)

/-- `new_branch`, `write.rs:184-213`. -/
def newBranch (cx : Ctx E) (children : List (Index T)) (mode : CreateMode) : WProg T (BranchIndex T) := do
  assert (!children.isEmpty) "assertion failed: !children.is_empty()"
  assert (if mode = .packed then isSorted (children.map Index.level).reverse else true)
    "assertion failed: is_sorted(levels.rev())"
  match maxLevel children with
  | none => .stop (.panic "called `Option::unwrap()` on a `None` value")
  | some m => do
    let level := m + 1
    let count := (children.map Index.count).sum
    let summaries := T.sums.ofList (children.map Index.summarize)
    let valueBytes := (children.map Index.valueBytes).sum
    let isSealed := cx.cfg.branchSealed children level
    let (link, encodedChildrenLen) ← persistBranch cx children
    let keyBytes := (children.map Index.keyBytes).sum + encodedChildrenLen
    pure { level, count, isSealed, link := some link, summaries, keyBytes, valueBytes }

/-- The `while` loop of `extend_branch`, `write.rs:138-143`. -/
def extendBranchLoop (fillChild : List (T.Key × V) → WProg T (Index T × List (T.Key × V))) :
    Nat → List (Index T) → List (T.Key × V) → WProg T (List (Index T) × List (T.Key × V))
  | 0, children, from_ => pure (children, from_)
  | n + 1, children, from_ =>
    if from_.isEmpty then pure (children, from_)
    else do
      let (child, from_) ← fillChild from_
      extendBranchLoop fillChild n (children ++ [child]) from_

/-- `extend_branch`, `write.rs:102-161`, for `level > 0`. -/
def extendBranchWith (cx : Ctx E) (fillChild : List (T.Key × V) → WProg T (Index T × List (T.Key × V)))
    (children : List (Index T)) (level : Nat) (from_ : List (T.Key × V)) (mode : CreateMode) :
    WProg T (BranchIndex T × List (T.Key × V)) := do
  assert (children.all fun child => decide (child.level < level))
    "All children must be below the level of the branch to be created."
  assert (if mode = .packed
      then from_.isEmpty || children.all fun child => child.level == level - 1 && child.isSealed
      else children.isEmpty || children.any fun child => child.level == level - 1)
    "All children must be sealed / at least one must be directly below the branch to be created."
  let maxBranchCount := cx.cfg.maxBranches level
  let (children, from_) ← extendBranchLoop fillChild (maxBranchCount - children.length) children from_
  let index ← newBranch cx children mode
  assert (if !from_.isEmpty
      then index.level == level && (if mode = .packed then index.isSealed else true)
      else decide (index.level ≤ level))
    "assertion failed: index.level == level, index.sealed, index.level <= level"
  pure (index, from_)

/-- `fill_node`, `write.rs:166-179`. -/
def fillNode (cx : Ctx E) : Nat → List (T.Key × V) → WProg T (Index T × List (T.Key × V))
  | 0, from_ => do
    assert (!from_.isEmpty) "assertion failed: from.peek().is_some()"
    let (l, from_) ← leafFromIter cx from_
    pure (.leaf l, from_)
  | level + 1, from_ => do
    assert (!from_.isEmpty) "assertion failed: from.peek().is_some()"
    let (b, from_) ← extendBranchWith cx (fillNode cx level) [] (level + 1) from_ .packed
    pure (.branch b, from_)

/-- `extend_branch`, `write.rs:102-161`. -/
def extendBranch (cx : Ctx E) (children : List (Index T)) (level : Nat) (from_ : List (T.Key × V))
    (mode : CreateMode) : WProg T (BranchIndex T × List (T.Key × V)) :=
  match level with
  | 0 => .stop (.panic "assertion failed: level > 0")
  | l + 1 => extendBranchWith cx (fillNode cx l) children (l + 1) from_ mode

/-- The `while` loop of `extend_above`, `write.rs:235-240`. -/
def extendAboveLoop (cx : Ctx E) (level : Nat) :
    Nat → Index T → List (T.Key × V) → WProg T (Index T × List (T.Key × V))
  | fuel, node, from_ =>
    if (!from_.isEmpty || node.level == 0) && decide (node.level < level) then
      match fuel with
      | 0 => .stop .fuel
      | fuel + 1 => do
        let (b, from_) ← extendBranch cx [node] (node.level + 1) from_ .packed
        extendAboveLoop cx level fuel (.branch b) from_
    else pure (node, from_)

/-- The first step of `extend_above`, `write.rs:230-234`. -/
def extendStart (cx : Ctx E) (ext0 : Index T → List (T.Key × V) → WProg T (Index T × List (T.Key × V)))
    (node : Option (Index T)) (from_ : List (T.Key × V)) : WProg T (Index T × List (T.Key × V)) :=
  match node with
  | some n => ext0 n from_
  | none => do
    let (l, from_) ← leafFromIter cx from_
    pure (.leaf l, from_)

/-- `extend_above`, `write.rs:218-248`; `ext0` is `extend0`. -/
def extendAboveWith (cx : Ctx E) (ext0 : Index T → List (T.Key × V) → WProg T (Index T × List (T.Key × V)))
    (node : Option (Index T)) (level : Nat) (from_ : List (T.Key × V)) :
    WProg T (Index T × List (T.Key × V)) := do
  ensure (!from_.isEmpty) "must have more than 1 element when extending"
  assert (match node with | some n => decide (level ≥ n.level) | none => true)
    "assertion failed: level >= node.level()"
  let (node, from_) ← extendStart cx ext0 node from_
  let (node, from_) ← extendAboveLoop cx level (level - node.level) node from_
  assert (if !from_.isEmpty then node.level == level && node.isSealed else decide (node.level ≤ level))
    "assertion failed: node.level() == level, node.sealed(), node.level() <= level"
  pure (node, from_)

/-- Extension of the last child in `extend0`, `write.rs:315-318`. -/
def extendLast (above : Option (Index T) → List (T.Key × V) → WProg T (Index T × List (T.Key × V)))
    (children : List (Index T)) (from_ : List (T.Key × V)) : WProg T (List (Index T) × List (T.Key × V)) :=
  match children.getLast? with
  | none => pure (children, from_)
  | some last => do
    let (last, from_) ← above (some last) from_
    pure (children.dropLast ++ [last], from_)

/-- `extend0`, `write.rs:286-327`. -/
def extend0 (cx : Ctx E) : Nat → Index T → List (T.Key × V) → WProg T (Index T × List (T.Key × V))
  | 0, _, _ => .stop .fuel
  | fuel + 1, index, from_ =>
    if index.isSealed || from_.isEmpty then pure (index, from_)
    else
      match index with
      | .leaf l =>
        match l.link with
        | none => pure (index, from_)
        | some link => .leaf link fun leaf => do
          let (l, from_) ← extendLeaf cx leaf.items.data (some l.keys) from_
          pure (.leaf l, from_)
      | .branch b =>
        match b.link with
        | none => pure (index, from_)
        | some link => .branch link fun branch => do
          let (children, from_) ← extendLast (fun node from_ => extendAboveWith cx (extend0 cx fuel) node (b.level - 1) from_)
            branch.children from_
          let (b, from_) ← extendBranch cx children b.level from_ .packed
          pure (.branch b, from_)

/-- `extend_above`, `write.rs:218-248`. -/
def extendAbove (cx : Ctx E) (fuel : Nat) (node : Option (Index T)) (level : Nat) (from_ : List (T.Key × V)) :
    WProg T (Index T × List (T.Key × V)) :=
  extendAboveWith cx (extend0 cx fuel) node level from_

/-- `extend_unpacked0`, `write.rs:250-281`. -/
def extendUnpacked0 (cx : Ctx E) (fuel : Nat) (index : Option (Index T)) (from_ : List (T.Key × V)) :
    WProg T (Option (Index T)) :=
  if from_.isEmpty then pure index
  else do
    let (b, from_) ← extendAbove cx fuel none u32max from_
    match index with
    | some a => do
      let level := max a.level b.level + 1
      let (r, _) ← extendBranch cx [a, b] level from_ .unpacked
      pure (some (.branch r))
    | none => pure (some b)

/-- `simplify_roots`, `write.rs:330-349`. -/
def simplifyRoots (cx : Ctx E) : Nat → List (Index T) → Nat → WProg T (List (Index T))
  | 0, _, _ => .stop .fuel
  | fuel + 1, roots, from_ => do
    assert (decide (roots.length > 1)) "assertion failed: roots.len() > 1"
    assert (isSorted (roots.map Index.level).reverse) "assertion failed: is_sorted(..)"
    let r ← lift (findValidBranch cx.cfg (roots.drop from_))
    match r with
    | .sealed count | .unsealed count => do
      let node ← newBranch cx ((roots.drop from_).take count) .packed
      pure (roots.take from_ ++ [.branch node] ++ (roots.drop (from_ + count)))
    | .skip count => simplifyRoots cx fuel roots (from_ + count)

/-- The loop over the children in `retain0`, `write.rs:399-407`. -/
def retainLoop (rec : Nat → Index T → Int → WProg T (Index T × Int)) :
    List (Index T) → Nat → Int → WProg T (List (Index T) × Bool × Int)
  | [], _, level => pure ([], false, level)
  | child :: rest, offset, level => do
    let (child1, level) ← rec offset child level
    let (rest', changed, level) ← retainLoop rec rest (offset + child.count) level
    if child1.link ≠ child.link then pure (child1 :: rest', true, level)
    else pure (child :: rest', changed, level)

/-- `load_branch`, `read.rs:468-484`. -/
def loadBranchOpt (index : BranchIndex T) : WProg T (Option (Branch T)) :=
  match index.link with
  | some link => .read link fun b => .ret (some b)
  | none => .ret none

/-- `retain0`, `write.rs:365-430`. -/
def retain0 (cx : Ctx E) (query : Query T) : Nat → Nat → Index T → Int → WProg T (Index T × Int)
  | 0, _, _, _ => .stop .fuel
  | fuel + 1, offset, index, level =>
    let level := retainLevel index level
    match index with
    | .branch b => do
      let matching := query.intersecting offset b (List.replicate (T.sums.len b.summaries) true)
      let b := if b.link.isSome && b.isSealed && !(anyTrue matching) && decide ((b.level : Int) ≤ level)
        then { b with link := none } else b
      let node ← loadBranchOpt b
      match node with
      | none => pure (.branch b, level)
      | some node => do
        let (children, changed, level) ← retainLoop (retain0 cx query fuel) node.children offset level
        if changed then
          let (link, _) ← persistBranch cx children
          pure (.branch { b with link := some link }, level)
        else pure (.branch b, level)
    | .leaf l =>
      if l.isSealed && l.link.isSome && decide (level ≥ 0) then
        if !(anyTrue (query.containing offset l (List.replicate (T.keys.len l.keys) true))) then
          pure (.leaf { l with link := none }, level)
        else pure (.leaf l, level)
      else pure (.leaf l, level)

/-- The loop over the children in `roots0`, `read.rs:687-689`. -/
def roots0Loop (rec : Index T → Int → List (Index T) → WProg T (Int × List (Index T))) :
    List (Index T) → Int → List (Index T) → WProg T (Int × List (Index T))
  | [], level, res => pure (level, res)
  | child :: rest, level, res => do
    let (level, res) ← rec child level res
    roots0Loop rec rest level res

/-- `roots0`, `read.rs:672-694`. -/
def roots0 : Nat → Index T → Int → List (Index T) → WProg T (Int × List (Index T))
  | 0, _, _, _ => .stop .fuel
  | fuel + 1, index, level, res =>
    if index.isSealed && decide ((index.level : Int) ≤ level) then pure ((index.level : Int), res ++ [index])
    else
      let level := min level ((index.level : Int) - 1)
      match index with
      | .leaf _ => pure (level, res)
      | .branch b =>
        match b.link with
        | none => pure (level, res)
        | some link => .read link fun branch => roots0Loop (roots0 fuel) branch.children level res

/-- `roots`, `tree.rs:242-247`, and `roots_impl`, `read.rs:665-670`. -/
def roots (fuel : Nat) : WProg T (List (Index T)) :=
  .getIndex fun index =>
    match index with
    | some index => do
      let (_, res) ← roots0 fuel index i32max []
      pure res
    | none => .ret []

/-- The `while` loop of `tree_from_roots`, `tree.rs:518-520`. -/
def treeFromRootsLoop (cx : Ctx E) : Nat → List (Index T) → WProg T (List (Index T))
  | fuel, roots =>
    if roots.length > 1 then
      match fuel with
      | 0 => .stop .fuel
      | fuel + 1 => do
        let roots ← simplifyRoots cx (roots.length + 1) roots 0
        treeFromRootsLoop cx fuel roots
    else pure roots

/-- `tree_from_roots`, `tree.rs:511-523`. -/
def treeFromRoots (cx : Ctx E) (roots : List (Index T)) : WProg T Unit := do
  assert (roots.all Index.isSealed) "assertion failed: roots.iter().all(|x| x.sealed())"
  assert (isSorted (roots.map Index.level).reverse) "assertion failed: is_sorted(..)"
  let roots ← treeFromRootsLoop cx (2 * roots.length) roots
  .setIndex roots.getLast? (.ret ())

/-- `extend`, `tree.rs:558-577`. -/
def extend (cx : Ctx E) (fuel : Nat) (from_ : List (T.Key × V)) : WProg T Unit :=
  if from_.isEmpty then .ret ()
  else
    .getIndex fun index => do
      let (index, _) ← extendAbove cx fuel index u32max from_
      .setIndex (some index) (.ret ())

/-- `extend_unpacked`, `tree.rs:589-599`. -/
def extendUnpacked (cx : Ctx E) (fuel : Nat) (from_ : List (T.Key × V)) : WProg T Unit :=
  .getIndex fun index => do
    let index ← extendUnpacked0 cx fuel index from_
    .setIndex index (.ret ())

/-- `collect_from`, `tree.rs:497-507`, of a snapshot with this root. -/
def collectFrom (E : Env T V) (fuel : Nat) (index : Option (Index T)) (offset : Nat) : WProg T (List (Option (T.Key × V))) :=
  match index with
  | some index => ofProg (Prog.collect0 E fuel index offset [])
  | none => .ret []

/-- `pack`, `tree.rs:532-543`. -/
def pack (cx : Ctx E) (fuel : Nat) : WProg T Unit :=
  .getIndex fun initial => do
    let rs ← roots fuel
    treeFromRoots cx rs
    .getIndex fun root => do
      let items ← collectFrom E fuel initial (rootCount root)
      match sequenceOpt items with
      | none => .stop (.fail "found purged data")
      | some remainder => extend cx (fuel + rootLevel root) remainder

/-- `retain`, `tree.rs:611-623`. -/
def retain (cx : Ctx E) (fuel : Nat) (query : Query T) : WProg T Unit :=
  .getIndex fun index =>
    match index with
    | some index => do
      let (index, _) ← retain0 cx query fuel 0 index i32max
      .setIndex (some index) (.ret ())
    | none => .ret ()

end WProg
end Banyan
