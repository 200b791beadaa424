import Verif.Model.Read
/-
`banyan/src/forest/write.rs`.

The peekable iterator `from` is a list of the remaining elements, passed in and returned.
-/
namespace Banyan

variable {T : TreeTypes} {V : Type} {E : Env T V}

/-- `keys.map(|keys| keys.to_vec()).unwrap_or_default()`, `write.rs:66`. -/
def optKeys (keys : Option T.KeySeq) : List T.Key :=
  match keys with
  | some ks => T.keys.toVec ks
  | none => []

/-- `extend_leaf`, `write.rs:56-98`. -/
def extendLeaf (cx : Ctx E) (compressed : Bytes) (keys : Option T.KeySeq) (from_ : List (T.Key × V)) :
    M E (LeafIndex T × List (T.Key × V)) := do
  M.assert (!from_.isEmpty) "assertion failed: from.peek().is_some()"
  let (data, isSealed, keys, from_) ← M.lift (fill E compressed from_ (optKeys keys) cx.cfg.zstdLevel
    cx.cfg.targetLeafSize cx.cfg.maxUncompressedLeafSize cx.cfg.maxLeafCount)
  let valueBytes := data.data.length
  let encrypted ← intoEncrypted data cx.sec.valueKey
  let keys := T.keys.ofList keys
  let link ← putBlock encrypted
  pure ({ link := some link, valueBytes, isSealed, keys }, from_)

/-- `leaf_from_iter`, `write.rs:36-43`. -/
def leafFromIter (cx : Ctx E) (from_ : List (T.Key × V)) : M E (LeafIndex T × List (T.Key × V)) := do
  M.assert (!from_.isEmpty) "assertion failed: from.peek().is_some()"
  extendLeaf cx [] none from_

/-- Ghost log of the branches to be persisted. -/
def logBranch (items : List (Index T)) : M E Unit := fun s => .ok () { s with written := s.written ++ [items] }

/-- `persist_branch`, `write.rs:351-363`. -/
def persistBranch (cx : Ctx E) (items : List (Index T)) : M E (T.Link × Nat) := do
  logBranch items
  let cbor ← serializeCompressed cx.sec.indexKey items cx.cfg.zstdLevel
  let link ← putBlock cbor
  pure (link, cbor.length)

/-- `new_branch`, `write.rs:184-213`. -/
def newBranch (cx : Ctx E) (children : List (Index T)) (mode : CreateMode) : M E (BranchIndex T) := do
  M.assert (!children.isEmpty) "assertion failed: !children.is_empty()"
  M.assert (if mode = .packed then isSorted (children.map Index.level).reverse else true)
    "assertion failed: is_sorted(levels.rev())"
  match maxLevel children with
  | none => throw (.panic "called `Option::unwrap()` on a `None` value")
  | some m => do
    let level := m + 1
    let count := (children.map Index.count).sum
    let summaries := T.sums.ofList (children.map Index.summarize)
    let valueBytes := (children.map Index.valueBytes).sum
    let isSealed := cx.cfg.branchSealed children level
    let (link, encodedChildrenLen) ← persistBranch cx children
    let keyBytes := (children.map Index.keyBytes).sum + encodedChildrenLen
    pure { level, count, isSealed, link := some link, summaries, keyBytes, valueBytes }

/-- The `while` loop of `extend_branch`, `write.rs:138-143`. The first argument is `max_branch_count - children.len()`
(if positive), which is exactly the number of iterations the condition `children.len() < max_branch_count` allows.
(The `summaries` vector of the loop is never read.) `fillChild` is `fill_node(level - 1, ..)`. -/
def extendBranchLoop (fillChild : List (T.Key × V) → M E (Index T × List (T.Key × V))) :
    Nat → List (Index T) → List (T.Key × V) → M E (List (Index T) × List (T.Key × V))
  | 0, children, from_ => pure (children, from_)
  | n + 1, children, from_ =>
    if from_.isEmpty then pure (children, from_)
    else do
      let (child, from_) ← fillChild from_
      extendBranchLoop fillChild n (children ++ [child]) from_

/-- `extend_branch`, `write.rs:102-161`, for `level > 0`; `fillChild` is `fill_node(level - 1, ..)`. -/
def extendBranchWith (cx : Ctx E) (fillChild : List (T.Key × V) → M E (Index T × List (T.Key × V)))
    (children : List (Index T)) (level : Nat) (from_ : List (T.Key × V)) (mode : CreateMode) :
    M E (BranchIndex T × List (T.Key × V)) := do
  M.assert (children.all fun child => decide (child.level < level))
    "All children must be below the level of the branch to be created."
  M.assert (if mode = .packed
      then from_.isEmpty || children.all fun child => child.level == level - 1 && child.isSealed
      else children.isEmpty || children.any fun child => child.level == level - 1)
    "All children must be sealed / at least one must be directly below the branch to be created."
  let maxBranchCount := cx.cfg.maxBranches level
  let (children, from_) ← extendBranchLoop fillChild (maxBranchCount - children.length) children from_
  let index ← newBranch cx children mode
  M.assert (if !from_.isEmpty
      then index.level == level && (if mode = .packed then index.isSealed else true)
      else decide (index.level ≤ level))
    "assertion failed: index.level == level, index.sealed, index.level <= level"
  pure (index, from_)

/-- `fill_node`, `write.rs:166-179`. -/
def fillNode (cx : Ctx E) : Nat → List (T.Key × V) → M E (Index T × List (T.Key × V))
  | 0, from_ => do
    M.assert (!from_.isEmpty) "assertion failed: from.peek().is_some()"
    let (l, from_) ← leafFromIter cx from_
    pure (.leaf l, from_)
  | level + 1, from_ => do
    M.assert (!from_.isEmpty) "assertion failed: from.peek().is_some()"
    let (b, from_) ← extendBranchWith cx (fillNode cx level) [] (level + 1) from_ .packed
    pure (.branch b, from_)

/-- `extend_branch`, `write.rs:102-161`. -/
def extendBranch (cx : Ctx E) (children : List (Index T)) (level : Nat) (from_ : List (T.Key × V))
    (mode : CreateMode) : M E (BranchIndex T × List (T.Key × V)) :=
  match level with
  | 0 => throw (.panic "assertion failed: level > 0")
  | l + 1 => extendBranchWith cx (fillNode cx l) children (l + 1) from_ mode

/-- The `while` loop of `extend_above`, `write.rs:235-240`. The first argument bounds the number of iterations. -/
def extendAboveLoop (cx : Ctx E) (level : Nat) :
    Nat → Index T → List (T.Key × V) → M E (Index T × List (T.Key × V))
  | fuel, node, from_ =>
    if (!from_.isEmpty || node.level == 0) && decide (node.level < level) then
      match fuel with
      | 0 => throw .fuel
      | fuel + 1 => do
        let (b, from_) ← extendBranch cx [node] (node.level + 1) from_ .packed
        extendAboveLoop cx level fuel (.branch b) from_
    else pure (node, from_)

/-- The first step of `extend_above`, `write.rs:230-234`. -/
def extendStart (cx : Ctx E) (ext0 : Index T → List (T.Key × V) → M E (Index T × List (T.Key × V)))
    (node : Option (Index T)) (from_ : List (T.Key × V)) : M E (Index T × List (T.Key × V)) :=
  match node with
  | some n => ext0 n from_
  | none => do
    let (l, from_) ← leafFromIter cx from_
    pure (.leaf l, from_)

/-- `extend_above`, `write.rs:218-248`; `ext0` is `extend0`. The loop raises the level by one in each iteration, so
`level` iterations suffice. -/
def extendAboveWith (cx : Ctx E) (ext0 : Index T → List (T.Key × V) → M E (Index T × List (T.Key × V)))
    (node : Option (Index T)) (level : Nat) (from_ : List (T.Key × V)) :
    M E (Index T × List (T.Key × V)) := do
  M.ensure (!from_.isEmpty) "must have more than 1 element when extending"
  M.assert (match node with | some n => decide (level ≥ n.level) | none => true)
    "assertion failed: level >= node.level()"
  let (node, from_) ← extendStart cx ext0 node from_
  let (node, from_) ← extendAboveLoop cx level (level - node.level) node from_
  M.assert (if !from_.isEmpty then node.level == level && node.isSealed else decide (node.level ≤ level))
    "assertion failed: node.level() == level, node.sealed(), node.level() <= level"
  pure (node, from_)

/-- Extension of the last child in `extend0`, `write.rs:315-318`; `above` is `extend_above`. -/
def extendLast (above : Option (Index T) → List (T.Key × V) → M E (Index T × List (T.Key × V)))
    (children : List (Index T)) (from_ : List (T.Key × V)) : M E (List (Index T) × List (T.Key × V)) :=
  match children.getLast? with
  | none => pure (children, from_)
  | some last => do
    let (last, from_) ← above (some last) from_
    pure (children.dropLast ++ [last], from_)

/-- `extend0`, `write.rs:286-327`. -/
def extend0 (cx : Ctx E) : Nat → Index T → List (T.Key × V) → M E (Index T × List (T.Key × V))
  | 0, _, _ => throw .fuel
  | fuel + 1, index, from_ =>
    if index.isSealed || from_.isEmpty then pure (index, from_)
    else
      match index with
      | .leaf l =>
        match l.link with
        | none => pure (index, from_)
        | some link => do
          let leaf ← loadLeafM cx.sec link
          let (l, from_) ← extendLeaf cx leaf.items.data (some l.keys) from_
          pure (.leaf l, from_)
      | .branch b =>
        match b.link with
        | none => pure (index, from_)
        | some link => do
          let branch ← loadBranchCached cx.sec link
          let (children, from_) ← extendLast (fun node from_ => extendAboveWith cx (extend0 cx fuel) node (b.level - 1) from_)
            branch.children from_
          let (b, from_) ← extendBranch cx children b.level from_ .packed
          pure (.branch b, from_)

/-- `extend_above`, `write.rs:218-248`. -/
def extendAbove (cx : Ctx E) (fuel : Nat) (node : Option (Index T)) (level : Nat) (from_ : List (T.Key × V)) :
    M E (Index T × List (T.Key × V)) :=
  extendAboveWith cx (extend0 cx fuel) node level from_

/-- `u32::max_value()` -/
def u32max : Nat := 4294967295

/-- `extend_unpacked0`, `write.rs:250-281`. -/
def extendUnpacked0 (cx : Ctx E) (fuel : Nat) (index : Option (Index T)) (from_ : List (T.Key × V)) :
    M E (Option (Index T)) :=
  if from_.isEmpty then pure index
  else do
    let (b, from_) ← extendAbove cx fuel none u32max from_
    match index with
    | some a => do
      let level := max a.level b.level + 1
      let (r, _) ← extendBranch cx [a, b] level from_ .unpacked
      pure (some (.branch r))
    | none => pure (some b)

/-- `find_valid_branch`, `write.rs:501-528`. -/
def findValidBranch (cfg : Config) (children : List (Index T)) : Except Err BranchResult :=
  if !(decide (children.length > 1)) then .error (.panic "assertion failed: children.len() > 1")
  else if !(isSorted (children.map Index.level).reverse) then .error (.panic "assertion failed: is_sorted(..)")
  else
    match children with
    | [] => .error (.panic "assertion failed: !children.is_empty()")
    | first :: _ =>
      let firstLevel := first.level
      let maxCount := if firstLevel = 0 then cfg.maxKeyBranches else cfg.maxSummaryBranches
      let pos := children.findIdx fun x => decide (x.level < firstLevel)
      if pos ≥ maxCount then .ok (.sealed maxCount)
      else if pos = children.length ∨ pos = children.length - 1 then .ok (.unsealed (min maxCount children.length))
      else .ok (.skip pos)

/-- `simplify_roots`, `write.rs:330-349`; returns the new `roots`. The first argument bounds the recursion depth. -/
def simplifyRoots (cx : Ctx E) : Nat → List (Index T) → Nat → M E (List (Index T))
  | 0, _, _ => throw .fuel
  | fuel + 1, roots, from_ => do
    M.assert (decide (roots.length > 1)) "assertion failed: roots.len() > 1"
    M.assert (isSorted (roots.map Index.level).reverse) "assertion failed: is_sorted(..)"
    let r ← M.lift (findValidBranch cx.cfg (roots.drop from_))
    match r with
    | .sealed count | .unsealed count => do
      let node ← newBranch cx ((roots.drop from_).take count) .packed
      pure (roots.take from_ ++ [.branch node] ++ (roots.drop (from_ + count)))
    | .skip count => simplifyRoots cx fuel roots (from_ + count)

/-- The loop over the children in `retain0`, `write.rs:399-407`. Returns the (possibly changed) children, the
`changed` flag and the level. `rec` is `retain0`. -/
def retainLoop (rec : Nat → Index T → Int → M E (Index T × Int)) :
    List (Index T) → Nat → Int → M E (List (Index T) × Bool × Int)
  | [], _, level => pure ([], false, level)
  | child :: rest, offset, level => do
    let (child1, level) ← rec offset child level
    let (rest', changed, level) ← retainLoop rec rest (offset + child.count) level
    if child1.link ≠ child.link then pure (child1 :: rest', true, level)
    else pure (child :: rest', changed, level)

/-- The level update at the start of `retain0` and `roots0`: `write.rs:373-381`. -/
def retainLevel (index : Index T) (level : Int) : Int :=
  if index.isSealed && decide ((index.level : Int) ≤ level) then (index.level : Int)
  else min level ((index.level : Int) - 1)

/-- `load_branch` as an effect, `read.rs:468-484`. -/
def loadBranchOpt (sec : Secrets E) (index : BranchIndex T) : M E (Option (Branch T)) := fun s =>
  match loadBranch E sec s.store index with
  | .error e => .error e s
  | .ok b => .ok b s

/-- `retain0`, `write.rs:365-430`; returns the new index and the new value of `level`. -/
def retain0 (cx : Ctx E) (query : Query T) : Nat → Nat → Index T → Int → M E (Index T × Int)
  | 0, _, _, _ => throw .fuel
  | fuel + 1, offset, index, level =>
    let level := retainLevel index level
    match index with
    | .branch b => do
      let matching := query.intersecting offset b (List.replicate (T.sums.len b.summaries) true)
      let b := if b.link.isSome && b.isSealed && !(anyTrue matching) && decide ((b.level : Int) ≤ level)
        then { b with link := none } else b
      let node ← loadBranchOpt cx.sec b
      match node with
      | none => pure (.branch b, level)
      | some node => do
        let (children, changed, level) ← retainLoop (retain0 cx query fuel) node.children offset level
        if changed then
          let (link, _) ← persistBranch cx children
          pure (.branch { b with link := some link }, level)
        else pure (.branch b, level)
    | .leaf l =>
      if l.isSealed && l.link.isSome && decide (level ≥ 0) then
        if !(anyTrue (query.containing offset l (List.replicate (T.keys.len l.keys) true))) then
          pure (.leaf { l with link := none }, level)
        else pure (.leaf l, level)
      else pure (.leaf l, level)

/-- The entries of the report of `repair0`. -/
inductive RepairMsg (T : TreeTypes) where
  | forgetBranch (link : Option T.Link)
  | warnUnsealedBranch
  | warnUnpackedBranch
  | forgetLeaf (link : Option T.Link)
  | warnUnsealedLeaf
  | warnUnpackedLeaf

/-- The loop over the children in `repair0`, `write.rs:451-457`. -/
def repairLoop (rec : Index T → List (RepairMsg T) → Int → M E (Index T × List (RepairMsg T) × Int)) :
    List (Index T) → List (RepairMsg T) → Int → M E (List (Index T) × Bool × List (RepairMsg T) × Int)
  | [], report, level => pure ([], false, report, level)
  | child :: rest, report, level => do
    let (child1, report, level) ← rec child report level
    let (rest', changed, report, level) ← repairLoop rec rest report level
    if child1.link ≠ child.link then pure (child1 :: rest', true, report, level)
    else pure (child :: rest', changed, report, level)

/-- `repair0`, `write.rs:432-496`. Only `anyhow` errors are caught; a panic while decoding a block (a branch without
children) propagates. -/
def repair0 (cx : Ctx E) : Nat → Index T → List (RepairMsg T) → Int → M E (Index T × List (RepairMsg T) × Int)
  | 0, _, _, _ => throw .fuel
  | fuel + 1, index, report, level => fun s =>
    let level := if !index.isSealed then min level ((index.level : Int) - 1) else level
    match index with
    | .branch b =>
      match loadBranch E cx.sec s.store b with
      | .ok (some node) =>
        (do
          let (children, changed, report, level) ← repairLoop (repair0 cx fuel) node.children report level
          if changed then
            let (link, _) ← persistBranch cx children
            pure (.branch { b with link := some link }, report, level)
          else pure (.branch b, report, level) : M E (Index T × List (RepairMsg T) × Int)) s
      | .ok none => .ok (.branch b, report, level) s
      | .error (.fail _) =>
        let report := report ++ [.forgetBranch b.link]
        let report := if !b.isSealed then report ++ [.warnUnsealedBranch]
          else if (b.level : Int) > level then report ++ [.warnUnpackedBranch] else report
        .ok (.branch { b with link := none }, report, level) s
      | .error e => .error e s
    | .leaf l =>
      match loadLeaf E cx.sec s.store l with
      | .ok _ => .ok (.leaf l, report, level) s
      | .error (.fail _) =>
        let report := report ++ [.forgetLeaf l.link]
        let report := if !l.isSealed then report ++ [.warnUnsealedLeaf]
          else if level < 0 then report ++ [.warnUnpackedLeaf] else report
        .ok (.leaf { l with link := none }, report, level) s
      | .error e => .error e s

end Banyan
