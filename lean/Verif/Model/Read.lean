import Verif.Model.Seq
import Verif.Model.Query
/-
`banyan/src/forest/read.rs` without the iterators: loading of nodes and recursive reads.
-/
namespace Banyan

variable {T : TreeTypes} {V : Type} {E : Env T V}

/-- `struct Leaf`, `banyan/src/index.rs:301-304`. -/
structure Leaf where
  items : ZSeq
  byteRange : Nat × Nat

section Load
variable (E)

/-- `load_leaf_from_link`, `read.rs:373-379`. Reads do not depend on anything but the store. -/
def loadLeafFromLink (sec : Secrets E) (s : E.σ) (link : T.Link) : Except Err Leaf :=
  match getBlock E s link with
  | .error e => .error e
  | .ok data =>
    match decrypt E data sec.valueKey with
    | .error e => .error e
    | .ok (items, range) => .ok ⟨items, range⟩

/-- `load_leaf`, `read.rs:364-370`. -/
def loadLeaf (sec : Secrets E) (s : E.σ) (index : LeafIndex T) : Except Err (Option Leaf) :=
  match index.link with
  | none => .ok none
  | some link =>
    match loadLeafFromLink E sec s link with
    | .error e => .error e
    | .ok l => .ok (some l)

/-- `Branch::new`, `index.rs:273-279`. -/
def mkBranch (children : List (Index T)) (range : Nat × Nat) : Except Err (Branch T) :=
  if children.isEmpty then .error (.panic "branch can never have 0 children") else .ok ⟨children, range⟩

/-- `load_branch_from_link`, `read.rs:437-450`. -/
def loadBranchFromLink (sec : Secrets E) (s : E.σ) (link : T.Link) : Except Err (Branch T) :=
  match getBlock E s link with
  | .error e => .error e
  | .ok bytes =>
    match deserializeCompressed E sec.indexKey bytes with
    | .error e => .error e
    | .ok (children, range) => mkBranch children range

/-- `load_branch`, `read.rs:468-484` (does not use the cache). -/
def loadBranch (sec : Secrets E) (s : E.σ) (index : BranchIndex T) : Except Err (Option (Branch T)) :=
  match index.link with
  | none => .ok none
  | some link =>
    match loadBranchFromLink E sec s link with
    | .error e => .error e
    | .ok b => .ok (some b)

end Load

/-- `load_branch_cached_from_link`, `read.rs:409-423`. -/
def loadBranchCached (sec : Secrets E) (link : T.Link) : M E (Branch T) := fun s =>
  match E.cacheGet s.cache link with
  | (some b, c) => .ok b { s with cache := c }
  | (none, c) =>
    match loadBranchFromLink E sec s.store link with
    | .error e => .error e { s with cache := c }
    | .ok b => .ok b { s with cache := E.cachePut c link b }

/-- `LeafLoader::load`, `index.rs:366-368`. -/
def loadLeafM (sec : Secrets E) (link : T.Link) : M E Leaf := fun s =>
  match loadLeafFromLink E sec s.store link with
  | .error e => .error e s
  | .ok l => .ok l s

/-- `BranchLoader::load`, `index.rs:345-347`. -/
def loadBranchM (sec : Secrets E) (link : T.Link) : M E (Branch T) := fun s =>
  match loadBranchFromLink E sec s.store link with
  | .error e => .error e s
  | .ok l => .ok l s

/-- `max().unwrap()` over the levels of the children (`read.rs:390`, `write.rs:194`); `none` for no children. -/
def maxLevel (children : List (Index T)) : Option Nat := (children.map Index.level).max?

/-- `create_index_from_link`, `read.rs:381-406`. -/
def createIndexFromLink (E : Env T V) (sec : Secrets E) (isSealed : List (Index T) → Nat → Bool) (s : E.σ)
    (link : T.Link) : Except Err (Index T × (Nat × Nat)) :=
  match getBlock E s link with
  | .error e => .error e
  | .ok bytes =>
    match deserializeCompressed E sec.indexKey bytes with
    | .error e => .error e
    | .ok (children, range) =>
      match maxLevel children with
      | none => .error (.panic "called `Option::unwrap()` on a `None` value")
      | some m =>
        .ok (.branch
          { link := some link, level := m + 1, count := (children.map Index.count).sum,
            summaries := T.sums.ofList (children.map Index.summarize),
            isSealed := isSealed children (m + 1),
            valueBytes := (children.map Index.valueBytes).sum,
            keyBytes := (children.map Index.keyBytes).sum + bytes.length }, range)

/-- `Leaf::child_at`, `index.rs:311-315`. -/
def childAt (E : Env T V) (leaf : Leaf) (offset : Nat) : Except Err V :=
  match ZSeq.get E leaf.items offset with
  | .error e => .error e
  | .ok none => .error (.fail "index out of bounds")
  | .ok (some v) => .ok v

/-- The loop over the children in `get0`, `read.rs:498-505`; `rec` is the recursive call. -/
def get0Loop (rec : Index T → Nat → M E (Option (T.Key × V))) : List (Index T) → Nat → M E (Option (T.Key × V))
  | [], _ => throw (.fail "index out of bounds")
  | child :: rest, offset =>
    if offset < child.count then rec child offset else get0Loop rec rest (offset - child.count)

/-- `get0`, `read.rs:486-515`. -/
def get0 (sec : Secrets E) : Nat → Index T → Nat → M E (Option (T.Key × V))
  | 0, _, _ => throw .fuel
  | fuel + 1, index, offset =>
    if offset ≥ index.count then pure none
    else
      match index with
      | .branch b =>
        match b.link with
        | none => pure none
        | some link => do
          let node ← loadBranchCached sec link
          get0Loop (get0 sec fuel) node.children offset
      | .leaf l =>
        match l.link with
        | none => pure none
        | some link =>
          match T.keys.get l.keys offset with
          | none => throw (.panic "called `Option::unwrap()` on a `None` value")
          | some k => do
            let leaf ← loadLeafM sec link
            let v ← M.lift (childAt E leaf offset)
            pure (some (k, v))

/-- The loop over the children in `collect0`, `read.rs:529-534`. -/
def collect0Loop (rec : Index T → Nat → List (Option (T.Key × V)) → M E (List (Option (T.Key × V)))) :
    List (Index T) → Nat → List (Option (T.Key × V)) → M E (List (Option (T.Key × V)))
  | [], _, into => pure into
  | child :: rest, offset, into =>
    if offset < child.count then do
      let into ← rec child offset into
      collect0Loop rec rest (offset - child.count) into
    else collect0Loop rec rest (offset - child.count) into

/-- `collect0`, `read.rs:517-555`. -/
def collect0 (sec : Secrets E) :
    Nat → Index T → Nat → List (Option (T.Key × V)) → M E (List (Option (T.Key × V)))
  | 0, _, _, _ => throw .fuel
  | fuel + 1, index, offset, into =>
    if offset ≥ index.count then pure into
    else
      match index with
      | .branch b =>
        match b.link with
        | none => pure (into ++ List.replicate (b.count - offset) none)
        | some link => do
          let node ← loadBranchCached sec link
          collect0Loop (collect0 sec fuel) node.children offset into
      | .leaf l =>
        match l.link with
        | none => pure (into ++ List.replicate (T.keys.len l.keys - offset) none)
        | some link => do
          let leaf ← loadLeafM sec link
          let vs ← M.lift (ZSeq.items E leaf.items)
          pure (into ++ (((T.keys.toVec l.keys).zip vs).drop offset).map some)

/-- The loop over the children in `roots0`, `read.rs:687-689`. -/
def roots0Loop (rec : Index T → Int → List (Index T) → M E (Int × List (Index T))) :
    List (Index T) → Int → List (Index T) → M E (Int × List (Index T))
  | [], level, res => pure (level, res)
  | child :: rest, level, res => do
    let (level, res) ← rec child level res
    roots0Loop rec rest level res

/-- `roots0`, `read.rs:672-694`; returns the new values of `level` and `res`. -/
def roots0 (sec : Secrets E) : Nat → Index T → Int → List (Index T) → M E (Int × List (Index T))
  | 0, _, _, _ => throw .fuel
  | fuel + 1, index, level, res =>
    if index.isSealed && decide ((index.level : Int) ≤ level) then pure ((index.level : Int), res ++ [index])
    else
      let level := min level ((index.level : Int) - 1)
      match index with
      | .leaf _ => pure (level, res)
      | .branch b =>
        match b.link with
        | none => pure (level, res)
        | some link => do
          let branch ← loadBranchM sec link
          roots0Loop (roots0 sec fuel) branch.children level res

/-- `i32::max_value()` -/
def i32max : Int := 2147483647

/-- `roots_impl`, `read.rs:665-670`. -/
def rootsImpl (sec : Secrets E) (fuel : Nat) (index : Index T) : M E (List (Index T)) := do
  let (_, res) ← roots0 sec fuel index i32max []
  pure res

/-- The messages of `check_invariants0`. -/
inductive InvMsg where
  | valueCount | branchCount | childLevelSealed | childLevel | childSummary | sealedFlag
deriving DecidableEq, Repr

/-- `check!`, `read.rs:704-711` -/
def checkMsg (b : Bool) (m : InvMsg) (msgs : List InvMsg) : List InvMsg := if b then msgs else msgs ++ [m]

/-- The loop of `read.rs:725-731`. -/
def checkLevels (index : BranchIndex T) : List (Index T) → List InvMsg → List InvMsg
  | [], msgs => msgs
  | child :: rest, msgs =>
    checkLevels index rest
      (if index.isSealed then checkMsg (child.level == index.level - 1) .childLevelSealed msgs
       else checkMsg (decide (child.level < index.level)) .childLevel msgs)

/-- The loop of `read.rs:732-735`. -/
def checkSummaries : List (Index T × T.Summary) → List InvMsg → List InvMsg
  | [], msgs => msgs
  | (child, summary) :: rest, msgs => checkSummaries rest (checkMsg (child.summarize == summary) .childSummary msgs)

/-- The loop of `read.rs:738-740`. -/
def checkInvariantsLoop (rec : Index T → Int → List InvMsg → M E (Int × List InvMsg)) :
    List (Index T) → Int → List InvMsg → M E (Int × List InvMsg)
  | [], level, msgs => pure (level, msgs)
  | child :: rest, level, msgs => do
    let (level, msgs) ← rec child level msgs
    checkInvariantsLoop rec rest level msgs

/-- `check_invariants0`, `read.rs:696-750`. -/
def checkInvariants0 (sec : Secrets E) (cfg : Config) :
    Nat → Index T → Int → List InvMsg → M E (Int × List InvMsg)
  | 0, _, _, _ => throw .fuel
  | fuel + 1, index, level, msgs => do
    let level := if !index.isSealed then min level ((index.level : Int) - 1) else level
    match index with
    | .leaf l =>
      match l.link with
      | none => pure (level, msgs)
      | some link => do
        let leaf ← loadLeafM sec link
        let valueCount ← M.lift (ZSeq.count E leaf.items)
        pure (level, checkMsg (valueCount == T.keys.len l.keys) .valueCount msgs)
    | .branch b =>
      match b.link with
      | none => pure (level, msgs)
      | some link => do
        let branch ← loadBranchCached sec link
        let msgs := checkMsg (branch.children.length == T.sums.len b.summaries) .branchCount msgs
        let msgs := checkLevels b branch.children msgs
        let msgs := checkSummaries (branch.children.zip (T.sums.toVec b.summaries)) msgs
        M.assert (decide (b.level > 0)) "assertion failed: level > 0"
        let branchSealed := cfg.branchSealed branch.children b.level
        let msgs := checkMsg (b.isSealed == branchSealed) .sealedFlag msgs
        checkInvariantsLoop (checkInvariants0 sec cfg fuel) branch.children level msgs

/-- `is_packed0`, `read.rs:753-777`. Note that `rec_ok` is evaluated even if the other conditions fail. -/
def isPacked0 (sec : Secrets E) : Nat → Index T → M E Bool
  | 0, _ => throw .fuel
  | fuel + 1, index =>
    match index with
    | .leaf _ => pure true
    | .branch b =>
      match b.link with
      | none => pure true
      | some link =>
        if b.isSealed then pure true
        else do
          let branch ← loadBranchCached sec link
          match branch.children.getLast? with
          | none => pure true
          | some last => do
            let firstOk := branch.children.dropLast.all fun child => child.isSealed && child.level == b.level - 1
            let lastOk := decide (last.level < b.level)
            let recOk ← isPacked0 sec fuel last
            pure (firstOk && lastOk && recOk)

end Banyan
