import Verif.Model.Builder
/-
The reading operations once more, as programs whose accesses to the store and to the branch cache are visible, so that the accesses of
other threads can happen in between. Each definition follows the one with the same name in Model/Read.lean, Model/Iter.lean or
Model/Builder.lean line by line, and cites the same code; `Proofs/Prog.lean` proves that they are the same operations.
-/
set_option autoImplicit false
namespace Banyan

variable {T : TreeTypes} {V : Type} {E : Env T V} {X : Type} {α β : Type}

/-- A program: it returns, fails, loads a branch through the cache (`load_branch_cached_from_link`, `read.rs:409-423`), or loads a leaf
(`load_leaf_from_link`, `read.rs:373-379`). An error while loading ends the program (`?`). -/
inductive Prog (T : TreeTypes) (α : Type) where
  | ret (a : α)
  | stop (e : Err)
  | branch (link : T.Link) (k : Branch T → Prog T α)
  | leaf (link : T.Link) (k : Leaf → Prog T α)

namespace Prog

def bind : Prog T α → (α → Prog T β) → Prog T β
  | .ret a, f => f a
  | .stop e, _ => .stop e
  | .branch l k, f => .branch l fun b => (k b).bind f
  | .leaf l k, f => .leaf l fun b => (k b).bind f

instance : Monad (Prog T) where
  pure := .ret
  bind := .bind

/-- The program without other threads. -/
def run (sec : Secrets E) : Prog T α → M E α
  | .ret a => pure a
  | .stop e => throw e
  | .branch l k => loadBranchCached sec l >>= fun b => (k b).run sec
  | .leaf l k => loadLeafM sec l >>= fun b => (k b).run sec

def loadBranchCached (link : T.Link) : Prog T (Branch T) := .branch link .ret
def loadLeafM (link : T.Link) : Prog T Leaf := .leaf link .ret

/-- A pure fallible computation. -/
def lift : Except Err α → Prog T α
  | .ok a => .ret a
  | .error e => .stop e

/-- The loop over the children in `get0`, `read.rs:498-505`. -/
def get0Loop (rec : Index T → Nat → Prog T (Option (T.Key × V))) : List (Index T) → Nat → Prog T (Option (T.Key × V))
  | [], _ => .stop (.fail "index out of bounds")
  | child :: rest, offset =>
    if offset < child.count then rec child offset else get0Loop rec rest (offset - child.count)

/-- `get0`, `read.rs:486-515`. -/
def get0 (E : Env T V) : Nat → Index T → Nat → Prog T (Option (T.Key × V))
  | 0, _, _ => .stop .fuel
  | fuel + 1, index, offset =>
    if offset ≥ index.count then pure none
    else
      match index with
      | .branch b =>
        match b.link with
        | none => pure none
        | some link => do
          let node ← loadBranchCached link
          get0Loop (get0 E fuel) node.children offset
      | .leaf l =>
        match l.link with
        | none => pure none
        | some link =>
          match T.keys.get l.keys offset with
          | none => .stop (.panic "called `Option::unwrap()` on a `None` value")
          | some k => do
            let leaf ← loadLeafM link
            let v ← lift (childAt E leaf offset)
            pure (some (k, v))

/-- The loop over the children in `collect0`, `read.rs:529-534`. -/
def collect0Loop (rec : Index T → Nat → List (Option (T.Key × V)) → Prog T (List (Option (T.Key × V)))) :
    List (Index T) → Nat → List (Option (T.Key × V)) → Prog T (List (Option (T.Key × V)))
  | [], _, into => pure into
  | child :: rest, offset, into =>
    if offset < child.count then do
      let into ← rec child offset into
      collect0Loop rec rest (offset - child.count) into
    else collect0Loop rec rest (offset - child.count) into

/-- `collect0`, `read.rs:517-555`. -/
def collect0 (E : Env T V) : Nat → Index T → Nat → List (Option (T.Key × V)) → Prog T (List (Option (T.Key × V)))
  | 0, _, _, _ => .stop .fuel
  | fuel + 1, index, offset, into =>
    if offset ≥ index.count then pure into
    else
      match index with
      | .branch b =>
        match b.link with
        | none => pure (into ++ List.replicate (b.count - offset) none)
        | some link => do
          let node ← loadBranchCached link
          collect0Loop (collect0 E fuel) node.children offset into
      | .leaf l =>
        match l.link with
        | none => pure (into ++ List.replicate (T.keys.len l.keys - offset) none)
        | some link => do
          let leaf ← loadLeafM link
          let vs ← lift (ZSeq.items E leaf.items)
          pure (into ++ (((T.keys.toVec l.keys).zip vs).drop offset).map some)

/-- `is_packed0`, `read.rs:753-777`. -/
def isPacked0 : Nat → Index T → Prog T Bool
  | 0, _ => .stop .fuel
  | fuel + 1, index =>
    match index with
    | .leaf _ => pure true
    | .branch b =>
      match b.link with
      | none => pure true
      | some link =>
        if b.isSealed then pure true
        else do
          let branch ← loadBranchCached link
          match branch.children.getLast? with
          | none => pure true
          | some last => do
            let firstOk := branch.children.dropLast.all fun child => child.isSealed && child.level == b.level - 1
            let lastOk := decide (last.level < b.level)
            let recOk ← isPacked0 fuel last
            pure (firstOk && lastOk && recOk)

/-- `self.offset += count` / `self.offset -= count`; the latter panics on underflow. -/
def moveOffset (mode : Mode) (offset count : Nat) : Prog T Nat :=
  match mode with
  | .forward => pure (offset + count)
  | .backward =>
    if count ≤ offset then pure (offset - count) else .stop (.panic "attempt to subtract with overflow")

/-- The data of the chunk made by `ChunkVisitor::leaf`, `read.rs:82-98`. -/
def visitLeafData (E : Env T V) (start : Nat) (index : LeafIndex T) (link : T.Link) (matching : List Bool) :
    Prog T (List (Nat × T.Key × V)) :=
  if anyTrue matching then do
    let leaf ← loadLeafM link
    let offsets := ((List.range matching.length).filter fun i => matching[i]? = some true).map (start + ·)
    let keys := T.keys.select index.keys matching
    let elems ← lift (ZSeq.select E leaf.items matching)
    pure (((offsets.zip keys).zip elems).map fun x => (x.1.1, x.1.2, x.2))
  else pure []

/-- `ChunkVisitor::leaf`, `read.rs:75-101`. -/
def visitLeaf (E : Env T V) (mkExtra : Index T → X) (range : Nat × Nat) (index : LeafIndex T) (link : T.Link)
    (matching : List Bool) : Prog T (Chunk T V X) := do
  let data ← visitLeafData E range.1 index link matching
  pure ⟨range, data, mkExtra (.leaf index)⟩

/-- `TreeIter::skip`, `read.rs:204-217`. -/
def skipTop (mode : Mode) (mkExtra : Index T → X) (offset : Nat) (top : TraverseState T)
    (rest : List (TraverseState T)) (range : Nat × Nat) : Prog T (StepRes T (Chunk T V X)) := do
  let offset ← moveOffset mode offset top.index.count
  pure (.item ⟨range, [], mkExtra top.index⟩ ⟨offset, bumpTop mode rest⟩)

/-- The part of the loop body after the filter of a branch is known: `read.rs:268-294`. -/
def branchStep (mode : Mode) (mkExtra : Index T → X) (offset : Nat) (head : TraverseState T)
    (rest : List (TraverseState T)) (link : T.Link) : Prog T (StepRes T (Chunk T V X)) := do
  let branch ← loadBranchCached link
  let nextIdx := head.position.toNat
  match head.filter[nextIdx]?, branch.children[nextIdx]? with
  | some true, some child => pure (.cont ⟨offset, TraverseState.new child :: head :: rest⟩)
  | some false, some child => do
    let range := rangeOf mode offset child.count
    let offset ← moveOffset mode offset child.count
    pure (.item ⟨range, [], mkExtra child⟩ ⟨offset, head.nextPos mode :: rest⟩)
  | _, _ => .stop (.panic "index out of bounds")

/-- One turn of the loop of `next_fallible`, `read.rs:222-320`. -/
def iterStep (E : Env T V) (query : Query T) (mode : Mode) (mkExtra : Index T → X) (s : IterState T) :
    Prog T (StepRes T (Chunk T V X)) :=
  match s.stack with
  | [] => pure .done
  | head :: rest =>
    if head.isExhausted mode then pure (.cont ⟨s.offset, bumpTop mode rest⟩)
    else
      let range := rangeOf mode s.offset head.index.count
      match head.index with
      | .branch b =>
        match b.link with
        | none => skipTop mode mkExtra s.offset head rest range
        | some link =>
          if head.filter.isEmpty then
            let filter := query.intersecting range.1 b (List.replicate (T.sums.len b.summaries) true)
            let position : Int := match mode with
              | .forward => 0
              | .backward => (T.sums.len b.summaries : Int) - 1
            if !(anyTrue filter) then skipTop mode mkExtra s.offset head rest range
            else branchStep mode mkExtra s.offset { head with filter, position } rest link
          else branchStep mode mkExtra s.offset head rest link
      | .leaf l =>
        match l.link with
        | none => skipTop mode mkExtra s.offset head rest range
        | some link => do
          let matching := query.containing range.1 l (List.replicate (T.keys.len l.keys) true)
          let result ← visitLeaf E mkExtra range l link matching
          let offset ← moveOffset mode s.offset (T.keys.len l.keys)
          pure (.item result ⟨offset, bumpTop mode rest⟩)

/-- `next_fallible`, `read.rs:220-322`. -/
def nextFallible (E : Env T V) (query : Query T) (mode : Mode) (mkExtra : Index T → X) :
    Nat → IterState T → Prog T (Option (Chunk T V X) × IterState T)
  | 0, _ => .stop .fuel
  | fuel + 1, s => do
    match ← iterStep E query mode mkExtra s with
    | .done => pure (none, s)
    | .cont s => nextFallible E query mode mkExtra fuel s
    | .item a s => pure (some a, s)

/-- `get`, `tree.rs:478-487`. -/
def get (fuel : Nat) (t : Tree E) (offset : Nat) : Prog T (Option (T.Key × V)) :=
  match t with
  | some (index, _, _) => get0 E fuel index offset
  | none => pure none

/-- `collect_from`, `tree.rs:497-507`. -/
def collectFrom (fuel : Nat) (t : Tree E) (offset : Nat) : Prog T (List (Option (T.Key × V))) :=
  match t with
  | some (index, _, _) => collect0 E fuel index offset []
  | none => pure []

/-- `is_packed`, `tree.rs:292-298`. -/
def isPacked (fuel : Nat) (t : Tree E) : Prog T Bool :=
  match t with
  | some (index, _, _) => isPacked0 fuel index
  | none => pure true

end Prog
end Banyan
