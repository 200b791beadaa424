import Verif.Model.Read
/-
The stack machine `TreeIter` with the `ChunkVisitor`: `banyan/src/forest/read.rs:40-346`, and the iterators built on
top of it.
-/
namespace Banyan

variable {T : TreeTypes} {V : Type} {E : Env T V} {X : Type}

/-- `struct FilteredChunk`, `banyan/src/forest/mod.rs:276-290`; `range` is start and (exclusive) end. -/
structure Chunk (T : TreeTypes) (V : Type) (X : Type) where
  range : Nat × Nat
  data : List (Nat × T.Key × V)
  extra : X

/-- `enum Mode`, `read.rs:104-108`. -/
inductive Mode where
  | forward
  | backward
deriving DecidableEq, Repr

/-- `struct TraverseState`, `read.rs:120-130`. -/
structure TraverseState (T : TreeTypes) where
  index : Index T
  position : Int
  filter : List Bool

namespace TraverseState

/-- `new`, `read.rs:133-139`. -/
def new (index : Index T) : TraverseState T := ⟨index, 0, []⟩

/-- `is_exhausted`, `read.rs:140-145`. -/
def isExhausted (s : TraverseState T) : Mode → Bool
  | .forward => !s.filter.isEmpty && decide (s.position ≥ (s.filter.length : Int))
  | .backward => decide (s.position < 0)

/-- `next_pos`, `read.rs:146-151`. -/
def nextPos (s : TraverseState T) : Mode → TraverseState T
  | .forward => { s with position := s.position + 1 }
  | .backward => { s with position := s.position - 1 }

end TraverseState

/-- The part of `struct TreeIter` (`read.rs:109-118`) that changes: offset and stack (top first). -/
structure IterState (T : TreeTypes) where
  offset : Nat
  stack : List (TraverseState T)

/-- `TreeIter::new` / `new_rev`, `read.rs:161-199`. -/
def IterState.new (mode : Mode) (index : Index T) : IterState T :=
  match mode with
  | .forward => ⟨0, [TraverseState.new index]⟩
  | .backward => ⟨index.count, [TraverseState.new index]⟩

/-- `if let Some(last) = self.stack.last_mut() { last.next_pos(mode) }`, e.g. `read.rs:208-210`. -/
def bumpTop (mode : Mode) : List (TraverseState T) → List (TraverseState T)
  | [] => []
  | s :: rest => s.nextPos mode :: rest

/-- The ranges computed in `read.rs:241-244` and `273-279`. -/
def rangeOf (mode : Mode) (offset count : Nat) : Nat × Nat :=
  match mode with
  | .forward => (offset, offset + count)
  | .backward => (offset - count, offset)

/-- `self.offset += count` / `self.offset -= count`; the latter panics on underflow. -/
def moveOffset (mode : Mode) (offset count : Nat) : M E Nat :=
  match mode with
  | .forward => pure (offset + count)
  | .backward =>
    if count ≤ offset then pure (offset - count) else throw (.panic "attempt to subtract with overflow")

/-- The result of one turn of the loop in `next_fallible`. -/
inductive StepRes (T : TreeTypes) (A : Type) where
  | done
  | cont (s : IterState T)
  | item (a : A) (s : IterState T)

/-- The data of the chunk made by `ChunkVisitor::leaf`, `read.rs:82-98`. -/
def visitLeafData (sec : Secrets E) (start : Nat) (index : LeafIndex T) (link : T.Link) (matching : List Bool) :
    M E (List (Nat × T.Key × V)) :=
  if anyTrue matching then do
    let leaf ← loadLeafM sec link
    let offsets := ((List.range matching.length).filter fun i => matching[i]? = some true).map (start + ·)
    let keys := T.keys.select index.keys matching
    let elems ← M.lift (ZSeq.select E leaf.items matching)
    pure (((offsets.zip keys).zip elems).map fun x => (x.1.1, x.1.2, x.2))
  else pure []

/-- `ChunkVisitor::leaf`, `read.rs:75-101`. -/
def visitLeaf (sec : Secrets E) (mkExtra : Index T → X) (range : Nat × Nat) (index : LeafIndex T) (link : T.Link)
    (matching : List Bool) : M E (Chunk T V X) := do
  let data ← visitLeafData sec range.1 index link matching
  pure ⟨range, data, mkExtra (.leaf index)⟩

/-- `TreeIter::skip`, `read.rs:204-217`, applied to the stack `top :: rest`. -/
def skipTop (mode : Mode) (mkExtra : Index T → X) (offset : Nat) (top : TraverseState T)
    (rest : List (TraverseState T)) (range : Nat × Nat) : M E (StepRes T (Chunk T V X)) := do
  let offset ← moveOffset mode offset top.index.count
  pure (.item ⟨range, [], mkExtra top.index⟩ ⟨offset, bumpTop mode rest⟩)

/-- The part of the loop body after the filter of a branch is known: `read.rs:268-294`. -/
def branchStep (sec : Secrets E) (mode : Mode) (mkExtra : Index T → X) (offset : Nat) (head : TraverseState T)
    (rest : List (TraverseState T)) (link : T.Link) : M E (StepRes T (Chunk T V X)) := do
  let branch ← loadBranchCached sec link
  let nextIdx := head.position.toNat
  match head.filter[nextIdx]?, branch.children[nextIdx]? with
  | some true, some child => pure (.cont ⟨offset, TraverseState.new child :: head :: rest⟩)
  | some false, some child => do
    let range := rangeOf mode offset child.count
    let offset ← moveOffset mode offset child.count
    pure (.item ⟨range, [], mkExtra child⟩ ⟨offset, head.nextPos mode :: rest⟩)
  | _, _ => throw (.panic "index out of bounds")

/-- One turn of the loop of `next_fallible`, `read.rs:222-320`. -/
def iterStep (sec : Secrets E) (query : Query T) (mode : Mode) (mkExtra : Index T → X) (s : IterState T) :
    M E (StepRes T (Chunk T V X)) :=
  match s.stack with
  | [] => pure .done
  | head :: rest =>
    if head.isExhausted mode then pure (.cont ⟨s.offset, bumpTop mode rest⟩)
    else
      let range := rangeOf mode s.offset head.index.count
      match head.index with
      | .branch b =>
        match b.link with
        | none => skipTop mode mkExtra s.offset head rest range
        | some link =>
          if head.filter.isEmpty then
            let filter := query.intersecting range.1 b (List.replicate (T.sums.len b.summaries) true)
            let position : Int := match mode with
              | .forward => 0
              | .backward => (T.sums.len b.summaries : Int) - 1
            if !(anyTrue filter) then skipTop mode mkExtra s.offset head rest range
            else branchStep sec mode mkExtra s.offset { head with filter, position } rest link
          else branchStep sec mode mkExtra s.offset head rest link
      | .leaf l =>
        match l.link with
        | none => skipTop mode mkExtra s.offset head rest range
        | some link => do
          let matching := query.containing range.1 l (List.replicate (T.keys.len l.keys) true)
          let result ← visitLeaf sec mkExtra range l link matching
          let offset ← moveOffset mode s.offset (T.keys.len l.keys)
          pure (.item result ⟨offset, bumpTop mode rest⟩)

/-- `next_fallible`, `read.rs:220-322`; the first argument bounds the number of turns of the loop. -/
def nextFallible (sec : Secrets E) (query : Query T) (mode : Mode) (mkExtra : Index T → X) :
    Nat → IterState T → M E (Option (Chunk T V X) × IterState T)
  | 0, _ => throw .fuel
  | fuel + 1, s => do
    match ← iterStep sec query mode mkExtra s with
    | .done => pure (none, s)
    | .cont s => nextFallible sec query mode mkExtra fuel s
    | .item a s => pure (some a, s)

/-- `Iterator::next`, `read.rs:335-345`. -/
def iterNext (sec : Secrets E) (query : Query T) (mode : Mode) (mkExtra : Index T → X) (fuel : Nat)
    (s : IterState T) : M E (Option (Except String (Chunk T V X)) × IterState T) := do
  match ← M.tryFail (nextFallible sec query mode mkExtra fuel s) with
  | .ok (some a, s) => pure (some (.ok a), s)
  | .ok (none, s) => pure (none, s)
  | .error msg => pure (some (.error msg), { s with stack := [] })

/-- A consumer calling `next` until it gets `None`, or until it has made `n` calls (first argument). The function
`between` is what happens to the world between the calls (nothing, or work of other users of the same store). -/
def iterTake (sec : Secrets E) (query : Query T) (mode : Mode) (mkExtra : Index T → X) (fuel : Nat)
    (between : Nat → St E → St E) :
    Nat → IterState T → M E (List (Except String (Chunk T V X)))
  | 0, _ => pure []
  | n + 1, s => do
    match ← iterNext sec query mode mkExtra fuel s with
    | (none, _) => pure []
    | (some a, s) => do
      modify (between n)
      let rest ← iterTake sec query mode mkExtra fuel between n s
      pure (a :: rest)

/-- `iter_filtered_chunked` / `iter_filtered_chunked_reverse` on a non-empty tree, `tree.rs:386-421`, `145-181`:
all that is delivered to a consumer making up to `n` calls. -/
def chunkedTake (sec : Secrets E) (query : Query T) (mode : Mode) (mkExtra : Index T → X) (fuel : Nat)
    (between : Nat → St E → St E) (n : Nat) (index : Index T) : M E (List (Except String (Chunk T V X))) :=
  iterTake sec query mode mkExtra fuel between n (IterState.new mode index)

/-- The `flat_map` of `iter_filtered0` and `iter_filtered_reverse0`, `read.rs:599-619`. -/
def flattenChunks (l : List (Except String (Chunk T V X))) : List (Except String (Nat × T.Key × V)) :=
  l.flatMap fun
    | .ok chunk => chunk.data.map .ok
    | .error cause => [.error cause]

end Banyan
