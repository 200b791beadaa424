import Verif.Model.Builder
/-
`banyan/src/forest/stream.rs`: streams over a sequence of trees.

The combinators `flat_map`, `take_while` (with the update of the shared offset as a side effect) and
`take_until_condition` are fused into one loop that performs exactly the calls of the lazy streams in their order.

The input stream is a finite list. Since streams are lazy, anything can happen to the world before each call of `next`:
blocks can be added, caches can be filled or cleared, blocks can become unavailable. This is part of the input.
-/
namespace Banyan

variable {T : TreeTypes} {V : Type} {E : Env T V} {X : Type}

/-- A tree coming out of the input stream, with what happens to the world before each call of `next` on its iterator. -/
abbrev Arrival (E : Env T V) := (Nat → St E → St E) × Tree E

/-- Why the loop over one tree ended. -/
inductive TreeEnd where
  /-- the iterator of this tree is exhausted, or it has produced an error (`take_while`): go on with the next tree -/
  | next
  /-- the condition of `take_until_condition` was met -/
  | stop
deriving DecidableEq

/-- One tree of `stream_trees_chunked`, `stream.rs:65-84`. First argument: maximum number of calls of `next`.
Returns the delivered chunks, the shared offset and why the loop ended. -/
def streamTree (world : Nat → St E → St E) (sec : Secrets E) (query : Query T) (mkExtra : Index T → X) (fuel : Nat) (end_ : Nat) :
    Nat → IterState T → Nat → M E (List (Except String (Chunk T V X)) × Nat × TreeEnd)
  | 0, _, _ => throw .fuel
  | n + 1, it, start => do
    modify (world n)
    match ← iterNext sec query .forward mkExtra fuel it with
    | (none, _) => pure ([], start, .next)
    | (some (.error _), _) => pure ([], start, .next)
    | (some (.ok chunk), it) =>
      let start := max start chunk.range.2
      if chunk.range.2 > end_ then pure ([.ok chunk], start, .stop)
      else do
        let (rest, start, e) ← streamTree world sec query mkExtra fuel end_ n it start
        pure (.ok chunk :: rest, start, e)

/-- `stream_trees_chunked`, `stream.rs:41-85`, for a finite sequence of trees. The `Err` items never get past the
`take_while`, so the loop over one tree ends without delivering them. -/
def streamTreesChunked (query : Query T) (mkExtra : Index T → X) (fuel n : Nat) (end_ : Nat) :
    List (Arrival E) → Nat → M E (List (Except String (Chunk T V X)))
  | [], _ => pure []
  | (_, none) :: trees, start => streamTreesChunked query mkExtra fuel n end_ trees start
  | (world, some (index, sec, _)) :: trees, start => do
    let q := andQuery (offsetRangeQuery (RangeB.closed start end_)) query
    let (chunks, start, e) ← streamTree world sec q mkExtra fuel end_ n (IterState.new .forward index) start
    match e with
    | .stop => pure chunks
    | .next => do
      let rest ← streamTreesChunked query mkExtra fuel n end_ trees start
      pure (chunks ++ rest)

/-- `stream_trees`, `stream.rs:20-33`. -/
def streamTrees (query : Query T) (fuel n : Nat) (trees : List (Arrival E)) : M E (List (Except String (Nat × T.Key × V))) := do
  let chunks ← streamTreesChunked query (fun _ => ()) fuel n (2 ^ 64 - 1) trees 0
  pure (flattenChunks chunks)

/-- One tree of `stream_trees_chunked_reverse`, `stream.rs:163-193`. -/
def streamTreeRev (world : Nat → St E → St E) (sec : Secrets E) (query : Query T) (mkExtra : Index T → X) (fuel : Nat) (start : Nat) :
    Nat → IterState T → Nat → M E (List (Except String (Chunk T V X)) × Nat × TreeEnd)
  | 0, _, _ => throw .fuel
  | n + 1, it, end_ => do
    modify (world n)
    match ← iterNext sec query .backward mkExtra fuel it with
    | (none, _) => pure ([], end_, .next)
    | (some (.error _), _) => pure ([], end_, .next)
    | (some (.ok chunk), it) =>
      let end_ := min end_ chunk.range.1
      if chunk.range.1 ≤ start then pure ([.ok chunk], end_, .stop)
      else do
        let (rest, end_, e) ← streamTreeRev world sec query mkExtra fuel start n it end_
        pure (.ok chunk :: rest, end_, e)

/-- `stream_trees_chunked_reverse`, `stream.rs:142-194`. -/
def streamTreesChunkedReverse (query : Query T) (mkExtra : Index T → X) (fuel n : Nat) (start : Nat) :
    List (Arrival E) → Nat → M E (List (Except String (Chunk T V X)))
  | [], _ => pure []
  | (_, none) :: trees, end_ => streamTreesChunkedReverse query mkExtra fuel n start trees end_
  | (world, some (index, sec, _)) :: trees, end_ => do
    let q := andQuery (offsetRangeQuery (RangeB.closed start end_)) query
    let (chunks, end_, e) ← streamTreeRev world sec q mkExtra fuel start n (IterState.new .backward index) end_
    match e with
    | .stop => pure chunks
    | .next => do
      let rest ← streamTreesChunkedReverse query mkExtra fuel n start trees end_
      pure (chunks ++ rest)

/-- One tree of `stream_trees_chunked_threaded`, `stream.rs:112-133`, without the channel: the items the background
task sends. -/
def streamTreeThreaded (world : Nat → St E → St E) (sec : Secrets E) (query : Query T) (mkExtra : Index T → X) (fuel : Nat) :
    Nat → IterState T → Nat → M E (List (Except String (Chunk T V X)) × Nat)
  | 0, _, _ => throw .fuel
  | n + 1, it, offset => do
    modify (world n)
    match ← iterNext sec query .forward mkExtra fuel it with
    | (none, _) => pure ([], offset)
    | (some (.error _), _) => pure ([], offset)
    | (some (.ok chunk), it) => do
      let (rest, offset) ← streamTreeThreaded world sec query mkExtra fuel n it (max offset chunk.range.2)
      pure (.ok chunk :: rest, offset)

/-- `stream_trees_chunked_threaded`, `stream.rs:94-135`, without the channel (see `Channel.lean` for the channel). -/
def streamTreesThreaded (query : Query T) (mkExtra : Index T → X) (fuel n : Nat) (end_ : Nat) :
    List (Arrival E) → Nat → M E (List (Except String (Chunk T V X)))
  | [], _ => pure []
  | (_, none) :: trees, offset => streamTreesThreaded query mkExtra fuel n end_ trees offset
  | (world, some (index, sec, _)) :: trees, offset => do
    let q := andQuery (offsetRangeQuery (RangeB.closed offset end_)) query
    let (chunks, offset) ← streamTreeThreaded world sec q mkExtra fuel n (IterState.new .forward index) offset
    let rest ← streamTreesThreaded query mkExtra fuel n end_ trees offset
    pure (chunks ++ rest)

end Banyan
