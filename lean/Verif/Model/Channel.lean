import Verif.Model.Stream
/-
`stream_trees_chunked_threaded` (`banyan/src/forest/stream.rs:87-135`) with its background tasks and channels
(`banyan/src/util.rs:91-112`).

The consumer (who polls the stream), the background task, and the rest of the world take turns in any order. One turn is what
happens between two accesses to shared data: a call of `next` of the iterator, an update of the offset, an operation of the
channel. The thread pool is not modelled: any task may go on at any time.

The channel is `futures::channel::mpsc::channel(capacity)` of the crate `futures` (0.3.19, not part of the repository). With one
sender it has room for `capacity + 1` items. `send(item).await` waits until there are no more than `capacity` items, adds the item, and
again waits until there are no more than `capacity` items. If the receiver has been dropped then sending fails.
-/
set_option autoImplicit false
namespace Banyan

variable {T : TreeTypes} {V : Type} {E : Env T V} {X : Type}

/-- The background task, `util.rs:103-109`, running the iterator of `stream.rs:119-131`. -/
inductive Worker (T : TreeTypes) (V X : Type) where
  /-- about to call `next` of the tree iterator -/
  | running (it : IterState T)
  /-- about to update the offset, `stream.rs:125-128` -/
  | counting (it : IterState T) (chunk : Chunk T V X)
  /-- waiting to send, `util.rs:105` -/
  | sending (it : IterState T) (chunk : Chunk T V X)
  /-- has sent, but `send` is still waiting -/
  | flushing (it : IterState T)
  /-- the loop has ended and the sender has been dropped -/
  | done

/-- The inner stream of `flat_map`, `stream.rs:114-133`: the receiving end of a channel. -/
structure Pipe (E : Env T V) (X : Type) where
  tree : Index T × Secrets E × Nat
  query : Query T
  worker : Worker T V X
  /-- the items in the channel -/
  buffer : List (Chunk T V X)

/-- The stream that is returned by `stream_trees_chunked_threaded`, with its consumer and the world. -/
structure Threaded (E : Env T V) (X : Type) where
  /-- the rest of the input stream -/
  trees : List (Tree E)
  pipe : Option (Pipe E X)
  /-- the shared offset, `stream.rs:110` -/
  offset : Nat
  /-- what the consumer has got -/
  out : List (Chunk T V X)
  /-- the consumer has got `None` -/
  ended : Bool
  /-- the consumer has dropped the stream -/
  dropped : Bool
  /-- store and caches -/
  world : St E

/-- `stream_trees_chunked_threaded`, `stream.rs:110-113`. -/
def Threaded.new (trees : List (Tree E)) (start : Nat) (world : St E) : Threaded E X :=
  ⟨trees, none, start, [], false, false, world⟩

/-- The parameters of `stream_trees_chunked_threaded` (`range.end()` is `stop`), the size of the channel (1 in the code), and the maximum
number of turns of the loop in one call of `next`. -/
structure ThreadedParams (T : TreeTypes) (X : Type) where
  query : Query T
  mkExtra : Index T → X
  stop : Nat
  capacity : Nat
  fuel : Nat

variable (P : ThreadedParams T X)

/-- A turn of the background task; `none` if there is no task or it has to wait. A panic in `next` is not covered: there is no turn. -/
def Threaded.workerStep (S : Threaded E X) : Option (Threaded E X) :=
  match S.pipe with
  | none => none
  | some p =>
    match p.worker with
    | .running it =>
      match iterNext p.tree.2.1 p.query .forward P.mkExtra P.fuel it S.world with
      | .ok (some (.ok chunk), it) w => some { S with world := w, pipe := some { p with worker := .counting it chunk } }
      | .ok _ w => some { S with world := w, pipe := some { p with worker := .done } }
      | .error _ _ => none
    | .counting it chunk =>
      some { S with offset := max S.offset chunk.range.2, pipe := some { p with worker := .sending it chunk } }
    | .sending it chunk =>
      if S.dropped then some { S with pipe := some { p with worker := .done } }
      else if p.buffer.length ≤ P.capacity then
        some { S with pipe := some { p with worker := .flushing it, buffer := p.buffer ++ [chunk] } }
      else none
    | .flushing it =>
      if S.dropped ∨ p.buffer.length ≤ P.capacity then some { S with pipe := some { p with worker := .running it } }
      else none
    | .done => none

/-- A turn of the consumer; `none` if it has to wait, or if it does not want any more. -/
def Threaded.consumerStep (S : Threaded E X) : Option (Threaded E X) :=
  if S.dropped ∨ S.ended then none
  else
    match S.pipe with
    | some p =>
      match p.buffer with
      | chunk :: rest => some { S with out := S.out ++ [chunk], pipe := some { p with buffer := rest } }
      | [] =>
        match p.worker with
        | .done => some { S with pipe := none }
        | _ => none
    | none =>
      match S.trees with
      | [] => some { S with ended := true }
      | none :: trees => some { S with trees := trees }
      | some tree :: trees =>
        some { S with
          trees := trees
          pipe := some
            { tree := tree
              query := andQuery (offsetRangeQuery (RangeB.closed S.offset P.stop)) P.query
              worker := .running (IterState.new .forward tree.1)
              buffer := [] } }

/-- The consumer drops the stream. The receiver drops the items in the channel. -/
def Threaded.dropStep (S : Threaded E X) : Option (Threaded E X) :=
  if S.dropped then none else some { S with dropped := true, pipe := S.pipe.map fun p => { p with buffer := [] } }

/-- Whose turn it is. -/
inductive Actor (E : Env T V) where
  | worker
  | consumer
  | drop
  | world (s : St E)

def Threaded.step (S : Threaded E X) : Actor E → Option (Threaded E X)
  | .worker => S.workerStep P
  | .consumer => S.consumerStep P
  | .drop => S.dropStep
  | .world s => some { S with world := s }

end Banyan
