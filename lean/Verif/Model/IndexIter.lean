import Verif.Model.Iter
/-
The stack machine `IndexIter`: `banyan/src/forest/index_iter.rs`. `TraverseState` and `Mode` are the same as in
`read.rs` (`index_iter.rs:10-57`).
-/
namespace Banyan

variable {T : TreeTypes} {V : Type} {E : Env T V}

/-- The part of the loop body after the filter of a branch is known: `index_iter.rs:155-174`. -/
def indexBranchStep (mode : Mode) (offset : Nat) (head : TraverseState T) (rest : List (TraverseState T))
    (branch : Branch T) : M E (StepRes T (Index T)) := do
  let nextIdx := head.position.toNat
  match head.filter[nextIdx]?, branch.children[nextIdx]? with
  | some true, some child => pure (.cont ⟨offset, TraverseState.new child :: head :: rest⟩)
  | some false, some child => do
    let offset ← moveOffset mode offset child.count
    pure (.cont ⟨offset, head.nextPos mode :: rest⟩)
  | _, _ => throw (.panic "index out of bounds")

/-- The start offset of a branch, `index_iter.rs:142-145`. -/
def startOffsetOf (mode : Mode) (offset count : Nat) : M E Nat :=
  match mode with
  | .forward => pure offset
  | .backward => moveOffset mode offset count

/-- One turn of the loop of `next`, `index_iter.rs:107-210`. An error leaves the stack as it is. -/
def indexStep (sec : Secrets E) (query : Query T) (mode : Mode) (s : IterState T) : M E (StepRes T (Index T)) :=
  match s.stack with
  | [] => pure .done
  | head :: rest =>
    if head.isExhausted mode then pure (.cont ⟨s.offset, bumpTop mode rest⟩)
    else
      match head.index with
      | .branch b =>
        match b.link with
        | none => do
          let offset ← moveOffset mode s.offset b.count
          pure (.item head.index ⟨offset, bumpTop mode rest⟩)
        | some link => do
          let branch ← loadBranchCached sec link
          if head.filter.isEmpty then
            let position : Int := match mode with
              | .forward => 0
              | .backward => (branch.children.length : Int) - 1
            let startOffset ← startOffsetOf mode s.offset b.count
            let filter := query.intersecting startOffset b (List.replicate (T.sums.len b.summaries) true)
            pure (.item head.index ⟨s.offset, { head with filter, position } :: rest⟩)
          else indexBranchStep mode s.offset head rest branch
      | .leaf l => do
        let offset ← moveOffset mode s.offset (T.keys.len l.keys)
        pure (.item head.index ⟨offset, bumpTop mode rest⟩)

/-- The loop of `next`. Within one call, the state at the moment of an error is the state the loop has reached, so the
state is returned also with the error. -/
def indexNext (sec : Secrets E) (query : Query T) (mode : Mode) :
    Nat → IterState T → M E (Option (Except String (Index T)) × IterState T)
  | 0, _ => throw .fuel
  | fuel + 1, s => do
    match ← M.tryFail (indexStep sec query mode s) with
    | .ok .done => pure (none, s)
    | .ok (.cont s) => indexNext sec query mode fuel s
    | .ok (.item a s) => pure (some (.ok a), s)
    | .error msg => pure (some (.error msg), s)

/-- A consumer of `iter_index` / `iter_index_reverse` (`tree.rs:327-353`) making up to `n` calls of `next`. -/
def indexTake (sec : Secrets E) (query : Query T) (mode : Mode) (fuel : Nat) (between : Nat → St E → St E) :
    Nat → IterState T → M E (List (Except String (Index T)))
  | 0, _ => pure []
  | n + 1, s => do
    match ← indexNext sec query mode fuel s with
    | (none, _) => pure []
    | (some a, s) => do
      modify (between n)
      let rest ← indexTake sec query mode fuel between n s
      pure (a :: rest)

end Banyan
