import Verif.Model.Prog
/-
One turn of the loop of `IndexIter::next` (`banyan/src/forest/index_iter.rs`) as a program, in order to run it among other threads. The
definitions are the same as in `Model/IndexIter.lean`.
-/
namespace Banyan.Prog

variable {T : TreeTypes}

/-- The part of the loop body after the filter of a branch is known: `index_iter.rs:155-174`. -/
def indexBranchStep (mode : Mode) (offset : Nat) (head : TraverseState T) (rest : List (TraverseState T))
    (branch : Branch T) : Prog T (StepRes T (Index T)) := do
  let nextIdx := head.position.toNat
  match head.filter[nextIdx]?, branch.children[nextIdx]? with
  | some true, some child => pure (.cont ⟨offset, TraverseState.new child :: head :: rest⟩)
  | some false, some child => do
    let offset ← moveOffset mode offset child.count
    pure (.cont ⟨offset, head.nextPos mode :: rest⟩)
  | _, _ => .stop (.panic "index out of bounds")

/-- The start offset of a branch, `index_iter.rs:142-145`. -/
def startOffsetOf (mode : Mode) (offset count : Nat) : Prog T Nat :=
  match mode with
  | .forward => pure offset
  | .backward => moveOffset mode offset count

/-- One turn of the loop of `next`, `index_iter.rs:107-210`. -/
def indexStep (query : Query T) (mode : Mode) (s : IterState T) : Prog T (StepRes T (Index T)) :=
  match s.stack with
  | [] => pure .done
  | head :: rest =>
    if head.isExhausted mode then pure (.cont ⟨s.offset, bumpTop mode rest⟩)
    else
      match head.index with
      | .branch b =>
        match b.link with
        | none => do
          let offset ← moveOffset mode s.offset b.count
          pure (.item head.index ⟨offset, bumpTop mode rest⟩)
        | some link => do
          let branch ← loadBranchCached link
          if head.filter.isEmpty then
            let position : Int := match mode with
              | .forward => 0
              | .backward => (branch.children.length : Int) - 1
            let startOffset ← startOffsetOf mode s.offset b.count
            let filter := query.intersecting startOffset b (List.replicate (T.sums.len b.summaries) true)
            pure (.item head.index ⟨s.offset, { head with filter, position } :: rest⟩)
          else indexBranchStep mode s.offset head rest branch
      | .leaf l => do
        let offset ← moveOffset mode s.offset (T.keys.len l.keys)
        pure (.item head.index ⟨offset, bumpTop mode rest⟩)

end Banyan.Prog
