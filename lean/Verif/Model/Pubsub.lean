import Verif.Model.Stream
/-
Sending a tree to other nodes by publishing the links of its roots: the commands `SendStream` and `RecvStream` of
`banyan-utils/src/bin/cli.rs`. The transport of the links is not modelled; what can arrive is described in
`Verif.Spec.Pubsub`.
-/
set_option autoImplicit false
namespace Banyan

variable {T : TreeTypes} {V : Type} {E : Env T V}

/-- The tree gets packed when its level is larger, `cli.rs:537`. -/
def packAbove : Nat := 100

/-- One turn of the loop of `SendStream`, `cli.rs:533-546`: append an element, pack the tree if it has become too deep, and
return the link to be published. The key and the value, which are computed from a counter, are arguments. -/
def sendTick (cx : Ctx E) (fuel : Nat) (x : T.Key × V) : M E (Option T.Link) := do
  extendUnpacked cx fuel [x]
  let root ← getIndex
  if rootLevel root > packAbove then pack cx fuel
  let root ← getIndex
  pure (rootLink root)

/-- The stream of trees in `RecvStream`, `cli.rs:505-517`: each link is loaded when it arrives; links that cannot be loaded are
left out. A panic ends the program, so that no more trees arrive. Each link comes with the state in which it is loaded and
the changes of the world from then on. -/
def recvTrees (sec : Secrets E) : List (St E × (Nat → St E → St E) × T.Link) → List (Arrival E)
  | [] => []
  | (w, world, l) :: links =>
    match loadTree sec l w with
    | .ok t _ => (world, t) :: recvTrees sec links
    | .error (.panic _) _ => []
    | .error _ _ => recvTrees sec links

/-- `RecvStream`, `cli.rs:503-522`: what is printed. -/
def recvStream (sec : Secrets E) (fuel n : Nat) (links : List (St E × (Nat → St E → St E) × T.Link)) :
    M E (List (Except String (Nat × T.Key × V))) :=
  streamTrees allQuery fuel n (recvTrees sec links)

end Banyan
