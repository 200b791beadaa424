import Verif.Spec.Observe
/-
The nodes of the tree of a builder and their blocks.
-/
set_option autoImplicit false
namespace Banyan

variable {T : TreeTypes} {V : Type}

/-- The tree of the builder, with everything loaded. There is at most one (`Shows.unique`), and for reachable states
there is one unless the tree is empty (`Reach.shows`). -/
structure Shows {E : Env T V} (cx : Ctx E) (s : St E) (t : PTree T V) : Prop where
  root : s.root = some t.index
  stored : Stored E cx.sec s.store t

/-- The parts of a block that can be read without keys: cipher offset, links, encrypted payload. -/
def envelope (E : Env T V) (σ : E.σ) (l : T.Link) : Option (Nat × List Cid × Bytes) :=
  match E.get σ l with
  | .ok b =>
    match E.decNode b with
    | .ok x => some x
    | .error _ => none
  | .error _ => none

/-- The blocks that can be found from the block `r` by following the link sections. -/
inductive Found (E : Env T V) (σ : E.σ) (r : T.Link) : T.Link → Prop
  | root : Found E σ r r
  | step {l l' : T.Link} {o : Nat} {links : List Cid} {d : Bytes} : Found E σ r l → envelope E σ l = some (o, links, d) →
      E.cid l' ∈ links → Found E σ r l'

/-- The compressed size of a leaf: the size of the payload of its block. -/
def leafSize (E : Env T V) (σ : E.σ) : PTree T V → Nat
  | .leaf i _ =>
    match i.link.bind (envelope E σ) with
    | some (_, _, d) => d.length
    | none => 0
  | _ => 0

/-- The encoded size of a branch: the size of its block. -/
def branchSize (E : Env T V) (σ : E.σ) : PTree T V → Nat
  | .branch i _ =>
    match i.link with
    | some l =>
      match E.get σ l with
      | .ok b => b.length
      | .error _ => 0
    | none => 0
  | _ => 0

/-- The states a builder can get into without `retain` (unless rolled back). -/
inductive Appended {E : Env T V} : Ctx E → St E → Prop
  | fresh {cx : Ctx E} (s : St E) : s.root = none → Coherent E cx.sec s → Appended cx s
  | extend {cx : Ctx E} {s : St E} (fuel : Nat) (xs : List (T.Key × V)) : Appended cx s → rootLevel s.root < fuel →
      rootCount s.root + xs.length ≤ maxElements → Appended cx (endState (extend cx fuel xs) s)
  | extendUnpacked {cx : Ctx E} {s : St E} (fuel : Nat) (xs : List (T.Key × V)) : Appended cx s → rootLevel s.root < fuel →
      rootCount s.root + xs.length ≤ maxElements → Appended cx (endState (extendUnpacked cx fuel xs) s)
  | pack {cx : Ctx E} {s : St E} (fuel : Nat) : Appended cx s → rootLevel s.root < fuel → Appended cx (endState (pack cx fuel) s)
  | rollback {cx : Ctx E} {s s' : St E} : Appended cx s → Run cx s s' → Appended cx { s' with root := s.root }
  | world {cx : Ctx E} {s : St E} (σ : E.σ) (γ : E.γ) : Appended cx s → StoreLe E s.store σ →
      Coherent E cx.sec { s with store := σ, cache := γ } → Appended cx { s with store := σ, cache := γ }
  | load {cx : Ctx E} {cfg' : Config} {s : St E} (i : BranchIndex T) (l : T.Link) : cfg'.Valid → Appended ⟨cfg', cx.sec⟩ s → s.root = some (.branch i) → i.link = some l →
      Appended cx (endState (loadStreamBuilder cx l) s)

end Banyan
