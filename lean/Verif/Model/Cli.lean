import Verif.Model.Dump
import Verif.Model.Pubsub
/-
Commands of the tool, `banyan-utils/src/bin/cli.rs`. What is printed is returned.

Parameters: the keys made out of passwords, and the key and the value for each number (`cli.rs:232-246, 262-263`).
Not modelled: progress messages, times, `Bench` after building.
-/
set_option autoImplicit false
namespace Banyan

variable {T : TreeTypes} {V : Type} {E : Env T V}

/-- What the commands need: `create_chacha_key` and the default key (`cli.rs:352-353`, `Secrets::default`, `forest/mod.rs:166-173`), and the element
that is added with a number. -/
structure Tool (E : Env T V) where
  keyOf : String → E.CKey
  zeroKey : E.CKey
  element : Nat → T.Key × V

/-- The options `index_pass` and `value_pass`, `cli.rs:75-80`. -/
structure Passwords where
  index : Option String
  value : Option String

namespace Tool

/-- `secrets` in `main`, `cli.rs:352-355`. -/
def secrets (tl : Tool E) (pw : Passwords) : Secrets E := ⟨(pw.index.map tl.keyOf).getD tl.zeroKey, (pw.value.map tl.keyOf).getD tl.zeroKey⟩

/-- `Secrets::default()` -/
def defaultSecrets (tl : Tool E) : Secrets E := ⟨tl.zeroKey, tl.zeroKey⟩

/-- `StreamBuilder::new`, `stream_builder.rs:117-120`: an empty tree with offset 0. -/
def newBuilder : M E Unit := fun s => .ok () { s with root := none, offset := 0 }

/-- The batches of `build_tree`, `cli.rs:252-271`, and of `bench_build`, `cli.rs:304-328`. -/
def buildLoop (tl : Tool E) (cx : Ctx E) (fuel count : Nat) (unbalanced : Bool) : Nat → Nat → M E Unit
  | 0, _ => pure ()
  | batches + 1, offset => do
    let v := (List.range count).map fun i => tl.element (offset + i)
    if unbalanced then extendUnpacked cx fuel v else extend cx fuel v
    assertInvariants cx fuel
    buildLoop tl cx fuel count unbalanced batches (offset + count)

/-- `build_tree`, `cli.rs:222-273`, and `bench_build`, `cli.rs:275-331`, with the secrets and the configuration. -/
def buildWith (tl : Tool E) (cx : Ctx E) (fuel : Nat) (base : Option T.Link) (batches count : Nat) (unbalanced : Bool) : M E Unit := do
  match base with
  | some root => loadStreamBuilder cx root
  | none => newBuilder
  buildLoop tl cx fuel count unbalanced batches 0

/-- `Build`, `cli.rs:398-410`: `build_tree` uses the default secrets (`cli.rs:230`), whatever the passwords are. -/
def build (tl : Tool E) (_ : Passwords) (fuel : Nat) (base : Option T.Link) (batches count : Nat) (unbalanced : Bool) :
    M E (List (Nat × NodeLine T.Link)) := do
  let cx : Ctx E := ⟨Config.debug, tl.defaultSecrets⟩
  tl.buildWith cx fuel base batches count unbalanced
  fun s => Tree.dump fuel (snapshot cx s) s

/-- `Dump`, `cli.rs:369-372`. -/
def dump (tl : Tool E) (pw : Passwords) (fuel : Nat) (root : T.Link) : M E (List (Nat × NodeLine T.Link)) := do
  let tree ← loadTree (tl.secrets pw) root
  Tree.dump fuel tree

/-- `Graph`, `cli.rs:364-368`: what is handed to the renderer. -/
def graph (tl : Tool E) (pw : Passwords) (fuel : Nat) (root : T.Link) :
    M E (List NodeDescriptor × List (NodeDescriptor × NodeDescriptor)) := do
  let tree ← loadTree (tl.secrets pw) root
  Tree.graph fuel tree

/-- The loop in `DumpValues`, `cli.rs:376-379`: it ends with the first error. -/
def printValues : List (Except String (Nat × T.Key × V)) → M E (List (Nat × T.Key × V))
  | [] => pure []
  | .error e :: _ => throw (.fail e)
  | .ok x :: rest => do
    let l ← printValues rest
    pure (x :: l)

/-- `DumpValues`, `cli.rs:373-380`; at most `n` chunks are looked at, others can change the store in between. -/
def dumpValues (tl : Tool E) (pw : Passwords) (between : Nat → St E → St E) (n fuel : Nat) (root : T.Link) : M E (List (Nat × T.Key × V)) := do
  let tree ← loadTree (tl.secrets pw) root
  let items ← Tree.elements allQuery .forward between n fuel tree
  printValues items

/-- The loops in `Stream` and `Filter`, `cli.rs:391-396, 477-482`: the items are numbered, and those with a number divisible by 1000 are printed. The
first error ends the loop, like the end of the stream. The first argument is the next number. -/
def printSome : Nat → List (Except String (Nat × T.Key × V)) → List (Nat × T.Key × V)
  | _, [] => []
  | _, .error _ :: _ => []
  | i, .ok x :: rest => if i % 1000 = 0 then x :: printSome (i + 1) rest else printSome (i + 1) rest

/-- `Stream`, `cli.rs:389-397`. -/
def stream (tl : Tool E) (pw : Passwords) (between : Nat → St E → St E) (n fuel : Nat) (root : T.Link) : M E (List (Nat × T.Key × V)) := do
  let tree ← loadTree (tl.secrets pw) root
  let items ← Tree.elements allQuery .forward between n fuel tree
  pure (printSome 0 items)

/-- `Filter`, `cli.rs:466-483`, with the default secrets; the query made out of the tags is an argument. -/
def filter (tl : Tool E) (_ : Passwords) (query : Query T) (between : Nat → St E → St E) (n fuel : Nat) (root : T.Link) :
    M E (List (Nat × NodeLine T.Link) × List (Nat × T.Key × V)) := do
  let cx : Ctx E := ⟨Config.debug, tl.defaultSecrets⟩
  loadStreamBuilder cx root
  let lines ← (fun s => Tree.dump fuel (snapshot cx s) s : M E (List (Nat × NodeLine T.Link)))
  let items ← (fun s => Tree.elements query .forward between n fuel (snapshot cx s) s : M E (List (Except String (Nat × T.Key × V))))
  pure (lines, printSome 0 items)

/-- One turn of `SendStream`, `cli.rs:529-549`, with the secrets of the passwords and `debug_fast`. -/
def send (tl : Tool E) (pw : Passwords) (fuel : Nat) (x : T.Key × V) : M E (Option T.Link) := sendTick ⟨Config.debugFast, tl.secrets pw⟩ fuel x

/-- `RecvStream`, `cli.rs:503-522`, with the default secrets (`cli.rs:504`), whatever the passwords are. -/
def receive (tl : Tool E) (_ : Passwords) (fuel n : Nat) (links : List (St E × (Nat → St E → St E) × T.Link)) :
    M E (List (Except String (Nat × T.Key × V))) := recvStream tl.defaultSecrets fuel n links

/-- `Forget`, `cli.rs:484-491`, with the default secrets. -/
def forget (tl : Tool E) (_ : Passwords) (fuel : Nat) (root : T.Link) (before : Nat) : M E (List (Nat × NodeLine T.Link)) := do
  let cx : Ctx E := ⟨Config.debug, tl.defaultSecrets⟩
  loadStreamBuilder cx root
  retain cx fuel (offsetRangeQuery ⟨.included before, .unbounded⟩)
  fun s => Tree.dump fuel (snapshot cx s) s

/-- `Pack`, `cli.rs:492-502`, with the default secrets; both dumps are returned. -/
def packTree (tl : Tool E) (_ : Passwords) (fuel : Nat) (root : T.Link) :
    M E (List (Nat × NodeLine T.Link) × List (Nat × NodeLine T.Link)) := do
  let cx : Ctx E := ⟨Config.debug, tl.defaultSecrets⟩
  loadStreamBuilder cx root
  let before ← (fun s => Tree.dump fuel (snapshot cx s) s : M E (List (Nat × NodeLine T.Link)))
  pack cx fuel
  assertInvariants cx fuel
  let packed ← (fun s => Tree.isPacked fuel (snapshot cx s) s : M E Bool)
  if !packed then throw (.panic "assertion failed: forest.is_packed(&tree.snapshot())?")
  let after ← (fun s => Tree.dump fuel (snapshot cx s) s : M E (List (Nat × NodeLine T.Link)))
  pure (before, after)

/-- `Repair`, `cli.rs:523-528`, with the secrets of the passwords and `debug_fast`. -/
def repairTree (tl : Tool E) (pw : Passwords) (fuel : Nat) (root : T.Link) : M E (List (Nat × NodeLine T.Link)) := do
  let cx : Ctx E := ⟨Config.debugFast, tl.secrets pw⟩
  loadStreamBuilder cx root
  let _ ← repair cx fuel
  fun s => Tree.dump fuel (snapshot cx s) s

end Tool

end Banyan
