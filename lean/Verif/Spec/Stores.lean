import Verif.Model.MemCache
/-
Specification of block stores: what callers see of a sequence of calls, and the steps of several threads.
-/
set_option autoImplicit false
namespace Banyan

variable {L : Type}

/-- A call to a block store. -/
inductive Call (L : Type) where
  | put (data : Bytes)
  | get (link : L)

/-- What a call has returned. -/
inductive Answer (L : Type) where
  | stored (r : Except String L)
  | got (r : Except String Bytes)

namespace BlockStore
variable (I : BlockStore L)

/-- One call. -/
def call (s : I.σ) : Call L → Answer L × I.σ
  | .put d => (.stored (I.put s d).1, (I.put s d).2)
  | .get l => (.got (I.get s l), s)

/-- The calls with their answers. -/
def log (s : I.σ) : List (Call L) → List (Call L × Answer L)
  | [] => []
  | c :: cs => (c, (I.call s c).1) :: log (I.call s c).2 cs

/-- The state after the calls. -/
def after (s : I.σ) : List (Call L) → I.σ
  | [] => s
  | c :: cs => after (I.call s c).2 cs

end BlockStore

/-- The data were put successfully and the caller has received the link. -/
def Holds (log : List (Call L × Answer L)) (d : Bytes) (l : L) : Prop := (.put d, .stored (.ok l)) ∈ log

/-- No two different blocks among the ones of these calls have the same digest. -/
def CollisionFree (digest : Bytes → L) (calls : List (Call L)) : Prop :=
  ∀ d d', .put d ∈ calls → .put d' ∈ calls → digest d = digest d' → d = d'

/-- The total size of some blocks. -/
def totalSize (ds : List Bytes) : Nat := (ds.map List.length).sum

/-- A content-addressed store that never forgets, for the states with an invariant. -/
structure ContentAddressed (I : BlockStore L) (Inv : I.σ → Prop) : Prop where
  keep : ∀ s d, Inv s → Inv (I.put s d).2
  put_ok : ∀ s d l, Inv s → (I.put s d).1 = .ok l → I.get (I.put s d).2 l = .ok d
  put_mono : ∀ s d l b, Inv s → I.get s l = .ok b → I.get (I.put s d).2 l = .ok b

/-- Any cache: it contains at most what was put, in the last version, and may forget anything at any time. -/
structure BlockCache.Lawful (W : BlockCache L) : Prop where
  new_empty : ∀ n l, (W.get (W.new n) l).1 = none
  get_sub : ∀ c l l' b, (W.get (W.get c l).2 l').1 = some b → (W.get c l').1 = some b
  put_sub : ∀ c l b l' b', (W.get (W.put c l b) l').1 = some b' → (l' = l ∧ b' = b) ∨ (W.get c l').1 = some b'

section Threads
variable {I : BlockStore L} {W : BlockCache L}

/-- What a thread can start with. Only blocks of the inner store may be offered. -/
def Task.Fresh (inner : I.σ) : Task L → Prop
  | .get _ => True
  | .put _ => True
  | .foreign _ => True
  | .offer l d => I.get inner l = .ok d
  | _ => False

/-- A thread is started, or some thread makes a step. -/
inductive Threads.Goes : Threads I W → Option (Shown L) → Threads I W → Prop where
  | spawn (t : Threads I W) (task : Task L) : task.Fresh t.shared.inner → Goes t none ⟨t.shared, t.tasks ++ [task]⟩
  | run (t : Threads I W) (i : Nat) (shown : Option (Shown L)) (t' : Threads I W) : t.run i = some (shown, t') → Goes t shown t'

/-- All that can happen between two moments. -/
inductive Threads.Later : Threads I W → Threads I W → Prop where
  | refl (t : Threads I W) : Later t t
  | step {t t' t'' : Threads I W} {shown : Option (Shown L)} : Later t t' → Threads.Goes t' shown t'' → Later t t''

/-- Everything reachable from a new cache. -/
def Threads.Reachable (Inv : I.σ → Prop) (t : Threads I W) : Prop :=
  ∃ (inner : I.σ) (maxSize capacity : Nat), Inv inner ∧ Threads.Later ⟨MemCache.new inner maxSize capacity, []⟩ t

/-- The calls with their answers, through the cache. -/
def MemCache.log (c : MemCache I W) : List (Call L) → List (Call L × Answer L)
  | [] => []
  | .put d :: cs => (.put d, .stored (c.put d).1) :: log (c.put d).2 cs
  | .get l :: cs => (.get l, .got (c.get l).1) :: log (c.get l).2 cs

end Threads

end Banyan
