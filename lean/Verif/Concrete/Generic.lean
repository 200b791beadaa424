import Verif.Concrete.Env
import Verif.Spec.Observe
/-
The concrete environment for arbitrary tree types whose sequences can be written as lists of numbers. Nothing in this
file corresponds to code in the repository.
-/
set_option autoImplicit false
namespace Banyan.Concrete

/-- A way to write values as numbers. -/
structure Serial (β : Type) where
  enc : β → List Nat
  dec : List Nat → Option (β × List Nat)
  rt : ∀ b r, dec (enc b ++ r) = some (b, r)

namespace Serial

variable {β γ : Type}

def nat : Serial Nat where
  enc := fun n => [n]
  dec := fun
    | [] => none
    | n :: r => some (n, r)
  rt := fun _ _ => rfl

def pair (s : Serial β) (t : Serial γ) : Serial (β × γ) where
  enc := fun x => s.enc x.1 ++ t.enc x.2
  dec := fun l =>
    match s.dec l with
    | none => none
    | some (a, l) =>
      match t.dec l with
      | none => none
      | some (b, l) => some ((a, b), l)
  rt := by
    rintro ⟨a, b⟩ r
    simp only [List.append_assoc, s.rt, t.rt]

/-- A value that is determined by another one. -/
def via (s : Serial γ) (f : β → γ) (g : γ → Option β) (h : ∀ b, g (f b) = some b) : Serial β where
  enc := fun x => s.enc (f x)
  dec := fun l =>
    match s.dec l with
    | none => none
    | some (c, l) =>
      match g c with
      | none => none
      | some b => some (b, l)
  rt := by
    intro b r
    simp only [s.rt, h]

def decMany (s : Serial β) : Nat → List Nat → Option (List β × List Nat)
  | 0, l => some ([], l)
  | n + 1, l =>
    match s.dec l with
    | none => none
    | some (a, l) =>
      match decMany s n l with
      | none => none
      | some (as, l) => some (a :: as, l)

theorem decMany_rt (s : Serial β) (bs : List β) (r : List Nat) : decMany s bs.length (bs.flatMap s.enc ++ r) = some (bs, r) := by
  induction bs with
  | nil => rfl
  | cons b bs ih =>
    simp only [List.length_cons, decMany, List.flatMap_cons, List.append_assoc, s.rt, ih]

def list (s : Serial β) : Serial (List β) where
  enc := fun l => l.length :: l.flatMap s.enc
  dec := fun
    | [] => none
    | n :: r => decMany s n r
  rt := fun bs r => by simp only [List.cons_append, decMany_rt]

end Serial

/-- Tree types with numbers as links. -/
structure Params where
  Key : Type
  Summary : Type
  keys : CompactSeq Key
  sums : CompactSeq Summary
  sumKeys : keys.Carrier → Summary
  sumSums : sums.Carrier → Summary
  sumDec : DecidableEq Summary
  keysS : Serial keys.Carrier
  sumsS : Serial sums.Carrier

namespace Params

variable (P : Params)

def types : TreeTypes where
  Key := P.Key
  Summary := P.Summary
  Link := Nat
  keys := P.keys
  sums := P.sums
  sumKeys := P.sumKeys
  sumSums := P.sumSums
  linkDec := inferInstanceAs (DecidableEq Nat)
  sumDec := P.sumDec

def linkNat : Option Nat → Nat
  | none => 0
  | some l => l + 1

def idxNats : Index P.types → List Nat
  | .leaf i => 0 :: (if i.isSealed then 1 else 0) :: linkNat i.link :: i.valueBytes :: P.keysS.enc i.keys
  | .branch i => 1 :: (if i.isSealed then 1 else 0) :: linkNat i.link :: i.count :: i.level :: i.valueBytes :: i.keyBytes ::
      P.sumsS.enc i.summaries

def natsIdx : List Nat → Option (Index P.types)
  | 0 :: s :: l :: vb :: ks =>
    match P.keysS.dec ks with
    | some (ks, _) => some (.leaf ⟨s == 1, optLink l, ks, vb⟩)
    | none => none
  | 1 :: s :: l :: c :: lv :: vb :: kb :: ss =>
    match P.sumsS.dec ss with
    | some (ss, _) => some (.branch ⟨c, lv, s == 1, optLink l, ss, vb, kb⟩)
    | none => none
  | _ => none

theorem natsIdx_idxNats (i : Index P.types) : P.natsIdx (P.idxNats i) = some i := by
  cases i with
  | leaf i =>
    obtain ⟨s, l, ks, vb⟩ := i
    have h := P.keysS.rt ks []
    rw [List.append_nil] at h
    cases s <;> cases l <;> simp only [idxNats, natsIdx] <;> rw [h] <;> rfl
  | branch i =>
    obtain ⟨c, lv, s, l, ss, vb, kb⟩ := i
    have h := P.sumsS.rt ss []
    rw [List.append_nil] at h
    cases s <;> cases l <;> simp only [idxNats, natsIdx] <;> rw [h] <;> rfl

def encIdx (i : Index P.types) : Bytes := frame (1 :: encNats (P.idxNats i))

def payloadIdx : Bytes → Option (Index P.types)
  | 1 :: p =>
    match decNats p.length p with
    | some ns => P.natsIdx ns
    | none => none
  | _ => none

theorem payloadIdx_enc (i : Index P.types) : P.payloadIdx (1 :: encNats (P.idxNats i)) = some i := by
  simp only [payloadIdx]
  rw [decNats_encNats _ _ (Nat.le_refl _)]
  exact P.natsIdx_idxNats i

def decIdx (b : Bytes) : Except String (Index P.types × Bytes) :=
  match unframe b with
  | none => .error "invalid"
  | some (p, r) =>
    match P.payloadIdx p with
    | some i => .ok (i, r)
    | none => .error "invalid"

def itemLinks (b : Bytes) : Except String (List Cid) :=
  match unframe b with
  | some (p, _) =>
    match P.payloadIdx p with
    | some i =>
      match i.link with
      | some (l : Nat) => .ok [natCid l]
      | none => .ok []
    | none => .ok []
  | none => .error "invalid"

def cacheGet (c : List (Nat × Branch P.types)) (l : Nat) : Option (Branch P.types) :=
  match c with
  | [] => none
  | (k, b) :: r => if k = l then some b else cacheGet r l

/-- The environment. -/
def env : Env P.types Nat where
  σ := Store
  get := Store.get
  put := Store.put
  γ := List (Nat × Branch P.types)
  cacheGet := fun c l => (P.cacheGet c l, c)
  cachePut := fun c l b => (l, b) :: c
  encV := encV
  decV := decV
  encIdx := P.encIdx
  decIdx := P.decIdx
  item := item
  itemLinks := P.itemLinks
  cid := natCid
  zlen := fun _ ws => ws.flatten.length
  zfin := fun _ ws => 1 :: ws.flatten
  unz := fun b =>
    match b with
    | 1 :: r => .ok r
    | _ => .error "invalid"
  CKey := Nat
  ks := fun k o => UInt8.ofNat (k * (o + 1) + o / 7)
  encNode := encNode
  decNode := decNode

theorem env_lawful : P.env.Lawful where
  put_ok := fun s d l h => store_get_put s d l h
  put_mono := fun s d l b h => store_put_mono s d l b h
  cacheGet_sub := fun _ _ _ _ h => h
  cachePut_sub := by
    intro c l b l' b' h
    have h' : (if (l : Nat) = l' then some b else P.cacheGet c l') = some b' := h
    by_cases hl : (l : Nat) = l'
    · rw [if_pos hl] at h'
      exact Or.inl ⟨hl.symm, (Option.some.inj h').symm⟩
    · rw [if_neg hl] at h'
      exact Or.inr h'
  unz_zfin := fun _ _ => rfl
  zfin_ne := fun _ _ => by simp [env]
  zlen_le := fun _ ws => by simp [env]
  encV_ne := fun _ => frame_ne _
  item_encV := fun v r => by
    show item (frame (0 :: varint v) ++ r) = _
    unfold item
    rw [unframe_frame]
    rfl
  decV_encV := fun v => by
    show decV (frame (0 :: varint v)) = _
    unfold decV
    have := unframe_frame (0 :: varint v) []
    rw [List.append_nil] at this
    rw [this]
    simp only
    have := unvar_varint v []
    rw [List.append_nil] at this
    rw [this]
  encIdx_ne := fun _ => frame_ne _
  item_encIdx := fun i r => by
    show item (frame (1 :: encNats (P.idxNats i)) ++ r) = _
    unfold item
    rw [unframe_frame]
    rfl
  decIdx_encIdx := fun i r => by
    show P.decIdx (frame (1 :: encNats (P.idxNats i)) ++ r) = _
    unfold decIdx
    rw [unframe_frame]
    simp only
    rw [payloadIdx_enc]
  decNode_encNode := by
    rintro ⟨o, ls, d⟩
    show decNode (encNode (o, ls, d)) = _
    unfold decNode encNode
    rw [unvar_varint]
    simp only
    rw [unvar_varint]
    simp only
    rw [show ls.length = (ls.map Subtype.val).length from (List.length_map _).symm, decStrs_encStrs]
    simp only
    rw [mapM_readCid]

/-- A context and a state with an empty store. -/
def ctx (cfg : Config) : Ctx P.env := ⟨cfg, ⟨(3 : Nat), (5 : Nat)⟩⟩

def start (room : Nat) : St P.env := ⟨(⟨[], room⟩ : Store), ([] : List (Nat × Branch P.types)), 0, none, [], []⟩

end Params

/-- An operation succeeds. -/
def Params.succeeds {P : Params} {α : Type} (m : M P.env α) (s : St P.env) : Bool :=
  match m s with
  | .ok _ _ => true
  | .error _ _ => false

/-- The result of an operation. -/
def Params.valueOf {P : Params} {α : Type} (m : M P.env α) (s : St P.env) : Option α :=
  match m s with
  | .ok a _ => some a
  | .error _ _ => none

theorem Params.value_of {P : Params} {α : Type} {m : M P.env α} {s : St P.env} {a : α} (h : Params.valueOf m s = some a) :
    m s = .ok a (endState m s) := by
  unfold Params.valueOf at h
  unfold endState
  cases hm : m s with
  | ok a s' => rw [hm] at h; cases h; rfl
  | error e s' => rw [hm] at h; cases h

theorem Params.small_of {P : Params} {s : St P.env} (h : (s.written.all fun cs => decide ((cs.map P.env.encIdx).flatten.length ≤ maxCapacity)) = true) :
    Small P.env s := by
  intro cs hcs
  have := List.all_eq_true.mp h cs hcs
  simpa using this

end Banyan.Concrete
