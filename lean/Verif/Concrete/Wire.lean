import Verif.Concrete.Env
import Verif.Spec.WireEnv
import Verif.Spec.Observe
import Verif.Proofs.Cbor
/-
A concrete environment with the wire format of the code. The types are those of `banyan/tests/build_check.rs` and
`banyan/tests/common`; otherwise nothing in this file corresponds to code in the repository.
-/
set_option autoImplicit false
namespace Banyan.Concrete

open Cbor

/-- Keys are numbers, summaries are the smallest and the largest key, links are digests. -/
def wireTypes : TreeTypes where
  Key := Nat
  Summary := Nat × Nat
  Link := Digest
  keys := vecSeq Nat
  sums := vecSeq (Nat × Nat)
  sumKeys := minmax
  sumSums := minmaxS
  linkDec := inferInstanceAs (DecidableEq Digest)
  sumDec := inferInstanceAs (DecidableEq (Nat × Nat))

theorem wireTypes_lawful : wireTypes.Lawful := ⟨vecSeq_lawful _, vecSeq_lawful _⟩

/-- `struct Key(u64)`, `struct KeySeq(Vec<Key>)`, `struct KeyRange(u64, u64)` and `VecSeq<KeyRange>`. -/
def wireCodecs : Codecs wireTypes where
  link := digestCodec
  keys := newtypeCodec (listCodec (newtypeCodec natCodec))
  sums := vecSeqCodec (pairCodec natCodec natCodec)

theorem wireCodecs_lawful : wireCodecs.Lawful digestCid where
  link := digest_lawful
  keys := newtype_lawful (list_lawful (newtype_lawful nat_lawful))
  sums := newtype_lawful (list_lawful (pair_lawful nat_lawful nat_lawful))

abbrev Blocks := List (Digest × Bytes)

def blockOf (s : Blocks) (l : Digest) : Option Bytes :=
  match s with
  | [] => none
  | (k, b) :: r => if k = l then some b else blockOf r l

/-- A store that refuses a block if its digest is already taken. -/
def putBlocks (dig : Bytes → Digest) (s : Blocks) (d : Bytes) : Except String Digest × Blocks :=
  match blockOf s (dig d) with
  | none => (.ok (dig d), (dig d, d) :: s)
  | some d' => if d = d' then (.ok (dig d), s) else (.error "collision", s)

/-- A small cache. -/
def wireCacheGet (c : List (Digest × Branch wireTypes)) (l : Digest) : Option (Branch wireTypes) :=
  match c with
  | [] => none
  | (k, b) :: r => if k = l then some b else wireCacheGet r l

/-- The parts that are not encodings. -/
def wireBase (dig : Bytes → Digest) : Env wireTypes Nat where
  σ := Blocks
  get := fun s l =>
    match blockOf s l with
    | some b => .ok b
    | none => .error "not there"
  put := putBlocks dig
  γ := List (Digest × Branch wireTypes)
  cacheGet := fun c l => (wireCacheGet c l, c)
  cachePut := fun c l b => (l, b) :: c
  encV := fun _ => []
  decV := fun _ => .error ""
  encIdx := fun _ => []
  decIdx := fun _ => .error ""
  item := fun _ => .error ""
  itemLinks := fun _ => .error ""
  cid := digestCid
  zlen := fun _ ws => ws.flatten.length
  zfin := fun _ ws => 1 :: ws.flatten
  unz := fun b =>
    match b with
    | 1 :: r => .ok r
    | _ => .error "invalid"
  CKey := Nat
  ks := fun k o => UInt8.ofNat (k * (o + 1) + o / 7)
  encNode := fun _ => []
  decNode := fun _ => .error ""

theorem wireBase_lawful (dig : Bytes → Digest) : (wireBase dig).BaseLawful where
  put_ok := by
    intro s d l h
    have h : (putBlocks dig s d).1 = .ok l := h
    show (match blockOf (putBlocks dig s d).2 l with | some b => Except.ok b | none => .error "not there") = _
    unfold putBlocks at h ⊢
    cases hb : blockOf s (dig d) with
    | none =>
      rw [hb] at h
      simp only at h ⊢
      cases h
      simp [blockOf]
    | some d' =>
      rw [hb] at h
      simp only at h ⊢
      split at h
      · rename_i hd
        subst hd
        cases h
        rw [if_pos rfl]
        simp only [hb]
      · cases h
  put_mono := by
    intro s d l b h
    have h : (match blockOf s l with | some b => Except.ok b | none => .error "not there") = Except.ok (ε := String) b := h
    show (match blockOf (putBlocks dig s d).2 l with | some b => Except.ok b | none => .error "not there") = Except.ok (ε := String) b
    have hl : blockOf s l = some b := by
      cases hl : blockOf s l with
      | none => rw [hl] at h; cases h
      | some b' => rw [hl] at h; cases h; rfl
    unfold putBlocks
    cases hb : blockOf s (dig d) with
    | none =>
      have hne : dig d ≠ l := by rintro rfl; rw [hb] at hl; cases hl
      simp only [blockOf, if_neg hne, hl]
    | some d' =>
      simp only
      by_cases hd : d = d'
      · rw [if_pos hd]; simp only [hl]
      · rw [if_neg hd]; simp only [hl]
  cacheGet_sub := fun _ _ _ _ h => h
  cachePut_sub := by
    intro c l b l' b' h
    have h' : (if (l : Digest) = l' then some b else wireCacheGet c l') = some b' := h
    by_cases hl : (l : Digest) = l'
    · rw [if_pos hl] at h'
      exact Or.inl ⟨hl.symm, (Option.some.inj h').symm⟩
    · rw [if_neg hl] at h'
      exact Or.inr h'
  unz_zfin := fun _ _ => rfl
  zfin_ne := fun _ _ => by simp [wireBase]
  zlen_le := fun _ ws => by simp [wireBase]

/-- A weak digest of 32 bytes. -/
def toyDigest (b : Bytes) : Digest :=
  ⟨beBytes 32 ((b.foldl (fun a x => (a * 1000003 + x.toNat + 1) % 2 ^ 256) 7) * (2 ^ 200 + 1) % 2 ^ 256), beBytes_length 32 _⟩

/-- The environment. -/
def wireEnv : Env wireTypes Nat := (wireBase toyDigest).withWire wireCodecs digestCid natCodec

def wireCtx (cfg : Config) : Ctx wireEnv := ⟨cfg, ⟨(3 : Nat), (5 : Nat)⟩⟩

def wireStart : St wireEnv := ⟨([] : Blocks), ([] : List (Digest × Branch wireTypes)), 0, none, [], []⟩

end Banyan.Concrete
