import Verif.Concrete.Codec
import Verif.Model.Compact
import Verif.Spec.Laws
import Verif.Spec.Query
/-
A concrete environment satisfying all assumptions about the external components. It can be evaluated by the kernel and
is used for the examples which accompany the theorems and for the counterexamples. Nothing in this file corresponds to
code in the repository.
-/
set_option autoImplicit false
namespace Banyan.Concrete

/-- Smallest and largest key. -/
def minmax : List Nat → Nat × Nat
  | [] => (1, 0)
  | k :: ks => ks.foldl (fun (p : Nat × Nat) x => (min p.1 x, max p.2 x)) (k, k)

def minmaxS : List (Nat × Nat) → Nat × Nat
  | [] => (1, 0)
  | k :: ks => ks.foldl (fun (p : Nat × Nat) (x : Nat × Nat) => (min p.1 x.1, max p.2 x.2)) k

/-- Keys are numbers, summaries are the smallest and the largest key. -/
def types : TreeTypes where
  Key := Nat
  Summary := Nat × Nat
  Link := Nat
  keys := vecSeq Nat
  sums := vecSeq (Nat × Nat)
  sumKeys := minmax
  sumSums := minmaxS
  linkDec := inferInstanceAs (DecidableEq Nat)
  sumDec := inferInstanceAs (DecidableEq (Nat × Nat))

theorem types_lawful : types.Lawful := ⟨vecSeq_lawful _, vecSeq_lawful _⟩

/-- A store with holes (for damaged blocks) that accepts `room` more blocks. -/
structure Store where
  blocks : List (Option Bytes)
  room : Nat
deriving DecidableEq, Repr

def Store.get (s : Store) (l : Nat) : Except String Bytes :=
  match s.blocks[l]? with
  | some (some b) => .ok b
  | _ => .error "not there"

def Store.put (s : Store) (d : Bytes) : Except String Nat × Store :=
  match s.room with
  | 0 => (.error "full", s)
  | n + 1 => (.ok s.blocks.length, ⟨s.blocks ++ [some d], n⟩)

/-- An unbounded cache. -/
def cacheGet (c : List (Nat × Branch types)) (l : Nat) : Option (Branch types) :=
  match c with
  | [] => none
  | (k, b) :: r => if k = l then some b else cacheGet r l

def idxNats : Index types → List Nat
  | .leaf i => 0 :: (if i.isSealed then 1 else 0) :: (match i.link with | none => 0 | some l => Nat.succ l) :: i.valueBytes ::
      (i.keys : List Nat)
  | .branch i => 1 :: (if i.isSealed then 1 else 0) :: (match i.link with | none => 0 | some l => Nat.succ l) :: i.count ::
      i.level :: i.valueBytes :: i.keyBytes :: pairs i.summaries

def optLink : Nat → Option Nat
  | 0 => none
  | n + 1 => some n

def natsIdx : List Nat → Option (Index types)
  | 0 :: s :: l :: vb :: ks => some (.leaf ⟨s == 1, optLink l, ks, vb⟩)
  | 1 :: s :: l :: c :: lv :: vb :: kb :: ss =>
    match unpairs ss with
    | some p => some (.branch ⟨c, lv, s == 1, optLink l, p, vb, kb⟩)
    | none => none
  | _ => none

theorem natsIdx_idxNats (i : Index types) : natsIdx (idxNats i) = some i := by
  cases i with
  | leaf i =>
    obtain ⟨s, l, ks, vb⟩ := i
    cases s <;> cases l <;> rfl
  | branch i =>
    obtain ⟨c, lv, s, l, ss, vb, kb⟩ := i
    have h := unpairs_pairs ss
    cases s <;> cases l <;> simp only [idxNats, natsIdx] <;> rw [h] <;> rfl

def optEx {α : Type} : Option α → Except String α
  | some a => .ok a
  | none => .error "invalid"

def encIdx (i : Index types) : Bytes := frame (1 :: encNats (idxNats i))

def payloadIdx : Bytes → Option (Index types)
  | 1 :: p =>
    match decNats p.length p with
    | some ns => natsIdx ns
    | none => none
  | _ => none

theorem payloadIdx_enc (i : Index types) : payloadIdx (1 :: encNats (idxNats i)) = some i := by
  simp only [payloadIdx]
  rw [decNats_encNats _ _ (Nat.le_refl _)]
  exact natsIdx_idxNats i

def decIdx (b : Bytes) : Except String (Index types × Bytes) :=
  match unframe b with
  | none => .error "invalid"
  | some (p, r) =>
    match payloadIdx p with
    | some i => .ok (i, r)
    | none => .error "invalid"

def encV (v : Nat) : Bytes := frame (0 :: varint v)

def decV (b : Bytes) : Except String Nat :=
  match unframe b with
  | some (0 :: p, _) =>
    match unvar p with
    | some (v, _) => .ok v
    | none => .error "invalid"
  | _ => .error "invalid"

def item (b : Bytes) : Except String (Bytes × Bytes) :=
  match unframe b with
  | some (p, r) => .ok (frame p, r)
  | none => .error "invalid"

def itemLinks (b : Bytes) : Except String (List Cid) :=
  match unframe b with
  | some (p, _) =>
    match payloadIdx p with
    | some i =>
      match i.link with
      | some l => .ok [natCid l]
      | none => .ok []
    | none => .ok []
  | none => .error "invalid"

def encNode (x : Nat × List Cid × Bytes) : Bytes :=
  varint x.1 ++ (varint x.2.1.length ++ (encStrs (x.2.1.map Subtype.val) ++ x.2.2))

def decNode (b : Bytes) : Except String (Nat × List Cid × Bytes) :=
  match unvar b with
  | none => .error "invalid"
  | some (o, r) =>
    match unvar r with
    | none => .error "invalid"
    | some (n, r) =>
      match decStrs n r with
      | none => .error "invalid"
      | some (ls, d) =>
        match ls.mapM readCid with
        | none => .error "invalid"
        | some ls => .ok (o, ls, d)

theorem mapM_readCid (ls : List Cid) : (ls.map Subtype.val).mapM readCid = some ls := by
  induction ls with
  | nil => rfl
  | cons c ls ih =>
    simp only [List.map_cons, List.mapM_cons]
    rw [readCid_cid, ih]
    rfl

/-- The concrete environment. -/
def env : Env types Nat where
  σ := Store
  get := Store.get
  put := Store.put
  γ := List (Nat × Branch types)
  cacheGet := fun c l => (cacheGet c l, c)
  cachePut := fun c l b => (l, b) :: c
  encV := encV
  decV := decV
  encIdx := encIdx
  decIdx := decIdx
  item := item
  itemLinks := itemLinks
  cid := natCid
  zlen := fun _ ws => ws.flatten.length
  zfin := fun _ ws => 1 :: ws.flatten
  unz := fun b =>
    match b with
    | 1 :: r => .ok r
    | _ => .error "invalid"
  CKey := Nat
  ks := fun k o => UInt8.ofNat (k * (o + 1) + o / 7)
  encNode := encNode
  decNode := decNode

theorem store_get_put (s : Store) (d : Bytes) (l : Nat) (h : (s.put d).1 = .ok l) : (s.put d).2.get l = .ok d := by
  unfold Store.put at h ⊢
  cases hr : s.room with
  | zero => rw [hr] at h; cases h
  | succ n =>
    rw [hr] at h
    simp only at h
    injection h with h
    subst h
    unfold Store.get
    simp

theorem store_put_mono (s : Store) (d : Bytes) (l : Nat) (b : Bytes) (h : s.get l = .ok b) :
    (s.put d).2.get l = .ok b := by
  unfold Store.put
  cases s.room with
  | zero => exact h
  | succ n =>
    unfold Store.get at h ⊢
    simp only
    have hl : l < s.blocks.length := by
      apply Decidable.byContradiction
      intro hc
      rw [List.getElem?_eq_none (by omega)] at h
      cases h
    rw [List.getElem?_append_left hl]
    exact h

theorem env_lawful : env.Lawful where
  put_ok := fun s d l h => store_get_put s d l h
  put_mono := fun s d l b h => store_put_mono s d l b h
  cacheGet_sub := fun _ _ _ _ h => h
  cachePut_sub := by
    intro c l b l' b' h
    have h' : (if (l : Nat) = l' then some b else cacheGet c l') = some b' := h
    by_cases hl : (l : Nat) = l'
    · rw [if_pos hl] at h'
      exact Or.inl ⟨hl.symm, (Option.some.inj h').symm⟩
    · rw [if_neg hl] at h'
      exact Or.inr h'
  unz_zfin := fun _ _ => rfl
  zfin_ne := fun _ _ => by simp [env]
  zlen_le := fun _ ws => by simp [env]
  encV_ne := fun _ => frame_ne _
  item_encV := fun v r => by
    show item (frame (0 :: varint v) ++ r) = _
    unfold item
    rw [unframe_frame]
    rfl
  decV_encV := fun v => by
    show decV (frame (0 :: varint v)) = _
    unfold decV
    have := unframe_frame (0 :: varint v) []
    rw [List.append_nil] at this
    rw [this]
    simp only
    have := unvar_varint v []
    rw [List.append_nil] at this
    rw [this]
  encIdx_ne := fun _ => frame_ne _
  item_encIdx := fun i r => by
    show item (frame (1 :: encNats (idxNats i)) ++ r) = _
    unfold item
    rw [unframe_frame]
    rfl
  decIdx_encIdx := fun i r => by
    show decIdx (frame (1 :: encNats (idxNats i)) ++ r) = _
    unfold decIdx
    rw [unframe_frame]
    simp only
    rw [payloadIdx_enc]
  decNode_encNode := by
    rintro ⟨o, ls, d⟩
    show decNode (encNode (o, ls, d)) = _
    unfold decNode encNode
    rw [unvar_varint]
    simp only
    rw [unvar_varint]
    simp only
    rw [show ls.length = (ls.map Subtype.val).length from (List.length_map _).symm, decStrs_encStrs]
    simp only
    rw [mapM_readCid]

theorem env_scrapesIdx : env.ScrapesIdx := by
  intro i
  have : itemLinks (encIdx i) = (match i.link with
      | some l => .ok [natCid l]
      | none => .ok []) := by
    unfold itemLinks encIdx
    have := unframe_frame (1 :: encNats (idxNats i)) []
    rw [List.append_nil] at this
    rw [this]
    simp only
    rw [payloadIdx_enc]
  show ∃ ls, itemLinks (encIdx i) = .ok ls ∧ _
  rw [this]
  cases i.link with
  | none => exact ⟨[], rfl, by simp⟩
  | some l => exact ⟨_, rfl, by rintro l' h; cases h; simp [env]⟩

theorem env_scrapesVal : env.ScrapesVal := by
  intro v
  refine ⟨[], ?_⟩
  show itemLinks (frame (0 :: varint v)) = _
  unfold itemLinks
  have := unframe_frame (0 :: varint v) []
  rw [List.append_nil] at this
  rw [this]
  rfl

/-- What a summary says about the keys. -/
def covers (s : Nat × Nat) (k : Nat) : Prop := s.1 ≤ k ∧ k ≤ s.2

theorem foldl_minmax (ks : List Nat) : ∀ p : Nat × Nat,
    let r := ks.foldl (fun (p : Nat × Nat) x => (min p.1 x, max p.2 x)) p
    r.1 ≤ p.1 ∧ p.2 ≤ r.2 ∧ ∀ k ∈ ks, r.1 ≤ k ∧ k ≤ r.2 := by
  induction ks with
  | nil => intro p; simp
  | cons k ks ih =>
    intro p
    obtain ⟨h1, h2, h3⟩ := ih (min p.1 k, max p.2 k)
    simp only [List.foldl_cons]
    refine ⟨by omega, by omega, ?_⟩
    intro x hx
    rcases List.mem_cons.mp hx with rfl | hx
    · omega
    · exact h3 x hx

theorem foldl_minmaxS (ks : List (Nat × Nat)) : ∀ p : Nat × Nat,
    let r := ks.foldl (fun (p : Nat × Nat) (x : Nat × Nat) => (min p.1 x.1, max p.2 x.2)) p
    r.1 ≤ p.1 ∧ p.2 ≤ r.2 ∧ ∀ k ∈ ks, r.1 ≤ k.1 ∧ k.2 ≤ r.2 := by
  induction ks with
  | nil => intro p; simp
  | cons k ks ih =>
    intro p
    obtain ⟨h1, h2, h3⟩ := ih (min p.1 k.1, max p.2 k.2)
    simp only [List.foldl_cons]
    refine ⟨by omega, by omega, ?_⟩
    intro x hx
    rcases List.mem_cons.mp hx with rfl | hx
    · omega
    · exact h3 x hx

theorem toVec_vecSeq {α : Type} (l : List α) : (vecSeq α).toVec l = l := by
  show (List.range l.length).filterMap (fun i => l[i]?) = l
  induction l with
  | nil => rfl
  | cons a l ih =>
    rw [List.length_cons, List.range_succ_eq_map, List.filterMap_cons]
    simp only [List.getElem?_cons_zero, List.filterMap_map]
    congr 1

theorem mem_minmax (l : List Nat) (k : Nat) (hk : k ∈ l) : (minmax l).1 ≤ k ∧ k ≤ (minmax l).2 := by
  cases l with
  | nil => cases hk
  | cons a l =>
    obtain ⟨h1, h2, h3⟩ := foldl_minmax l (a, a)
    simp only [minmax]
    rcases List.mem_cons.mp hk with rfl | hk
    · exact ⟨h1, h2⟩
    · exact h3 k hk

theorem mem_minmaxS (l : List (Nat × Nat)) (s : Nat × Nat) (k : Nat) (hs : s ∈ l) (hc : covers s k) :
    covers (minmaxS l) k := by
  obtain ⟨c1, c2⟩ := hc
  unfold covers
  cases l with
  | nil => cases hs
  | cons a l =>
    obtain ⟨h1, h2, h3⟩ := foldl_minmaxS l a
    simp only [minmaxS]
    rcases List.mem_cons.mp hs with rfl | hs
    · exact ⟨by omega, by omega⟩
    · have := h3 s hs
      exact ⟨by omega, by omega⟩

theorem covering : Covering types covers where
  keys := fun (ks : List Nat) (k : Nat) (hk : k ∈ (vecSeq Nat).toVec ks) =>
    mem_minmax ks k ((toVec_vecSeq ks) ▸ hk)
  sums := fun (ss : List (Nat × Nat)) (s : Nat × Nat) (k : Nat) (hs : s ∈ (vecSeq (Nat × Nat)).toVec ss) hc =>
    mem_minmaxS ss s k ((toVec_vecSeq ss) ▸ hs) hc

/-- A context with the debug configuration of the repository. -/
def ctx (cfg : Config) : Ctx env := ⟨cfg, ⟨(3 : Nat), (5 : Nat)⟩⟩

/-- An empty builder on an empty store that accepts `room` blocks. -/
def start (room : Nat) : St env := ⟨(⟨[], room⟩ : Store), ([] : List (Nat × Branch types)), 0, none, [], []⟩

/-- A configuration with small nodes. -/
def tiny : Config :=
  { maxSummaryBranches := 2, maxKeyBranches := 2, maxLeafCount := 2, targetLeafSize := 1000,
    maxUncompressedLeafSize := 10000, zstdLevel := 1 }

theorem tiny_valid : tiny.Valid := by
  refine ⟨?_, ?_, ?_, ?_⟩ <;> decide

theorem tiny_validate : tiny.validate = true := by decide

theorem debug_valid : Config.debug.Valid := by
  refine ⟨?_, ?_, ?_, ?_⟩ <;> decide

/-- `n` elements with keys and values starting at `a`. -/
def seq (a n : Nat) : List (Nat × Nat) := (List.range n).map fun i => (a + i, 10 * (a + i))

end Banyan.Concrete
