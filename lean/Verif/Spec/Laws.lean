import Verif.Model.Builder
/-
What is assumed about the external components, and about configurations.
-/
namespace Banyan

variable {T : TreeTypes} {V : Type}

/-- Assumptions about the external components. They are hypotheses of the theorems; `Concrete.lean` has an instance. -/
structure Env.Lawful (E : Env T V) : Prop where
  /-- what was put successfully can be read with the returned link -/
  put_ok : ∀ s d l, (E.put s d).1 = .ok l → E.get (E.put s d).2 l = .ok d
  /-- the store is append only -/
  put_mono : ∀ s d l b, E.get s l = .ok b → E.get (E.put s d).2 l = .ok b
  /-- a cache lookup does not add anything to the cache -/
  cacheGet_sub : ∀ c l l' b, (E.cacheGet (E.cacheGet c l).2 l').1 = some b → (E.cacheGet c l').1 = some b
  /-- a cache insertion adds nothing but the inserted entry -/
  cachePut_sub : ∀ c l b l' b', (E.cacheGet (E.cachePut c l b) l').1 = some b' →
    (l' = l ∧ b' = b) ∨ (E.cacheGet c l').1 = some b'
  /-- zstd round trip -/
  unz_zfin : ∀ lvl ws, E.unz (E.zfin lvl ws) = .ok ws.flatten
  zfin_ne : ∀ lvl ws, E.zfin lvl ws ≠ []
  zlen_le : ∀ lvl ws, E.zlen lvl ws ≤ (E.zfin lvl ws).length
  /-- an encoded value is one CBOR item that decodes to the value -/
  encV_ne : ∀ v, E.encV v ≠ []
  item_encV : ∀ v r, E.item (E.encV v ++ r) = .ok (E.encV v, r)
  decV_encV : ∀ v, E.decV (E.encV v) = .ok v
  /-- an encoded index is one CBOR item that decodes to the index -/
  encIdx_ne : ∀ i, E.encIdx i ≠ []
  item_encIdx : ∀ i r, E.item (E.encIdx i ++ r) = .ok (E.encIdx i, r)
  decIdx_encIdx : ∀ i r, E.decIdx (E.encIdx i ++ r) = .ok (i, r)
  /-- the envelope of a block round-trips -/
  decNode_encNode : ∀ x, E.decNode (E.encNode x) = .ok x

/-- The links in an encoded index are found by the CBOR visitor. -/
def Env.ScrapesIdx (E : Env T V) : Prop :=
  ∀ i, ∃ ls, E.itemLinks (E.encIdx i) = .ok ls ∧ ∀ l, i.link = some l → E.cid l ∈ ls

/-- The links in an encoded value can be extracted. -/
def Env.ScrapesVal (E : Env T V) : Prop := ∀ v, ∃ ls, E.itemLinks (E.encV v) = .ok ls

/-- The store accepts all blocks. -/
def Env.PutsOk (E : Env T V) : Prop := ∀ s d, ∃ l, (E.put s d).1 = .ok l

/-- The part of `Config::validate` needed for building trees, plus `max_leaf_count > 0` (which `validate` forgets). -/
structure Config.Valid (c : Config) : Prop where
  summary : 2 ≤ c.maxSummaryBranches
  key : 1 ≤ c.maxKeyBranches
  leaf : 1 ≤ c.maxLeafCount
  size : c.maxUncompressedLeafSize ≤ maxCapacity

/-- A configuration accepted by `validate` is valid in the above sense if `max_leaf_count > 0`. -/
theorem Config.valid_of_validate (c : Config) (h : c.validate = true) (h1 : 1 ≤ c.maxLeafCount) : c.Valid := by
  simp only [Config.validate, Bool.and_eq_true, decide_eq_true_eq] at h
  refine ⟨by omega, by omega, h1, ?_⟩
  unfold maxCapacity; omega

end Banyan
