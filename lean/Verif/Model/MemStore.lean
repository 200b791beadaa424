import Verif.Model.Types
/-
The memory store, `banyan/src/store/mem_store.rs`.

The mutex is held during all of the check and the insertion in `put0` and during all of `get0`, so each call is one
atomic step and a set of threads using clones of one store produces a sequence of calls. `into_inner` hands out the map.
-/
set_option autoImplicit false
namespace Banyan

/-- A block store: `ReadOnlyStore` and `BlockWriter`, `banyan/src/store/mod.rs:22-31`. -/
structure BlockStore (L : Type) where
  σ : Type
  get : σ → L → Except String Bytes
  put : σ → Bytes → Except String L × σ

/-- `FnvHashMap::insert`: the new map and whether the key is new. The map is a list of entries. -/
def mapInsert {L β : Type} [DecidableEq L] : List (L × β) → L → β → List (L × β) × Bool
  | [], l, b => ([(l, b)], true)
  | (k, c) :: r, l, b => if k = l then ((l, b) :: r, false) else (((k, c) :: (mapInsert r l b).1), (mapInsert r l b).2)

/-- `FnvHashMap::get`. -/
def mapGet {L β : Type} [DecidableEq L] : List (L × β) → L → Option β
  | [], _ => none
  | (k, c) :: r, l => if k = l then some c else mapGet r l

/-- `struct MemStore` with `Inner` and `Blocks`, `mem_store.rs:8-21`. -/
structure MemStore (L : Type) where
  digest : Bytes → L
  maxSize : Nat
  map : List (L × Bytes)
  currentSize : Nat

namespace MemStore
variable {L : Type} [DecidableEq L]

/-- `MemStore::new`, `mem_store.rs:24-33`. -/
def new (maxSize : Nat) (digest : Bytes → L) : MemStore L := ⟨digest, maxSize, [], 0⟩

/-- `into_inner`, `mem_store.rs:35-39`, for the last owner of the store. -/
def intoInner (s : MemStore L) : List (L × Bytes) := s.map

/-- `get0`, `mem_store.rs:41-44`. -/
def get0 (s : MemStore L) (l : L) : Option Bytes := mapGet s.map l

/-- `put0`, `mem_store.rs:46-59`. The sum of the sizes does not overflow since the blocks are in memory. -/
def put0 (s : MemStore L) (data : Bytes) : Except String L × MemStore L :=
  let digest := s.digest data
  let len := data.length
  if s.currentSize + data.length > s.maxSize then (.error "full", s)
  else
    let (map, isNew) := mapInsert s.map digest data
    (.ok digest, { s with map := map, currentSize := if isNew then s.currentSize + len else s.currentSize })

/-- `ReadOnlyStore::get`, `mem_store.rs:63-69`. -/
def get (s : MemStore L) (l : L) : Except String Bytes :=
  match s.get0 l with
  | some value => .ok value
  | none => .error "not there"

end MemStore

/-- The memory store as a block store. -/
def memStore (L : Type) [DecidableEq L] : BlockStore L := ⟨MemStore L, MemStore.get, MemStore.put0⟩

end Banyan
