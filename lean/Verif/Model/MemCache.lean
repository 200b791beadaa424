import Verif.Model.MemStore
/-
The block cache, `banyan/src/store/mem_cache.rs`.

`WeightCache` (crate `weight-cache`) is a parameter: the theorems hold for every capacity and every eviction policy.
A call consists of several steps (locking the cache, calling the inner store) between which other threads can run;
`Task.step` has these steps for threads that share one cache and one inner store.
-/
set_option autoImplicit false
namespace Banyan

/-- `WeightCache<L, MemBlock>`: state, creation with a capacity, lookup (may change the order of eviction), insertion
(may evict anything, including the inserted block). -/
structure BlockCache (L : Type) where
  γ : Type
  new : Nat → γ
  get : γ → L → Option Bytes × γ
  put : γ → L → Bytes → γ

variable {L : Type}

/-- `struct Cache`, `mem_cache.rs:17-23`. -/
structure SizedCache (W : BlockCache L) where
  cache : W.γ
  maxSize : Nat

/-- `Cache::new`, `mem_cache.rs:25-34`: no cache if one of the parameters is 0. -/
def SizedCache.new (W : BlockCache L) (maxSize capacity : Nat) : Option (SizedCache W) :=
  if capacity = 0 then none else if maxSize = 0 then none else some ⟨W.new capacity, maxSize⟩

/-- `struct MemCache`, `mem_cache.rs:42-47`, together with the `MemWriter`s created by `write`
(`mem_cache.rs:73-75, 99-112`), which share its cache and write to the same inner store. -/
structure MemCache (I : BlockStore L) (W : BlockCache L) where
  inner : I.σ
  cache : Option (SizedCache W)

namespace MemCache
variable {I : BlockStore L} {W : BlockCache L}

/-- `MemCache::new`, `mem_cache.rs:53-58`. -/
def new (inner : I.σ) (maxSize capacity : Nat) : MemCache I W := ⟨inner, SizedCache.new W maxSize capacity⟩

/-- `data.len() <= cache.max_size`, `mem_cache.rs:63, 119`. -/
def takes (c : MemCache I W) (data : Bytes) : Bool :=
  match c.cache with
  | some cache => decide (data.length ≤ cache.maxSize)
  | none => false

/-- `cache.cache.lock().put(link, MemBlock(copy))`, `mem_cache.rs:65, 122`. -/
def fill (c : MemCache I W) (link : L) (data : Bytes) : MemCache I W :=
  match c.cache with
  | some cache => { c with cache := some { cache with cache := W.put cache.cache link data } }
  | none => c

/-- `offer`, `mem_cache.rs:61-68`. -/
def offer (c : MemCache I W) (link : L) (data : Bytes) : MemCache I W := if c.takes data then c.fill link data else c

/-- `get0`, `mem_cache.rs:78-82`. -/
def get0 (c : MemCache I W) (link : L) : Option Bytes × MemCache I W :=
  match c.cache with
  | some cache => ((W.get cache.cache link).1, { c with cache := some { cache with cache := (W.get cache.cache link).2 } })
  | none => (none, c)

/-- `ReadOnlyStore::get`, `mem_cache.rs:88-93`. -/
def get (c : MemCache I W) (link : L) : Except String Bytes × MemCache I W :=
  match c.get0 link with
  | (some data, c) => (.ok data, c)
  | (none, c) => (I.get c.inner link, c)

/-- the inner `put` -/
def putInner (c : MemCache I W) (data : Bytes) : Except String L × MemCache I W :=
  ((I.put c.inner data).1, { c with inner := (I.put c.inner data).2 })

/-- `BlockWriter::put` of `MemWriter`, `mem_cache.rs:117-127`. -/
def put (c : MemCache I W) (data : Bytes) : Except String L × MemCache I W :=
  if c.takes data then
    match c.putInner data with
    | (.ok link, c) => (.ok link, c.fill link data)
    | (.error e, c) => (.error e, c)
  else c.putInner data

end MemCache

/-- What a thread has still to do. -/
inductive Task (L : Type) where
  /-- `get`, before the lookup in the cache -/
  | get (link : L)
  /-- `get`, after the lookup in the cache has failed -/
  | getInner (link : L)
  /-- `put`, before the call to the inner store -/
  | put (data : Bytes)
  /-- `put`, after the call to the inner store has succeeded -/
  | fill (link : L) (data : Bytes)
  /-- a `put` into the inner store by somebody else -/
  | foreign (data : Bytes)
  /-- `offer` -/
  | offer (link : L) (data : Bytes)

/-- What a step of a thread shows: nothing, or the result of a call. -/
inductive Shown (L : Type) where
  | got (link : L) (r : Except String Bytes)
  | stored (data : Bytes) (r : Except String L)

namespace Task
variable {I : BlockStore L} {W : BlockCache L}

/-- One step of a thread: the remaining task (none if the call has returned), the result of the call, and the store.
A call to `put` shows its result when it has called the inner store. -/
def step (c : MemCache I W) : Task L → Option (Task L) × Option (Shown L) × MemCache I W
  | .get link =>
    match c.get0 link with
    | (some data, c) => (none, some (.got link (.ok data)), c)
    | (none, c) => (some (.getInner link), none, c)
  | .getInner link => (none, some (.got link (I.get c.inner link)), c)
  | .put data =>
    match c.putInner data with
    | (.ok link, c) => (if c.takes data then some (.fill link data) else none, some (.stored data (.ok link)), c)
    | (.error e, c) => (none, some (.stored data (.error e)), c)
  | .fill link data => (none, none, c.fill link data)
  | .foreign data => (none, some (.stored data (c.putInner data).1), (c.putInner data).2)
  | .offer link data => (none, none, c.offer link data)

end Task

/-- The shared store and the threads. -/
structure Threads (I : BlockStore L) (W : BlockCache L) where
  shared : MemCache I W
  tasks : List (Task L)

/-- Run one step of the thread with number `i`. -/
def Threads.run {I : BlockStore L} {W : BlockCache L} (t : Threads I W) (i : Nat) : Option (Option (Shown L) × Threads I W) :=
  match t.tasks[i]? with
  | none => none
  | some task =>
    match task.step t.shared with
    | (some task, shown, shared) => some (shown, ⟨shared, t.tasks.set i task⟩)
    | (none, shown, shared) => some (shown, ⟨shared, t.tasks.eraseIdx i⟩)

end Banyan
