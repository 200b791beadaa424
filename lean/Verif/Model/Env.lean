import Verif.Model.Types
/-
External components (everything which is not in the repository) as parameters, and the state threaded through all
operations.
-/
namespace Banyan

/-- External components. `V` is the type of values. -/
structure Env (T : TreeTypes) (V : Type) where
  /-- state of the block store -/
  σ : Type
  /-- `ReadOnlyStore::get`, `banyan/src/store/mod.rs:29-31` -/
  get : σ → T.Link → Except String Bytes
  /-- `BlockWriter::put`, `banyan/src/store/mod.rs:22-27` -/
  put : σ → Bytes → Except String T.Link × σ
  /-- state of the `WeightCache` inside of `BranchCache`, `banyan/src/store/branch_cache.rs:27-30` -/
  γ : Type
  /-- `BranchCache::get`, `branch_cache.rs:49-51` (changes the cache state, e.g. LRU order) -/
  cacheGet : γ → T.Link → Option (Branch T) × γ
  /-- `BranchCache::put`, `branch_cache.rs:53-57` -/
  cachePut : γ → T.Link → Branch T → γ
  /-- `WriteCbor::write_cbor` of the values -/
  encV : V → Bytes
  /-- `ReadCbor::read_cbor` of a single item -/
  decV : Bytes → Except String V
  /-- `DagCborCodec.encode` of an `Index` -/
  encIdx : Index T → Bytes
  /-- `Index::decode` from a reader: decoded value and the remaining bytes -/
  decIdx : Bytes → Except String (Index T × Bytes)
  /-- `Cbor::checked_prefix`: first item and the remaining bytes -/
  item : Bytes → Except String (Bytes × Bytes)
  /-- the links found by visiting one CBOR item, `zstd_dag_cbor_seq.rs:496-512` -/
  itemLinks : Bytes → Except String (List Cid)
  /-- `Into<Cid>` of the link type, `banyan/src/forest/mod.rs:47-48` -/
  cid : T.Link → Cid
  /-- number of bytes the zstd encoder has put into its output after the given writes
  (`encoder.get_ref().len()`), for a compression level -/
  zlen : Int → List Bytes → Nat
  /-- the finished zstd frame for the given writes -/
  zfin : Int → List Bytes → Bytes
  /-- zstd decompression (without the capacity limit) -/
  unz : Bytes → Except String Bytes
  /-- chacha20 keys -/
  CKey : Type
  /-- chacha20 key stream for a key (and the constant nonce) -/
  ks : CKey → Nat → UInt8
  /-- `DagCborCodec.encode` of `IpldNode(offset, links, data)` -/
  encNode : Nat × List Cid × Bytes → Bytes
  /-- `DagCborCodec.decode` of an `IpldNode` followed by `into_data` -/
  decNode : Bytes → Except String (Nat × List Cid × Bytes)

variable {T : TreeTypes} {V : Type}

/-- `struct Secrets`, `banyan/src/forest/mod.rs:142-147`. -/
structure Secrets (E : Env T V) where
  indexKey : E.CKey
  valueKey : E.CKey

/-- The parameters of a `StreamBuilderState` that never change: `banyan/src/stream_builder.rs:42-46`. -/
structure Ctx (E : Env T V) where
  cfg : Config
  sec : Secrets E

/-- The state visible to the operations on one `StreamBuilder` in one `Transaction`: block store and branch cache of
the forest, cipher offset (`stream_builder.rs:18-20`) and root (`stream_builder.rs:84`) of the builder.

Two ghost logs have no counterpart in the code and never influence a result: `puts`, all blocks handed to
`BlockWriter::put` so far, in order, successful or not; `written`, the child lists handed to `persist_branch` so far. -/
structure St (E : Env T V) where
  store : E.σ
  cache : E.γ
  offset : Nat
  root : Option (Index T)
  puts : List Bytes
  written : List (List (Index T))

/-- State and errors; the state is kept on errors (nothing is rolled back implicitly). -/
abbrev M (E : Env T V) := EStateM Err (St E)

namespace M
variable {E : Env T V} {α : Type}

/-- a pure fallible computation -/
def lift (x : Except Err α) : M E α := fun s =>
  match x with
  | .ok a => .ok a s
  | .error e => .error e s

/-- handle an `anyhow` error as data; panics are not caught -/
def tryFail (m : M E α) : M E (Except String α) := fun s =>
  match m s with
  | .ok a s => .ok (.ok a) s
  | .error (.fail msg) s => .ok (.error msg) s
  | .error e s => .error e s

/-- `assert!` -/
def assert (b : Bool) (msg : String) : M E Unit := fun s =>
  if b then .ok () s else .error (.panic msg) s

/-- `anyhow::ensure!` -/
def ensure (b : Bool) (msg : String) : M E Unit := fun s =>
  if b then .ok () s else .error (.fail msg) s

end M

/-- Turn an external error into an `anyhow` error. -/
def failE {α : Type} : Except String α → Except Err α
  | .ok a => .ok a
  | .error m => .error (.fail m)

section Ops
variable {E : Env T V}

/-- `get_block`, `banyan/src/forest/read.rs:425-434`, as a function of the store. -/
def getBlock (E : Env T V) (s : E.σ) (link : T.Link) : Except Err Bytes := failE (E.get s link)

/-- `put_block`, `banyan/src/forest/write.rs:45-51`. -/
def putBlock (data : Bytes) : M E T.Link := fun s =>
  match E.put s.store data with
  | (.ok l, st) => .ok l { s with store := st, puts := s.puts ++ [data] }
  | (.error m, st) => .error (.fail m) { s with store := st, puts := s.puts ++ [data] }

/-- `CipherOffset::reserve`, `banyan/src/stream_builder.rs:27-34`. -/
def reserve (n : Nat) : M E Nat := fun s =>
  if s.offset + n < 2 ^ 64 then .ok s.offset { s with offset := s.offset + n }
  else .error .offsets s

end Ops

end Banyan
