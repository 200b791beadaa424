import Verif.Model.MemStore
import Verif.Model.Text
/-
The other block stores of `banyan-utils`: `sqlite.rs`, `ipfs.rs` and the choice between the stores in `bin/cli.rs`.

The database (crate `ipfs_sqlite_block_store`), the daemon at the other end of the http connection, sha256 and the parsers of
foreign formats are parameters. Threads that are only started to be waited for are left out; panics inside of them (`join error!`)
are not modelled.
-/
set_option autoImplicit false
namespace Banyan

open Cbor (Digest cidDigest digestCid digestBytes)

/-! ### sqlite -/

/-- `ipfs_sqlite_block_store::BlockStore`: `get_block` and `put_block` (without an alias). -/
structure BlockDb where
  σ : Type
  getBlock : σ → Cid → Except String (Option Bytes)
  putBlock : σ → Cid → Bytes → Except String Unit × σ

section Sqlite
variable (db : BlockDb)

/-- `SqliteStore::get`, `banyan-utils/src/sqlite.rs:24-32`. -/
def sqliteGet (s : db.σ) (link : Digest) : Except String Bytes :=
  let cid := digestCid link
  match db.getBlock s cid with
  | .error e => .error e
  | .ok (some block) => .ok block
  | .ok none => .error "block not found!"

/-- `SqliteStore::put`, `sqlite.rs:39-45`. `sha256` is `Sha256Digest::new`, `banyan-utils/src/tags.rs:38-41`. -/
def sqlitePut (sha256 : Bytes → Digest) (s : db.σ) (data : Bytes) : Except String Digest × db.σ :=
  let digest := sha256 data
  let cid := digestCid digest
  match db.putBlock s cid data with
  | (.error e, s) => (.error e, s)
  | (.ok (), s) => (.ok digest, s)

/-- `SqliteStore` as a block store. -/
def sqliteStore (sha256 : Bytes → Digest) : BlockStore Digest := ⟨db.σ, sqliteGet db, sqlitePut db sha256⟩

end Sqlite

/-! ### ipfs -/

/-- The answer to an http request. -/
structure Reply where
  status : Nat
  body : Bytes
deriving DecidableEq, Repr

/-- The http interface of an ipfs daemon: `block/get` with the text of a content identifier, and `block/put` with the
parameters `format` and `pin` and the data. An error stands for a failure of the connection. -/
structure Daemon where
  σ : Type
  blockGet : σ → List Char → Except String Reply
  blockPut : σ → String → Bool → Bytes → Except String Reply × σ

/-- Parsers of foreign formats: the field `Key` of a JSON object (`IpfsBlockPutResponseIo`, `ipfs.rs:167-171`), and the bases of
`parseCid` that are not in the model. -/
structure Parsers where
  jsonKey : Bytes → Option (List Char)
  base58 : List Char → Option Bytes
  otherBases : Char → List Char → Option Bytes

/-- `Cid::hash`: code of the hash function and digest. -/
def cidHash (c : Cid) : Option (Nat × Bytes) :=
  match c.1 with
  | 0x12 :: 0x20 :: r => some (0x12, r)
  | b =>
    match unvar b with
    | none => none
    | some (_, r) =>
      match unvar r with
      | none => none
      | some (_, r) =>
        match unvar r with
        | none => none
        | some (code, r) =>
          match unvar r with
          | none => none
          | some (_, r) => some (code, r)

/-- `format_codec`, `ipfs.rs:115-122`. -/
def formatCodec (codec : Nat) : Except String String :=
  if codec = 0x71 then .ok "cbor"
  else if codec = 0x70 then .ok "protobuf"
  else if codec = 0x55 then .ok "raw"
  else .error "unsupported codec"

section Ipfs
variable (D : Daemon) (P : Parsers)

/-- `block_get`, `ipfs.rs:11-19`, for the content identifier of a digest. The status of the answer is not looked at. -/
def ipfsBlockGet (s : D.σ) (link : Digest) : Except String Bytes :=
  match D.blockGet s (displayDigest link) with
  | .error e => .error e
  | .ok reply => .ok reply.body

/-- `block_put`, `ipfs.rs:124-137`. The status of the answer is not looked at. -/
def ipfsBlockPut (s : D.σ) (data : Bytes) (codec : Nat) (pin : Bool) : Except String Cid × D.σ :=
  match formatCodec codec with
  | .error e => (.error e, s)
  | .ok format =>
    match D.blockPut s format pin data with
    | (.error e, s) => (.error e, s)
    | (.ok reply, s) =>
      match P.jsonKey reply.body with
      | none => (.error "error decoding response body", s)
      | some key =>
        match parseCid P.base58 P.otherBases key with
        | none => (.error "invalid cid", s)
        | some cid => (.ok cid, s)

/-- `IpfsStore::put`, `ipfs.rs:152-160`. -/
def ipfsPut (s : D.σ) (data : Bytes) : Except Err Digest × D.σ :=
  match ipfsBlockPut D P s data 0x71 false with
  | (.error e, s) => (.error (.fail e), s)
  | (.ok cid, s) =>
    match cidHash cid with
    | none => (.error (.panic "not a cid"), s)
    | some (code, digest) =>
      if code ≠ 0x12 then (.error (.panic "assertion failed: cid.hash().code() == 0x12"), s)
      else if digest.length ≠ 32 then (.error (.panic "assertion failed: cid.hash().digest().len() == 32"), s)
      else
        match cidDigest cid with
        | none => (.error (.fail "Unexpected codec"), s)
        | some d => (.ok d, s)

/-- `IpfsStore` as a block store (`get`: `ipfs.rs:142-149`). Simplification: a panic is an error here; see `ipfsPut`. -/
def ipfsStore : BlockStore Digest where
  σ := D.σ
  get := ipfsBlockGet D
  put := fun s data =>
    match ipfsPut D P s data with
    | (.ok l, s) => (.ok l, s)
    | (.error (.fail e), s) => (.error e, s)
    | (.error _, s) => (.error "panic", s)

end Ipfs

/-! ### the choice -/

/-- `enum Storage`, `banyan-utils/src/bin/cli.rs:33-37`. -/
inductive Storage (db : BlockDb) (D : Daemon) where
  | memory (m : MemStore Digest)
  | ipfs (s : D.σ)
  | sqlite (s : db.σ)

section Storage
variable (db : BlockDb) (D : Daemon) (P : Parsers) (sha256 : Bytes → Digest)

/-- `Storage::get`, `cli.rs:39-45`. -/
def storageGet : Storage db D → Digest → Except String Bytes
  | .memory m, l => m.get l
  | .ipfs s, l => (ipfsStore D P).get s l
  | .sqlite s, l => (sqliteStore db sha256).get s l

/-- `Storage::put`, `cli.rs:49-55`. -/
def storagePut : Storage db D → Bytes → Except String Digest × Storage db D
  | .memory m, d => ((m.put0 d).1, .memory (m.put0 d).2)
  | .ipfs s, d => (((ipfsStore D P).put s d).1, .ipfs ((ipfsStore D P).put s d).2)
  | .sqlite s, d => (((sqliteStore db sha256).put s d).1, .sqlite ((sqliteStore db sha256).put s d).2)

/-- `Storage` as a block store. -/
def storageStore : BlockStore Digest := ⟨Storage db D, storageGet db D P sha256, storagePut db D P sha256⟩

/-- `usize::max_value()` (64 bit). -/
def usizeMax : Nat := 18446744073709551615

/-- `Storage::from_str`, `cli.rs:58-71`. `daemon` is the state of the daemon, `openDb` opens the database at a path. -/
def parseStorage (daemon : D.σ) (openDb : String → Except String db.σ) (t : String) : Except String (Storage db D) :=
  if t = "memory" then .ok (.memory (MemStore.new usizeMax sha256))
  else if t = "ipfs" then .ok (.ipfs daemon)
  else
    match openDb t with
    | .error e => .error e
    | .ok s => .ok (.sqlite s)

end Storage

end Banyan
