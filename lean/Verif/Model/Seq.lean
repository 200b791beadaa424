import Verif.Model.Env
/-
`banyan/src/store/zstd_dag_cbor_seq.rs`, `banyan/src/store/thread_local_zstd.rs`, and the (de)serialization of
branches in `banyan/src/index.rs:431-450`.
-/
namespace Banyan

/-- `MAX_CAPACITY`, `thread_local_zstd.rs:9`. -/
def maxCapacity : Nat := 1024 * 1024 * 16

/-- `struct ZstdDagCborSeq`, `zstd_dag_cbor_seq.rs:51-56`. -/
structure ZSeq where
  data : Bytes
  links : List Cid
deriving DecidableEq, Repr

/-- `BTreeSet::insert` for the link set. Simplification: order of first occurrence instead of sorted order. -/
def addLink (s : List Cid) (c : Cid) : List Cid := if c ∈ s then s else s ++ [c]

/-- `Extend::extend` for the link set. -/
def addLinks (s : List Cid) (cs : List Cid) : List Cid := cs.foldl addLink s

variable {T : TreeTypes} {V : Type} (E : Env T V)

/-- `decompress_and_transform`, `thread_local_zstd.rs:29-53` (the decompressed bytes; the transform is applied by the
caller). The buffer has at most `MAX_CAPACITY` bytes (lines 37-46), so longer content is an error. The upper bound
reported by zstd is assumed to be right. -/
def decompress (z : Bytes) : Except Err Bytes :=
  match E.unz z with
  | .error m => .error (.fail m)
  | .ok b => if b.length ≤ maxCapacity then .ok b else .error (.fail "buffer too small")

/-- The loop of `scrape_links`, `zstd_dag_cbor_seq.rs:514-519`. The first argument bounds the number of iterations;
the callers pass the number of bytes, which suffices since every item has at least one byte. -/
def scrapeLoop : Nat → Bytes → List Cid → Except Err (List Cid)
  | _, [], acc => .ok acc
  | 0, _ :: _, _ => .error .fuel
  | n + 1, b :: bs, acc =>
    match E.item (b :: bs) with
    | .error m => .error (.fail m)
    | .ok (cbor, rest) =>
      match E.itemLinks cbor with
      | .error m => .error (.fail m)
      | .ok cs => scrapeLoop n rest (addLinks acc cs)

/-- `scrape_links`, `zstd_dag_cbor_seq.rs:494-521`. -/
def scrapeLinks (data : Bytes) (acc : List Cid) : Except Err (List Cid) := scrapeLoop E data.length data acc

/-- The loop of `from_iter` / `from_iter_ipld`, `zstd_dag_cbor_seq.rs:74-80`, `103-108`, for already encoded items.
Result: the writes to the encoder and the links. -/
def encodeLoop : List Bytes → List Bytes → List Cid → Except Err (List Bytes × List Cid)
  | [], ws, links => .ok (ws, links)
  | b :: rest, ws, links =>
    match scrapeLinks E b links with
    | .error e => .error e
    | .ok links => encodeLoop rest (ws ++ [b]) links

/-- `from_iter`, `zstd_dag_cbor_seq.rs:64-91`. -/
def seqFromIter (items : List V) (zstdLevel : Int) : Except Err ZSeq :=
  match encodeLoop E (items.map E.encV) [] [] with
  | .error e => .error e
  | .ok (ws, links) => .ok ⟨E.zfin zstdLevel ws, links⟩

/-- `from_iter_ipld`, `zstd_dag_cbor_seq.rs:94-119`, for `T = Index`. -/
def seqFromIterIpld (items : List (Index T)) (zstdLevel : Int) : Except Err ZSeq :=
  match encodeLoop E (items.map E.encIdx) [] [] with
  | .error e => .error e
  | .ok (ws, links) => .ok ⟨E.zfin zstdLevel ws, links⟩

/-- Local variables of the loop of `fill`. -/
structure FillSt (T : TreeTypes) (V : Type) where
  keys : List T.Key
  size : Nat
  /-- everything written to the encoder -/
  ws : List Bytes
  links : List Cid
  full : Bool
  /-- what remains in the iterator -/
  from_ : List (T.Key × V)

/-- The loop of `fill`, `zstd_dag_cbor_seq.rs:179-206`. -/
def fillLoop (zstdLevel : Int) (compressedSize uncompressedSize maxKeys : Nat) :
    List (T.Key × V) → List T.Key → Nat → List Bytes → List Cid → Except Err (FillSt T V)
  | [], keys, size, ws, links => .ok ⟨keys, size, ws, links, false, []⟩
  | (k, v) :: rest, keys, size, ws, links =>
    if keys.length ≥ maxKeys then .ok ⟨keys, size, ws, links, false, (k, v) :: rest⟩
    else if (E.encV v).length > uncompressedSize then .error (.fail "single item too large!")
    else if size + (E.encV v).length > uncompressedSize then .ok ⟨keys, size, ws, links, true, (k, v) :: rest⟩
    else
      match scrapeLinks E (E.encV v) links with
      | .error e => .error e
      | .ok links =>
        if E.zlen zstdLevel (ws ++ [E.encV v]) ≥ compressedSize then
          .ok ⟨keys ++ [k], size + (E.encV v).length, ws ++ [E.encV v], links, false, rest⟩
        else
          fillLoop zstdLevel compressedSize uncompressedSize maxKeys rest
            (keys ++ [k]) (size + (E.encV v).length) (ws ++ [E.encV v]) links

/-- The initial values of size, encoder content and links in `fill`, `zstd_dag_cbor_seq.rs:157-175`. -/
def fillStart (compressed : Bytes) : Except Err (Nat × List Bytes × List Cid) :=
  if compressed.isEmpty then .ok (0, [], [])
  else
    match decompress E compressed with
    | .error e => .error e
    | .ok d =>
      match scrapeLinks E d [] with
      | .error e => .error e
      | .ok links => .ok (d.length, [d], links)

/-- `fill`, `zstd_dag_cbor_seq.rs:148-220`. Result: the sequence, the `full` flag, the extended `keys` and the rest of
the iterator. Failures of the zstd encoder itself are not modelled. -/
def fill (compressed : Bytes) (from_ : List (T.Key × V)) (keys : List T.Key) (zstdLevel : Int)
    (compressedSize uncompressedSize maxKeys : Nat) :
    Except Err (ZSeq × Bool × List T.Key × List (T.Key × V)) :=
  match fillStart E compressed with
  | .error e => .error e
  | .ok (size, ws, links) =>
    match fillLoop E zstdLevel compressedSize uncompressedSize maxKeys from_ keys size ws links with
    | .error e => .error e
    | .ok r =>
      let data := E.zfin zstdLevel r.ws
      let full := r.full || decide (data.length ≥ compressedSize) || decide (r.keys.length ≥ maxKeys)
        || decide (r.size ≥ uncompressedSize)
      .ok (⟨data, r.links⟩, full, r.keys, r.from_)

/-- `count_cbor_items`, `zstd_dag_cbor_seq.rs:481-491`. -/
def countItems : Nat → Bytes → Except Err Nat
  | _, [] => .ok 0
  | 0, _ :: _ => .error .fuel
  | n + 1, b :: bs =>
    match E.item (b :: bs) with
    | .error m => .error (.fail m)
    | .ok (_, rest) =>
      match countItems n rest with
      | .error e => .error e
      | .ok c => .ok (c + 1)

/-- `count`, `zstd_dag_cbor_seq.rs:314-319`. -/
def ZSeq.count (z : ZSeq) : Except Err Nat :=
  match decompress E z.data with
  | .error e => .error e
  | .ok d => countItems E d.length d

/-- The loop of `items`, `zstd_dag_cbor_seq.rs:325-329`. -/
def itemsLoop : Nat → Bytes → List V → Except Err (List V)
  | _, [], acc => .ok acc
  | 0, _ :: _, _ => .error .fuel
  | n + 1, b :: bs, acc =>
    match E.item (b :: bs) with
    | .error m => .error (.fail m)
    | .ok (cbor, rest) =>
      match E.decV cbor with
      | .error m => .error (.fail m)
      | .ok v => itemsLoop n rest (acc ++ [v])

/-- `items`, `zstd_dag_cbor_seq.rs:322-333`. -/
def ZSeq.items (z : ZSeq) : Except Err (List V) :=
  match decompress E z.data with
  | .error e => .error e
  | .ok d => itemsLoop E d.length d []

/-- The loop of `items_ipld`, `zstd_dag_cbor_seq.rs:341-343`, for `T = Index`. -/
def itemsIpldLoop : Nat → Bytes → List (Index T) → Except Err (List (Index T))
  | _, [], acc => .ok acc
  | 0, _ :: _, _ => .error .fuel
  | n + 1, b :: bs, acc =>
    match E.decIdx (b :: bs) with
    | .error m => .error (.fail m)
    | .ok (i, rest) => itemsIpldLoop n rest (acc ++ [i])

/-- `items_ipld`, `zstd_dag_cbor_seq.rs:336-347`, for `T = Index`. -/
def ZSeq.itemsIpld (z : ZSeq) : Except Err (List (Index T)) :=
  match decompress E z.data with
  | .error e => .error e
  | .ok d => itemsIpldLoop E d.length d []

/-- The loop of `get`, `zstd_dag_cbor_seq.rs:354-364`. -/
def getLoop : Nat → Nat → Bytes → Except Err (Option V)
  | _, _, [] => .ok none
  | 0, _, _ :: _ => .error .fuel
  | n + 1, remaining, b :: bs =>
    match E.item (b :: bs) with
    | .error m => .error (.fail m)
    | .ok (cbor, rest) =>
      if remaining > 0 then getLoop n (remaining - 1) rest
      else
        match E.decV cbor with
        | .error m => .error (.fail m)
        | .ok v => .ok (some v)

/-- `get`, `zstd_dag_cbor_seq.rs:350-367`. -/
def ZSeq.get (z : ZSeq) (index : Nat) : Except Err (Option V) :=
  match decompress E z.data with
  | .error e => .error e
  | .ok d => getLoop E d.length index d

/-- `shrink_to_fit`, `zstd_dag_cbor_seq.rs:465-472`: drop the trailing `false`s. -/
def shrinkToFit (l : List Bool) : List Bool := (l.reverse.dropWhile (· == false)).reverse

/-- The loop of `select`, `zstd_dag_cbor_seq.rs:383-393`. -/
def selectLoop : List Bool → Bytes → List V → Except Err (List V)
  | [], _, acc => .ok acc
  | _ :: _, [], acc => .ok acc
  | t :: ts, b :: bs, acc =>
    match E.item (b :: bs) with
    | .error m => .error (.fail m)
    | .ok (cbor, rest) =>
      if t then
        match E.decV cbor with
        | .error m => .error (.fail m)
        | .ok v => selectLoop ts rest (acc ++ [v])
      else selectLoop ts rest acc

/-- `select`, `zstd_dag_cbor_seq.rs:372-397`. -/
def ZSeq.select (z : ZSeq) (take : List Bool) : Except Err (List V) :=
  if (shrinkToFit take).isEmpty then .ok []
  else
    match decompress E z.data with
    | .error e => .error e
    | .ok d => selectLoop E (shrinkToFit take) d []

/-- `apply_keystream` after `seek(offset)`: XOR with the key stream, `zstd_dag_cbor_seq.rs:421-422`, `439-440`. -/
def applyKeystream (key : E.CKey) : Nat → Bytes → Bytes
  | _, [] => []
  | o, b :: bs => (b ^^^ E.ks key o) :: applyKeystream key (o + 1) bs

variable {E}

/-- `into_encrypted`, `zstd_dag_cbor_seq.rs:411-426`. -/
def intoEncrypted (z : ZSeq) (key : E.CKey) : M E Bytes := do
  let offset ← reserve z.data.length
  pure (E.encNode (offset, z.links, applyKeystream E key offset z.data))

/-- `encrypt`, `zstd_dag_cbor_seq.rs:400-408`: with a fresh `CipherOffset`. -/
def encryptAt (z : ZSeq) (key : E.CKey) (offset : Nat) : Except Err Bytes :=
  if offset + z.data.length < 2 ^ 64 then
    .ok (E.encNode (offset, z.links, applyKeystream E key offset z.data))
  else .error .offsets

variable (E)

/-- `decrypt`, `zstd_dag_cbor_seq.rs:429-443`. -/
def decrypt (data : Bytes) (key : E.CKey) : Except Err (ZSeq × (Nat × Nat)) :=
  match E.decNode data with
  | .error m => .error (.fail m)
  | .ok (offset, links, encrypted) =>
    if offset + encrypted.length < 2 ^ 64 then
      .ok (⟨applyKeystream E key offset encrypted, links⟩, (offset, offset + encrypted.length))
    else .error (.fail "seek offset wraparound")

/-- `deserialize_compressed`, `banyan/src/index.rs:442-450`. -/
def deserializeCompressed (key : E.CKey) (ipld : Bytes) : Except Err (List (Index T) × (Nat × Nat)) :=
  match decrypt E ipld key with
  | .error e => .error e
  | .ok (seq, range) =>
    match ZSeq.itemsIpld E seq with
    | .error e => .error e
    | .ok items => .ok (items, range)

variable {E}

/-- `serialize_compressed`, `banyan/src/index.rs:431-440`. -/
def serializeCompressed (key : E.CKey) (items : List (Index T)) (level : Int) : M E Bytes := do
  let zs ← M.lift (seqFromIterIpld E items level)
  intoEncrypted zs key

end Banyan
