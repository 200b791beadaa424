import Verif.Spec.Stores
import Verif.Model.Backends
/-
What is assumed about the database and the daemon, and when the use of a store is free of collisions.
-/
set_option autoImplicit false
namespace Banyan

open Cbor (Digest cidDigest digestCid digestBytes)

/-- What is assumed about the database: a block that is there stays; a successful `put_block` has stored the block, unless there
already is one for the content identifier; nothing else appears. -/
structure BlockDb.Lawful (db : BlockDb) : Prop where
  stored : ∀ s c b, (db.putBlock s c b).1 = .ok () → ∃ b', db.getBlock (db.putBlock s c b).2 c = .ok (some b')
  keep : ∀ s c b c' b', db.getBlock s c' = .ok (some b') → db.getBlock (db.putBlock s c b).2 c' = .ok (some b')
  only : ∀ s c b c' b', db.getBlock (db.putBlock s c b).2 c' = .ok (some b') →
    db.getBlock s c' = .ok (some b') ∨ (c' = c ∧ b' = b)

/-- What is assumed about the daemon, where `has` says which blocks it has: it hands out the blocks it has with status 200 and answers
with another status otherwise; a `block/put` that is answered with status 200 has stored the block (unless there is one for the
digest) and has told the content identifier in version 1, codec dag-cbor, and sha256; other answers have no `Key`. -/
structure Daemon.Lawful (D : Daemon) (P : Parsers) (sha256 : Bytes → Digest) (has : D.σ → Digest → Bytes → Prop) : Prop where
  found : ∀ s l b, has s l b → D.blockGet s (displayDigest l) = .ok ⟨200, b⟩
  missing : ∀ s l, (∀ b, ¬ has s l b) → ∃ r, D.blockGet s (displayDigest l) = .ok r ∧ r.status ≠ 200
  accepted : ∀ s b r, (D.blockPut s "cbor" false b).1 = .ok r → r.status = 200 →
    P.jsonKey r.body = some (displayDigest (sha256 b)) ∧ ∃ b', has (D.blockPut s "cbor" false b).2 (sha256 b) b'
  refused : ∀ s b r, (D.blockPut s "cbor" false b).1 = .ok r → r.status ≠ 200 → P.jsonKey r.body = none
  keep : ∀ s b l' b', has s l' b' → has (D.blockPut s "cbor" false b).2 l' b'
  only : ∀ s b l' b', has (D.blockPut s "cbor" false b).2 l' b' → has s l' b' ∨ (l' = sha256 b ∧ b' = b)

/-- The blocks in a database. -/
def BlockDb.Has (db : BlockDb) (s : db.σ) (l : Digest) (b : Bytes) : Prop := db.getBlock s (digestCid l) = .ok (some b)

/-- The blocks in a store. -/
def Storage.Has {db : BlockDb} {D : Daemon} (has : D.σ → Digest → Bytes → Prop) : Storage db D → Digest → Bytes → Prop
  | .memory m, l, b => m.get l = .ok b
  | .ipfs s, l, b => has s l b
  | .sqlite s, l, b => db.Has s l b

/-- The blocks at the start have the right links, and the blocks that are put have no collision among each other or with these. -/
structure Free {L : Type} (digest : Bytes → L) (atStart : L → Bytes → Prop) (calls : List (Call L)) : Prop where
  right : ∀ l b, atStart l b → digest b = l
  free : ∀ d d', .put d ∈ calls → (.put d' ∈ calls ∨ ∃ l, atStart l d') → digest d = digest d' → d = d'

end Banyan
