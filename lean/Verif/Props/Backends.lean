import Verif.Spec.Backends
import Verif.Props.Text
import Verif.Props.Stores
/-
The block stores of `banyan-utils` (C78).
-/
set_option autoImplicit false
namespace Banyan

open Cbor (Digest cidDigest digestCid digestBytes)

/-! ### stores that keep the first block for a link -/

/-- A store that keeps the blocks it has, where `has` says which. -/
structure KeepsFirst {L : Type} (I : BlockStore L) (digest : Bytes → L) (has : I.σ → L → Bytes → Prop) : Prop where
  link : ∀ s d l, (I.put s d).1 = .ok l → l = digest d
  stored : ∀ s d l, (I.put s d).1 = .ok l → ∃ b, has (I.put s d).2 l b
  keep : ∀ s d l b, has s l b → has (I.put s d).2 l b
  only : ∀ s d l b, has (I.put s d).2 l b → has s l b ∨ (l = digest d ∧ b = d)
  read : ∀ s l b, has s l b → I.get s l = .ok b

namespace KeepsFirst
variable {L : Type} {I : BlockStore L} {digest : Bytes → L} {has : I.σ → L → Bytes → Prop}

theorem after_keep (h : KeepsFirst I digest has) (calls : List (Call L)) :
    ∀ (s : I.σ) (l : L) (b : Bytes), has s l b → has (I.after s calls) l b := by
  induction calls with
  | nil => exact fun _ _ _ hb => hb
  | cons c cs ih =>
    intro s l b hb
    cases c with
    | get l' => exact ih s l b hb
    | put d => exact ih _ l b (h.keep s d l b hb)

theorem after_only (h : KeepsFirst I digest has) (calls : List (Call L)) :
    ∀ (s : I.σ) (l : L) (b : Bytes), has (I.after s calls) l b → has s l b ∨ (.put b ∈ calls ∧ digest b = l) := by
  induction calls with
  | nil => exact fun _ _ _ hb => .inl hb
  | cons c cs ih =>
    intro s l b hb
    cases c with
    | get l' => exact (ih s l b hb).imp id fun h => ⟨List.mem_cons_of_mem _ h.1, h.2⟩
    | put d =>
      rcases ih _ l b hb with h1 | h1
      · rcases h.only s d l b h1 with h2 | ⟨h2, h3⟩
        · exact .inl h2
        · subst h2 h3
          exact .inr ⟨List.mem_cons_self, rfl⟩
      · exact .inr ⟨List.mem_cons_of_mem _ h1.1, h1.2⟩

theorem holds_link (h : KeepsFirst I digest has) (calls : List (Call L)) :
    ∀ (s : I.σ) (d : Bytes) (l : L), Holds (I.log s calls) d l → l = digest d := by
  induction calls with
  | nil => exact fun _ _ _ hb => nomatch hb
  | cons c cs ih =>
    intro s d l hb
    rcases List.mem_cons.mp hb with hb | hb
    · cases c with
      | get l' => cases hb
      | put d' =>
        injection hb with h1 h2
        injection h1 with h1
        injection h2 with h2
        subst h1
        exact h.link s d l h2.symm
    · exact ih _ d l hb

theorem put_get (h : KeepsFirst I digest has) (calls : List (Call L)) :
    ∀ (s : I.σ) (d : Bytes) (l : L), Free digest (has s) calls → Holds (I.log s calls) d l →
      has (I.after s calls) l d := by
  induction calls with
  | nil => exact fun _ _ _ _ hb => nomatch hb
  | cons c cs ih =>
    intro s d l hf hb
    cases c with
    | get l' =>
      rcases List.mem_cons.mp hb with hb | hb
      · cases hb
      · exact ih s d l ⟨hf.right, fun a b ha hb => hf.free a b (List.mem_cons_of_mem _ ha) (hb.imp (List.mem_cons_of_mem _) id)⟩ hb
    | put e =>
      have hr : ∀ l b, has (I.put s e).2 l b → digest b = l := by
        intro l b hb
        rcases h.only s e l b hb with h1 | ⟨h1, h2⟩
        · exact hf.right l b h1
        · rw [h1, h2]
      rcases List.mem_cons.mp hb with hb | hb
      · injection hb with h1 h2
        injection h1 with h1
        injection h2 with h2
        subst h1
        obtain ⟨b, hb⟩ := h.stored s d l h2.symm
        have : b = d := by
          rcases h.only s d l b hb with h3 | h3
          · exact (hf.free d b List.mem_cons_self (.inr ⟨l, h3⟩) ((h.link s d l h2.symm).symm.trans (hf.right l b h3).symm)).symm
          · exact h3.2
        subst this
        exact h.after_keep cs _ l b hb
      · refine ih _ d l ⟨hr, fun a b ha hb => hf.free a b (List.mem_cons_of_mem _ ha) ?_⟩ hb
        rcases hb with hb | ⟨l', hb⟩
        · exact .inl (List.mem_cons_of_mem _ hb)
        · rcases h.only s e l' b hb with h1 | ⟨_, h1⟩
          · exact .inr ⟨l', h1⟩
          · subst h1
            exact .inl List.mem_cons_self

end KeepsFirst

/-! ### sqlite -/

section Sqlite
variable {db : BlockDb} {sha256 : Bytes → Digest}

theorem digestCid_inj {a b : Digest} (h : digestCid a = digestCid b) : a = b := by
  have := cidDigest_digestCid a
  rw [h, cidDigest_digestCid] at this
  exact (Option.some.inj this).symm

theorem sqliteGet_ok {s : db.σ} {l : Digest} {b : Bytes} : sqliteGet db s l = .ok b ↔ db.Has s l b := by
  unfold sqliteGet BlockDb.Has
  simp only
  split
  · rename_i e he
    rw [he]
    exact ⟨nofun, nofun⟩
  · rename_i b' he
    rw [he]
    constructor
    · intro h
      injection h with h
      rw [h]
    · intro h
      injection h with h
      injection h with h
      rw [h]
  · rename_i he
    rw [he]
    exact ⟨nofun, nofun⟩

theorem sqlite_keepsFirst (hdb : db.Lawful) : KeepsFirst (sqliteStore db sha256) sha256 db.Has := by
  have hs : ∀ s d, ((sqliteStore db sha256).put s d).2 = (db.putBlock s (digestCid (sha256 d)) d).2 := by
    intro s d
    show (sqlitePut db sha256 s d).2 = _
    unfold sqlitePut
    simp only
    split
    · rename_i h; rw [h]
    · rename_i h; rw [h]
  have hl : ∀ s d l, ((sqliteStore db sha256).put s d).1 = .ok l →
      l = sha256 d ∧ (db.putBlock s (digestCid (sha256 d)) d).1 = .ok () := by
    intro s d l h
    have h : (sqlitePut db sha256 s d).1 = .ok l := h
    unfold sqlitePut at h
    simp only at h
    split at h
    · cases h
    · rename_i he
      injection h with h
      rw [he]
      exact ⟨h.symm, rfl⟩
  refine ⟨fun s d l h => (hl s d l h).1, ?_, ?_, ?_, fun s l b h => sqliteGet_ok.mpr h⟩
  · intro s d l h
    obtain ⟨h1, h2⟩ := hl s d l h
    rw [hs, h1]
    exact hdb.stored s _ d h2
  · intro s d l b h
    rw [hs]
    exact hdb.keep s _ d _ b h
  · intro s d l b h
    rw [hs] at h
    exact (hdb.only s _ d _ b h).imp id fun h => ⟨digestCid_inj h.1, h.2⟩

/-- C78: what was put into a `SqliteStore` successfully can be read with the returned link at any later time, with a database that may
have blocks from earlier. -/
theorem C78_sqlite_put_get (hdb : db.Lawful) (s : db.σ) (calls : List (Call Digest)) (hf : Free sha256 (db.Has s) calls)
    (d : Bytes) (l : Digest) (h : Holds ((sqliteStore db sha256).log s calls) d l) :
    (sqliteStore db sha256).get ((sqliteStore db sha256).after s calls) l = .ok d :=
  sqliteGet_ok.mpr ((sqlite_keepsFirst hdb).put_get calls s d l hf h)

/-- C78: what was in the database can still be read; nothing else can be read than that and what was put. -/
theorem C78_sqlite_only (hdb : db.Lawful) (s : db.σ) (calls : List (Call Digest)) (l : Digest) (d : Bytes) :
    ((sqliteStore db sha256).get s l = .ok d → (sqliteStore db sha256).get ((sqliteStore db sha256).after s calls) l = .ok d) ∧
    ((sqliteStore db sha256).get ((sqliteStore db sha256).after s calls) l = .ok d →
      (sqliteStore db sha256).get s l = .ok d ∨ (.put d ∈ calls ∧ sha256 d = l)) :=
  ⟨fun h => sqliteGet_ok.mpr ((sqlite_keepsFirst hdb).after_keep calls s l d (sqliteGet_ok.mp h)),
    fun h => ((sqlite_keepsFirst hdb).after_only calls s l d (sqliteGet_ok.mp h)).imp (fun h => sqliteGet_ok.mpr h) id⟩

end Sqlite

/-! ### ipfs -/

section Ipfs
variable {D : Daemon} {P : Parsers} {sha256 : Bytes → Digest} {has : D.σ → Digest → Bytes → Prop}

theorem parseCid_display (d : Digest) (b58 : List Char → Option Bytes) (ob : Char → List Char → Option Bytes) :
    parseCid b58 ob (displayDigest d) = some (digestCid d) := by
  have h := (C75_round_trip (base58 := b58) (otherBases := ob) d).1
  unfold parseDigest at h
  cases hp : parseCid b58 ob (displayDigest d) with
  | none => rw [hp] at h; cases h
  | some c =>
    rw [hp] at h
    have h : cidDigest c = some d := h
    unfold cidDigest at h
    split at h
    · rename_i r hc
      split at h
      · injection h with h
        subst h
        exact congrArg some (Subtype.ext hc)
      · cases h
    · cases h

theorem cidHash_digestCid (d : Digest) : cidHash (digestCid d) = some (0x12, d.1) := rfl

/-- The reply to a `put`. -/
theorem ipfsPut_eq (hD : D.Lawful P sha256 has) (s : D.σ) (d : Bytes) :
    (ipfsPut D P s d).2 = (D.blockPut s "cbor" false d).2 ∧
    ((ipfsPut D P s d).1 = .ok (sha256 d) ∧ (∃ b, has (D.blockPut s "cbor" false d).2 (sha256 d) b) ∨
      (∃ e, (ipfsPut D P s d).1 = .error (.fail e)) ∧
      ((∃ e, (D.blockPut s "cbor" false d).1 = .error e) ∨ ∃ r, (D.blockPut s "cbor" false d).1 = .ok r ∧ r.status ≠ 200)) := by
  unfold ipfsPut ipfsBlockPut
  have hc : formatCodec 0x71 = .ok "cbor" := rfl
  rw [hc]
  simp only
  cases hb : D.blockPut s "cbor" false d with
  | mk a s' =>
    cases a with
    | error e => exact ⟨rfl, .inr ⟨⟨e, rfl⟩, .inl ⟨e, rfl⟩⟩⟩
    | ok r =>
      have h1 : (D.blockPut s "cbor" false d).1 = .ok r := by rw [hb]
      simp only
      by_cases h200 : r.status = 200
      · obtain ⟨h2, b, h3⟩ := hD.accepted s d r h1 h200
        rw [hb] at h3
        rw [h2]
        simp only
        rw [parseCid_display]
        simp only
        rw [cidHash_digestCid]
        simp only
        rw [if_neg (by simp), if_neg (by rw [(sha256 d).2]; simp), cidDigest_digestCid]
        exact ⟨rfl, .inl ⟨rfl, b, h3⟩⟩
      · rw [hD.refused s d r h1 h200]
        exact ⟨rfl, .inr ⟨⟨_, rfl⟩, .inr ⟨r, rfl, h200⟩⟩⟩

theorem ipfsStore_put {s : D.σ} {d : Bytes} {l : Digest} (h : (ipfsPut D P s d).1 = .ok l) : ((ipfsStore D P).put s d).1 = .ok l := by
  show (match ipfsPut D P s d with
    | (.ok l, s) => ((.ok l : Except String Digest), s)
    | (.error (.fail e), s) => (.error e, s)
    | (.error _, s) => (.error "panic", s)).1 = _
  generalize ipfsPut D P s d = x at h
  obtain ⟨a, s'⟩ := x
  have h : a = .ok l := h
  subst h
  rfl

theorem ipfs_keepsFirst (hD : D.Lawful P sha256 has) : KeepsFirst (ipfsStore D P) sha256 has := by
  have hs : ∀ s d, ((ipfsStore D P).put s d).2 = (D.blockPut s "cbor" false d).2 := by
    intro s d
    rw [← (ipfsPut_eq hD s d).1]
    show (match ipfsPut D P s d with
      | (.ok l, s) => ((.ok l : Except String Digest), s)
      | (.error (.fail e), s) => (.error e, s)
      | (.error _, s) => (.error "panic", s)).2 = _
    split
    · rename_i h; rw [h]
    · rename_i h; rw [h]
    · rename_i h; rw [h]
  have hl : ∀ s d l, ((ipfsStore D P).put s d).1 = .ok l →
      l = sha256 d ∧ ∃ b, has (D.blockPut s "cbor" false d).2 (sha256 d) b := by
    intro s d l h
    have h : (match ipfsPut D P s d with
      | (.ok l, s) => ((.ok l : Except String Digest), s)
      | (.error (.fail e), s) => (.error e, s)
      | (.error _, s) => (.error "panic", s)).1 = .ok l := h
    rcases (ipfsPut_eq hD s d).2 with ⟨h1, h2⟩ | ⟨⟨e, h1⟩, _⟩
    · refine ⟨?_, h2⟩
      generalize ipfsPut D P s d = x at h h1
      obtain ⟨a, s'⟩ := x
      have h1 : a = .ok (sha256 d) := h1
      subst h1
      injection h with h
      exact h.symm
    · exfalso
      generalize ipfsPut D P s d = x at h h1
      obtain ⟨a, s'⟩ := x
      have h1 : a = .error (.fail e) := h1
      subst h1
      cases h
  refine ⟨fun s d l h => (hl s d l h).1, ?_, ?_, ?_, ?_⟩
  · intro s d l h
    obtain ⟨h1, h2⟩ := hl s d l h
    rw [hs, h1]
    exact h2
  · intro s d l b h
    rw [hs]
    exact hD.keep s d l b h
  · intro s d l b h
    rw [hs] at h
    exact hD.only s d l b h
  · intro s l b h
    show ipfsBlockGet D s l = .ok b
    unfold ipfsBlockGet
    rw [hD.found s l b h]

/-- C78: what was put into an `IpfsStore` successfully can be read with the returned link at any later time. -/
theorem C78_ipfs_put_get_partial (hD : D.Lawful P sha256 has) (s : D.σ) (calls : List (Call Digest)) (hf : Free sha256 (has s) calls)
    (d : Bytes) (l : Digest) (h : Holds ((ipfsStore D P).log s calls) d l) :
    (ipfsStore D P).get ((ipfsStore D P).after s calls) l = .ok d :=
  (ipfs_keepsFirst hD).read _ _ _ ((ipfs_keepsFirst hD).put_get calls s d l hf h)

/-- C78: `put` to the daemon does not panic; it returns the digest of the data exactly if the daemon has accepted the block. -/
theorem C78_ipfs_put (hD : D.Lawful P sha256 has) (s : D.σ) (d : Bytes) :
    (∀ m, (ipfsPut D P s d).1 ≠ .error (.panic m)) ∧
    ((ipfsPut D P s d).1 = .ok (sha256 d) ↔ ∃ r, (D.blockPut s "cbor" false d).1 = .ok r ∧ r.status = 200) ∧
    (∀ l, (ipfsPut D P s d).1 = .ok l → l = sha256 d) := by
  rcases (ipfsPut_eq hD s d).2 with ⟨h1, h2⟩ | ⟨⟨e, h1⟩, h2⟩
  · rw [h1]
    refine ⟨nofun, ⟨fun _ => ?_, fun _ => rfl⟩, fun l h => by injection h with h; exact h.symm⟩
    cases hb : (D.blockPut s "cbor" false d).1 with
    | error e =>
      exfalso
      have : (ipfsPut D P s d).1 = .error (.fail e) := by
        unfold ipfsPut ipfsBlockPut
        have hc : formatCodec 0x71 = .ok "cbor" := rfl
        rw [hc]
        simp only
        generalize D.blockPut s "cbor" false d = x at hb
        obtain ⟨a, s'⟩ := x
        have hb : a = .error e := hb
        subst hb
        rfl
      rw [this] at h1
      cases h1
    | ok r =>
      refine ⟨r, rfl, ?_⟩
      by_cases h200 : r.status = 200
      · exact h200
      · exfalso
        have h3 := hD.refused s d r hb h200
        have : (ipfsPut D P s d).1 = .error (.fail "error decoding response body") := by
          unfold ipfsPut ipfsBlockPut
          have hc : formatCodec 0x71 = .ok "cbor" := rfl
          rw [hc]
          simp only
          generalize D.blockPut s "cbor" false d = x at hb
          obtain ⟨a, s'⟩ := x
          have hb : a = .ok r := hb
          subst hb
          simp only
          rw [h3]
        rw [this] at h1
        cases h1
  · rw [h1]
    refine ⟨nofun, ⟨nofun, ?_⟩, nofun⟩
    rintro ⟨r, h3, h4⟩
    rcases h2 with ⟨e', h2⟩ | ⟨r', h2, h5⟩
    · rw [h2] at h3
      cases h3
    · rw [h2] at h3
      injection h3 with h3
      subst h3
      exact absurd h4 h5

/-- C78: reading a block that the daemon does not have is no error: the text of the answer is returned as if it were the block. -/
theorem C78_ipfs_missing (hD : D.Lawful P sha256 has) (s : D.σ) (l : Digest) (h : ∀ b, ¬ has s l b) :
    ∃ r, D.blockGet s (displayDigest l) = .ok r ∧ r.status ≠ 200 ∧ (ipfsStore D P).get s l = .ok r.body := by
  obtain ⟨r, h1, h2⟩ := hD.missing s l h
  refine ⟨r, h1, h2, ?_⟩
  show ipfsBlockGet D s l = _
  unfold ipfsBlockGet
  rw [h1]

end Ipfs

/-! ### the choice -/

section Storage
variable {db : BlockDb} {D : Daemon} {P : Parsers} {sha256 : Bytes → Digest} {has : D.σ → Digest → Bytes → Prop}

theorem _root_.Banyan.MemStore.holds_digest (calls : List (Call Digest)) :
    ∀ (m : MemStore Digest) (d : Bytes) (l : Digest), Holds ((memStore Digest).log m calls) d l → l = m.digest d := by
  induction calls with
  | nil => exact fun _ _ _ hb => nomatch hb
  | cons c cs ih =>
    intro m d l hb
    cases c with
    | get l' =>
      rcases List.mem_cons.mp hb with hb | hb
      · cases hb
      · exact ih m d l hb
    | put e =>
      rcases List.mem_cons.mp hb with hb | hb
      · injection hb with h1 h2
        injection h1 with h1
        injection h2 with h2
        subst h1
        have h2 : Except.ok l = (m.put0 d).1 := h2
        unfold MemStore.put0 at h2
        simp only at h2
        split at h2
        · cases h2
        · injection h2
      · have h1 := ih (m.put0 e).2 d l hb
        rw [h1]
        unfold MemStore.put0
        simp only
        split <;> rfl

theorem storage_run (st : Storage db D) (calls : List (Call Digest)) :
    (∀ m, st = .memory m → (storageStore db D P sha256).log st calls = (memStore Digest).log m calls ∧
      (storageStore db D P sha256).after st calls = .memory ((memStore Digest).after m calls)) ∧
    (∀ s, st = .ipfs s → (storageStore db D P sha256).log st calls = (ipfsStore D P).log s calls ∧
      (storageStore db D P sha256).after st calls = .ipfs ((ipfsStore D P).after s calls)) ∧
    (∀ s, st = .sqlite s → (storageStore db D P sha256).log st calls = (sqliteStore db sha256).log s calls ∧
      (storageStore db D P sha256).after st calls = .sqlite ((sqliteStore db sha256).after s calls)) := by
  induction calls generalizing st with
  | nil =>
    refine ⟨?_, ?_, ?_⟩
    all_goals
      rintro x rfl
      exact ⟨rfl, rfl⟩
  | cons c cs ih =>
    refine ⟨?_, ?_, ?_⟩
    · rintro m rfl
      cases c with
      | get l =>
        obtain ⟨h1, h2⟩ := (ih (.memory m)).1 m rfl
        exact ⟨congrArg (_ :: ·) h1, h2⟩
      | put d =>
        obtain ⟨h1, h2⟩ := (ih (.memory (m.put0 d).2)).1 _ rfl
        exact ⟨congrArg (_ :: ·) h1, h2⟩
    · rintro s rfl
      cases c with
      | get l =>
        obtain ⟨h1, h2⟩ := (ih (.ipfs s)).2.1 s rfl
        exact ⟨congrArg (_ :: ·) h1, h2⟩
      | put d =>
        obtain ⟨h1, h2⟩ := (ih (.ipfs ((ipfsStore D P).put s d).2)).2.1 _ rfl
        exact ⟨congrArg (_ :: ·) h1, h2⟩
    · rintro s rfl
      cases c with
      | get l =>
        obtain ⟨h1, h2⟩ := (ih (.sqlite s)).2.2 s rfl
        exact ⟨congrArg (_ :: ·) h1, h2⟩
      | put d =>
        obtain ⟨h1, h2⟩ := (ih (.sqlite ((sqliteStore db sha256).put s d).2)).2.2 _ rfl
        exact ⟨congrArg (_ :: ·) h1, h2⟩

/-- C78: whichever store the command line tool is told to use, what was put successfully can be read with the returned link, which
is the digest, at any later time. -/
theorem C78_storage_put_get_partial (hdb : db.Lawful) (hD : D.Lawful P sha256 has) (daemon : D.σ) (openDb : String → Except String db.σ)
    (t : String) (st : Storage db D) (ho : parseStorage db D sha256 daemon openDb t = .ok st) (calls : List (Call Digest))
    (hf : Free sha256 (st.Has has) calls) (d : Bytes) (l : Digest) (h : Holds ((storageStore db D P sha256).log st calls) d l) :
    l = sha256 d ∧ (storageStore db D P sha256).get ((storageStore db D P sha256).after st calls) l = .ok d := by
  have hrun := storage_run (P := P) (sha256 := sha256) st calls
  cases st with
  | memory m =>
    obtain ⟨h1, h2⟩ := hrun.1 m rfl
    rw [h1] at h
    rw [h2]
    have hm : m = MemStore.new usizeMax sha256 := by
      unfold parseStorage at ho
      split at ho
      · injection ho with ho
        injection ho with ho
        exact ho.symm
      · split at ho
        · injection ho with ho
          cases ho
        · split at ho
          · cases ho
          · injection ho with ho
            cases ho
    subst hm
    have hcf : CollisionFree sha256 calls := fun a b ha hb => hf.free a b ha (.inl hb)
    refine ⟨?_, C34_put_get sha256 usizeMax calls hcf d l h⟩
    exact MemStore.holds_digest calls (MemStore.new usizeMax sha256) d l h
  | ipfs s =>
    obtain ⟨h1, h2⟩ := hrun.2.1 s rfl
    rw [h1] at h
    rw [h2]
    exact ⟨(ipfs_keepsFirst hD).holds_link calls s d l h, C78_ipfs_put_get_partial hD s calls hf d l h⟩
  | sqlite s =>
    obtain ⟨h1, h2⟩ := hrun.2.2 s rfl
    rw [h1] at h
    rw [h2]
    exact ⟨(sqlite_keepsFirst hdb).holds_link calls s d l h, C78_sqlite_put_get hdb s calls hf d l h⟩

/-- C78: the tool uses the store it is told to use. With `memory` it answers any calls like a new `MemStore`, with `ipfs` like an
`IpfsStore` with the daemon, and with anything else like a `SqliteStore` with the database at this path; if that cannot be opened, there is
an error. What is asked of the daemon or of the database has the effect on it that it would have without the tool. -/
theorem C78_option (daemon : D.σ) (openDb : String → Except String db.σ) :
    (∃ st, parseStorage db D sha256 daemon openDb "memory" = .ok st ∧ ∀ calls,
      (storageStore db D P sha256).log st calls = (memStore Digest).log (MemStore.new usizeMax sha256) calls) ∧
    (∃ st, parseStorage db D sha256 daemon openDb "ipfs" = .ok st ∧ ∀ calls,
      (storageStore db D P sha256).log st calls = (ipfsStore D P).log daemon calls ∧
      (storageStore db D P sha256).after st calls = .ipfs ((ipfsStore D P).after daemon calls)) ∧
    (∀ t s, t ≠ "memory" → t ≠ "ipfs" → openDb t = .ok s → ∃ st, parseStorage db D sha256 daemon openDb t = .ok st ∧ ∀ calls,
      (storageStore db D P sha256).log st calls = (sqliteStore db sha256).log s calls ∧
      (storageStore db D P sha256).after st calls = .sqlite ((sqliteStore db sha256).after s calls)) ∧
    (∀ t e, t ≠ "memory" → t ≠ "ipfs" → openDb t = .error e → parseStorage db D sha256 daemon openDb t = .error e) := by
  refine ⟨⟨.memory (MemStore.new usizeMax sha256), ?_, fun calls => ((storage_run _ calls).1 _ rfl).1⟩,
    ⟨.ipfs daemon, ?_, fun calls => (storage_run _ calls).2.1 _ rfl⟩,
    fun t s h1 h2 h3 => ⟨.sqlite s, ?_, fun calls => (storage_run _ calls).2.2 _ rfl⟩, fun t e h1 h2 h3 => ?_⟩
  · unfold parseStorage
    rw [if_pos rfl]
  · unfold parseStorage
    rw [if_neg (by decide), if_pos rfl]
  · unfold parseStorage
    rw [if_neg h1, if_neg h2, h3]
  · unfold parseStorage
    rw [if_neg h1, if_neg h2, h3]

end Storage

/-! ### examples -/

namespace Concrete

/-- A digest for tests: the first 32 bytes, with zeros at the end. -/
def shortDigest (d : Bytes) : Digest :=
  ⟨(d ++ List.replicate 32 0).take 32, by rw [List.length_take, List.length_append, List.length_replicate]; omega⟩

/-- Insertion that keeps the first entry for a key. -/
def insertFirst {K : Type} [DecidableEq K] (s : List (K × Bytes)) (k : K) (b : Bytes) : List (K × Bytes) :=
  if (mapGet s k).isSome then s else s ++ [(k, b)]

section InsertFirst
variable {K : Type} [DecidableEq K]

theorem mapGet_append (s : List (K × Bytes)) (k : K) (b : Bytes) (k' : K) :
    mapGet (s ++ [(k, b)]) k' = (mapGet s k').or (if k = k' then some b else none) := by
  induction s with
  | nil => simp only [List.nil_append, mapGet, Option.none_or]
  | cons x r ih =>
    obtain ⟨a, c⟩ := x
    simp only [List.cons_append, mapGet]
    split
    · rfl
    · exact ih

theorem insertFirst_stored (s : List (K × Bytes)) (k : K) (b : Bytes) : ∃ b', mapGet (insertFirst s k b) k = some b' := by
  unfold insertFirst
  split
  · rename_i h
    exact Option.isSome_iff_exists.mp h
  · rename_i h
    exact ⟨b, by rw [mapGet_append, Option.not_isSome_iff_eq_none.mp h, if_pos rfl]; rfl⟩

theorem insertFirst_keep {s : List (K × Bytes)} {k' : K} {b' : Bytes} (h : mapGet s k' = some b') (k : K) (b : Bytes) :
    mapGet (insertFirst s k b) k' = some b' := by
  unfold insertFirst
  split
  · exact h
  · rw [mapGet_append, h]
    rfl

theorem insertFirst_only {s : List (K × Bytes)} {k k' : K} {b b' : Bytes} (h : mapGet (insertFirst s k b) k' = some b') :
    mapGet s k' = some b' ∨ (k' = k ∧ b' = b) := by
  unfold insertFirst at h
  split at h
  · exact .inl h
  · rw [mapGet_append] at h
    cases hg : mapGet s k' with
    | some x =>
      rw [hg] at h
      exact .inl h
    | none =>
      rw [hg] at h
      by_cases hc : k = k'
      · rw [if_pos hc] at h
        injection h with h
        exact .inr ⟨hc.symm, h.symm⟩
      · rw [if_neg hc] at h
        cases h

end InsertFirst

/-- A database for tests. -/
def toyDb : BlockDb where
  σ := List (Cid × Bytes)
  getBlock := fun s c => .ok (mapGet s c)
  putBlock := fun s c b => (.ok (), insertFirst s c b)

theorem toyDb_lawful : toyDb.Lawful where
  stored := fun s c b _ => (insertFirst_stored (show List (Cid × Bytes) from s) c b).imp fun _ h => congrArg Except.ok h
  keep := fun _ c b _ _ h => congrArg Except.ok (insertFirst_keep (Except.ok.inj h) c b)
  only := fun _ _ _ _ _ h => (insertFirst_only (Except.ok.inj h)).imp (fun h => congrArg Except.ok h) id

/-- "not found" -/
def notFound : Bytes := [110, 111, 116, 32, 102, 111, 117, 110, 100]

/-- A daemon for tests. -/
def toyDaemon : Daemon where
  σ := List (List Char × Bytes)
  blockGet := fun s t =>
    match mapGet s t with
    | some b => .ok ⟨200, b⟩
    | none => .ok ⟨500, notFound⟩
  blockPut := fun s _ _ b =>
    if b.length > 1000 then (.ok ⟨500, notFound⟩, s)
    else
      let t := displayDigest (shortDigest b)
      (.ok ⟨200, 0 :: t.map (fun c => UInt8.ofNat c.toNat)⟩, insertFirst s t b)

/-- The parsers that go with it. -/
def toyParsers : Parsers where
  jsonKey := fun b =>
    match b with
    | 0 :: r => some (r.map fun x => Char.ofNat x.toNat)
    | _ => none
  base58 := fun _ => none
  otherBases := fun _ _ => none

/-- The blocks of the daemon. -/
def toyHas (s : toyDaemon.σ) (l : Digest) (b : Bytes) : Prop := mapGet (show List (List Char × Bytes) from s) (displayDigest l) = some b

theorem symbols_ascii : ∀ c ∈ base32Symbols, Char.ofNat (UInt8.ofNat c.toNat).toNat = c := by decide +kernel

theorem toyDaemon_lawful : toyDaemon.Lawful toyParsers shortDigest toyHas where
  found := by
    intro s l b h
    simp only [toyDaemon]
    rw [show mapGet s (displayDigest l) = some b from h]
  missing := by
    intro s l h
    refine ⟨⟨500, notFound⟩, ?_, by simp⟩
    simp only [toyDaemon]
    cases hg : mapGet (show List (List Char × Bytes) from s) (displayDigest l) with
    | some b => exact absurd hg (h b)
    | none => rfl
  accepted := by
    intro s b r h h200
    simp only [toyDaemon] at h
    split at h
    · injection h with h
      subst h
      cases h200
    · rename_i hl
      injection h with h
      subst h
      constructor
      · simp only [toyParsers, List.map_map]
        congr 1
        refine (List.map_congr_left ?_).trans (List.map_id _)
        intro c hc
        exact symbols_ascii c (display_symbols _ c hc)
      · simp only [toyDaemon, if_neg hl]
        exact insertFirst_stored (show List (List Char × Bytes) from s) _ b
  refused := by
    intro s b r h h200
    simp only [toyDaemon] at h
    split at h
    · injection h with h
      subst h
      rfl
    · injection h with h
      subst h
      exact absurd rfl h200
  keep := by
    intro s b l' b' h
    simp only [toyDaemon]
    split
    · exact h
    · exact insertFirst_keep h _ b
  only := by
    intro s b l' b' h
    simp only [toyDaemon] at h
    split at h
    · exact .inl h
    · exact (insertFirst_only h).imp id fun h => ⟨C75_injective h.1, h.2⟩

/-- A database with one block from earlier; a block is put, read, and put again. -/
def oldDb : List (Cid × Bytes) := [(digestCid (shortDigest [7, 8]), [7, 8])]

def calls3 : List (Call Digest) := [.put [1, 2], .get (shortDigest [7, 8]), .put [3], .put [1, 2]]

theorem toy_inj3 : ∀ a ∈ [[1, 2], [3], ([7, 8] : Bytes)], ∀ b ∈ [[1, 2], [3], ([7, 8] : Bytes)],
    shortDigest a = shortDigest b → a = b := by decide +kernel

theorem calls3_mem {d : Bytes} (h : Call.put d ∈ calls3) : d = [1, 2] ∨ d = [3] := by
  simp only [calls3, List.mem_cons, Call.put.injEq, List.not_mem_nil, or_false, false_or, reduceCtorEq] at h
  rcases h with h | h | h
  · exact .inl h
  · exact .inr h
  · exact .inl h

theorem calls3_free {L : Digest → Bytes → Prop} (hL : ∀ l b, L l b → b = [7, 8] ∧ shortDigest [7, 8] = l) : Free shortDigest L calls3 := by
  refine ⟨fun l b h => ?_, fun d d' h h' => toy_inj3 d ?_ d' ?_⟩
  · obtain ⟨rfl, h1⟩ := hL l b h
    exact h1
  · rcases calls3_mem h with rfl | rfl <;> simp
  · rcases h' with h' | ⟨l, h'⟩
    · rcases calls3_mem h' with rfl | rfl <;> simp
    · rw [(hL l d' h').1]; simp

theorem oldDb_has {l : Digest} {b : Bytes} (h : toyDb.Has oldDb l b) : b = [7, 8] ∧ shortDigest [7, 8] = l := by
  have h : mapGet oldDb (digestCid l) = some b := by
    injection h
  simp only [oldDb, mapGet] at h
  split at h
  · rename_i hc
    injection h with h
    exact ⟨h.symm, digestCid_inj hc⟩
  · cases h

/-- The theorem about sqlite is applicable, and the block from earlier is still there. -/
example : (sqliteStore toyDb shortDigest).get ((sqliteStore toyDb shortDigest).after oldDb calls3) (shortDigest [3]) = .ok [3] :=
  C78_sqlite_put_get toyDb_lawful _ calls3 (calls3_free fun _ _ => oldDb_has) _ _
    (by exact List.mem_cons_of_mem _ (List.mem_cons_of_mem _ List.mem_cons_self))

example : (sqliteStore toyDb shortDigest).get ((sqliteStore toyDb shortDigest).after oldDb calls3) (shortDigest [7, 8]) = .ok [7, 8] :=
  (C78_sqlite_only toyDb_lawful _ calls3 _ _).1 (by rfl)

theorem toy_put (s : toyDaemon.σ) (d : Bytes) (hd : d.length ≤ 1000) :
    ((ipfsStore toyDaemon toyParsers).put s d).1 = .ok (shortDigest d) := by
  have h := (C78_ipfs_put toyDaemon_lawful s d).2.1.mpr (by
    simp only [toyDaemon]
    rw [if_neg (by omega)]
    exact ⟨_, rfl, rfl⟩)
  exact ipfsStore_put h

theorem toyHas_nil (l : Digest) (b : Bytes) : ¬ toyHas [] l b := nofun

theorem free1 (d : Bytes) : Free shortDigest (toyHas []) [.put d] := by
  refine ⟨fun _ _ h => absurd h (toyHas_nil _ _), fun a b h h' _ => ?_⟩
  rcases h' with h' | ⟨_, h'⟩
  · rw [List.mem_singleton] at h h'
    injection h.trans h'.symm
  · exact absurd h' (toyHas_nil _ _)

theorem toy_put_get (d : Bytes) (hd : d.length ≤ 1000) :
    (ipfsStore toyDaemon toyParsers).get ((ipfsStore toyDaemon toyParsers).put [] d).2 (shortDigest d) = .ok d :=
  C78_ipfs_put_get_partial toyDaemon_lawful [] [.put d] (free1 d) d (shortDigest d)
    (List.mem_singleton.mpr (Prod.ext rfl (congrArg Answer.stored (toy_put [] d hd).symm)))

/-- The theorem about ipfs is applicable. -/
example : (ipfsStore toyDaemon toyParsers).get ((ipfsStore toyDaemon toyParsers).after [] calls3) (shortDigest [3]) = .ok [3] :=
  C78_ipfs_put_get_partial toyDaemon_lawful _ calls3 (calls3_free fun _ _ h => by cases h) _ _
    (by
      have h := toy_put ((ipfsStore toyDaemon toyParsers).put [] [1, 2]).2 [3] (by decide)
      refine List.mem_cons_of_mem _ (List.mem_cons_of_mem _ (List.mem_cons.mpr (.inl ?_)))
      exact Prod.ext rfl (congrArg Answer.stored h.symm))

/-- The tool with a database. -/
example : (shortDigest [3]) = shortDigest [3] ∧ (storageStore toyDb toyDaemon toyParsers shortDigest).get
    ((storageStore toyDb toyDaemon toyParsers shortDigest).after (.sqlite oldDb) calls3) (shortDigest [3]) = .ok [3] :=
  C78_storage_put_get_partial toyDb_lawful toyDaemon_lawful [] (fun _ => .ok oldDb) "blocks.sqlite" _ rfl calls3
    (calls3_free fun _ _ => oldDb_has) _ _
    (by exact List.mem_cons_of_mem _ (List.mem_cons_of_mem _ List.mem_cons_self))

/-- C78: an `IpfsStore` returns a block that was never stored, and for the same link another one as soon as the right one is stored: it is
not content-addressed. -/
theorem C78_refuted : ∃ (D : Daemon) (P : Parsers) (sha256 : Bytes → Digest) (has : D.σ → Digest → Bytes → Prop) (s : D.σ) (d b : Bytes),
    D.Lawful P sha256 has ∧ (∀ l b, ¬ has s l b) ∧ (ipfsStore D P).get s (sha256 d) = .ok b ∧ b ≠ d ∧
    ((ipfsStore D P).put s d).1 = .ok (sha256 d) ∧ (ipfsStore D P).get ((ipfsStore D P).put s d).2 (sha256 d) = .ok d :=
  ⟨toyDaemon, toyParsers, shortDigest, toyHas, [], [1, 2], notFound, toyDaemon_lawful, toyHas_nil, rfl, by decide,
    toy_put _ _ (by decide), toy_put_get _ (by decide)⟩

end Concrete

end Banyan
