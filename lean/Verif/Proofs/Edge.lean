import Verif.Spec.Edge
import Verif.Proofs.Partial
import Verif.Proofs.Extend
/-
Appending reads the blocks at the right edge only: two runs side by side, in two stores that have these blocks in common.
-/
set_option autoImplicit false
namespace Banyan

variable {T : TreeTypes} {V : Type} {E : Env T V} {cx : Ctx E} {α β : Type}

/-- Blocks that are known to be in both stores. -/
abbrev Known (T : TreeTypes) := T.Link → Bytes → Prop

/-- The start of two runs: the blocks put so far in the first one, and the blocks it has. -/
structure Origin (T : TreeTypes) where
  puts : List Bytes
  had : T.Link → Bytes → Prop

/-- The blocks at the right edge are known. -/
inductive EdgeKnown (E : Env T V) (sec : Secrets E) (K : Known T) : Index T → Prop
  | full (i : Index T) : i.isSealed = true → EdgeKnown E sec K i
  | purged (i : Index T) : i.link = none → EdgeKnown E sec K i
  | leaf (i : LeafIndex T) (l : T.Link) (b : Bytes) : i.link = some l → K l b → EdgeKnown E sec K (.leaf i)
  | branch (i : BranchIndex T) (l : T.Link) (b : Bytes) (cs : List (Index T)) (r : Nat × Nat) : i.link = some l → K l b →
      (∀ σ, E.get σ l = .ok b → loadBranchFromLink E sec σ l = .ok ⟨cs, r⟩) → (∀ c, cs.getLast? = some c → EdgeKnown E sec K c) →
      EdgeKnown E sec K (.branch i)

theorem EdgeKnown.mono {sec : Secrets E} {K K' : Known T} (hk : ∀ l b, K l b → K' l b) {i : Index T} (h : EdgeKnown E sec K i) :
    EdgeKnown E sec K' i := by
  induction h with
  | full i h => exact .full i h
  | purged i h => exact .purged i h
  | leaf i l b h1 h2 => exact .leaf i l b h1 (hk _ _ h2)
  | branch i l b cs r h1 h2 h3 _ ih => exact .branch i l b cs r h1 (hk _ _ h2) h3 ih

/-- Two states side by side. `p` and `p2` are what was put before. -/
structure Twin (E : Env T V) (sec : Secrets E) (K : Known T) (p : Origin T) (p2 : List Bytes) (s s2 : St E) : Prop where
  root : s2.root = s.root
  offset : s2.offset = s.offset
  puts : ∃ bs, s.puts = p.puts ++ bs ∧ s2.puts = p2 ++ bs
  alike : Alike E s.store s2.store
  left : ∀ l b, K l b → E.get s.store l = .ok b
  right : ∀ l b, K l b → E.get s2.store l = .ok b
  new : Frugal E → ∀ l b, E.get s.store l = .ok b → p.had l b ∨ K l b
  co : Coherent E sec s
  co2 : Coherent E sec s2

/-- Both runs end alike. -/
def Both (sec : Secrets E) (K : Known T) (p : Origin T) (p2 : List Bytes) (m : M E α) (s s2 : St E) (Q : Known T → α → Prop) : Prop :=
  match m s with
  | .ok a s' => ∃ K' s2', m s2 = .ok a s2' ∧ (∀ l b, K l b → K' l b) ∧ Twin E sec K' p p2 s' s2' ∧ (Small E s' → Small E s ∧ Q K' a)
  | .error e s' => ∃ K' s2', m s2 = .error e s2' ∧ (∀ l b, K l b → K' l b) ∧ Twin E sec K' p p2 s' s2'

section
variable {sec : Secrets E} {K : Known T} {p : Origin T} {p2 : List Bytes} {s s2 : St E}

theorem Both.bind {m : M E α} {f : α → M E β} {Q : Known T → α → Prop} {R : Known T → β → Prop} (hm : Both sec K p p2 m s s2 Q)
    (hf : ∀ K' a s' s2', (∀ l b, K l b → K' l b) → Twin E sec K' p p2 s' s2' → (Small E s' → Small E s ∧ Q K' a) →
      Both sec K' p p2 (f a) s' s2' fun K'' b => Small E s' → R K'' b) : Both sec K p p2 (m >>= f) s s2 R := by
  unfold Both at hm ⊢
  show match EStateM.bind m f s with | .ok a s' => _ | .error e s' => _
  unfold EStateM.bind
  cases h1 : m s with
  | ok a s' =>
    rw [h1] at hm
    obtain ⟨K', s2', g1, g2, g3, g4⟩ := hm
    have hf := hf K' a s' s2' g2 g3 g4
    unfold Both at hf
    show match f a s' with | .ok a s' => _ | .error e s' => _
    cases h2 : f a s' with
    | ok b s'' =>
      rw [h2] at hf
      obtain ⟨K'', s2'', k1, k2, k3, k4⟩ := hf
      refine ⟨K'', s2'', ?_, fun l b h => k2 l b (g2 l b h), k3, fun hs => ⟨(g4 (k4 hs).1).1, (k4 hs).2 (k4 hs).1⟩⟩
      show EStateM.bind m f s2 = _
      unfold EStateM.bind
      rw [g1]
      exact k1
    | error e s'' =>
      rw [h2] at hf
      obtain ⟨K'', s2'', k1, k2, k3⟩ := hf
      refine ⟨K'', s2'', ?_, fun l b h => k2 l b (g2 l b h), k3⟩
      show EStateM.bind m f s2 = _
      unfold EStateM.bind
      rw [g1]
      exact k1
  | error e s' =>
    rw [h1] at hm
    obtain ⟨K', s2', g1, g2, g3⟩ := hm
    refine ⟨K', s2', ?_, g2, g3⟩
    show EStateM.bind m f s2 = _
    unfold EStateM.bind
    rw [g1]

theorem Both.weaken {m : M E α} {Q R : Known T → α → Prop} (h : Both sec K p p2 m s s2 Q) (hq : ∀ K' a, Q K' a → R K' a) :
    Both sec K p p2 m s s2 R := by
  unfold Both at h ⊢
  cases h1 : m s with
  | ok a s' =>
    rw [h1] at h
    obtain ⟨K', s2', g1, g2, g3, g4⟩ := h
    exact ⟨K', s2', g1, g2, g3, fun hs => ⟨(g4 hs).1, hq _ _ (g4 hs).2⟩⟩
  | error e s' => rw [h1] at h; exact h

theorem Both.pure (h : Twin E sec K p p2 s s2) {Q : Known T → α → Prop} {a : α} (hq : Small E s → Q K a) :
    Both sec K p p2 (pure a) s s2 Q := ⟨K, s2, rfl, fun _ _ h => h, h, fun hs => ⟨hs, hq hs⟩⟩

theorem Both.throw (h : Twin E sec K p p2 s s2) {Q : Known T → α → Prop} (e : Err) : Both sec K p p2 (throw e) s s2 Q :=
  ⟨K, s2, rfl, fun _ _ h => h, h⟩

theorem Both.lift (h : Twin E sec K p p2 s s2) (x : Except Err α) : Both sec K p p2 (M.lift x) s s2 fun _ a => x = .ok a := by
  cases x with
  | ok a => exact ⟨K, s2, rfl, fun _ _ h => h, h, fun hs => ⟨hs, rfl⟩⟩
  | error e => exact ⟨K, s2, rfl, fun _ _ h => h, h⟩

theorem Both.assertBind (h : Twin E sec K p p2 s s2) {b : Bool} {msg : String} {m : M E α} {Q : Known T → α → Prop}
    (hm : b = true → Both sec K p p2 m s s2 Q) : Both sec K p p2 (M.assert b msg >>= fun _ => m) s s2 Q := by
  cases b with
  | false => exact Both.throw h _
  | true => exact hm rfl

theorem Both.ensureBind (h : Twin E sec K p p2 s s2) {b : Bool} {msg : String} {m : M E α} {Q : Known T → α → Prop}
    (hm : b = true → Both sec K p p2 m s s2 Q) : Both sec K p p2 (M.ensure b msg >>= fun _ => m) s s2 Q := by
  cases b with
  | false => exact Both.throw h _
  | true => exact hm rfl

theorem Both.reserve (h : Twin E sec K p p2 s s2) (n : Nat) : Both sec K p p2 (reserve n) s s2 fun _ a => a + n < 2 ^ 64 := by
  unfold Both Banyan.reserve
  by_cases hn : s.offset + n < 2 ^ 64
  · have hn2 : s2.offset + n < 2 ^ 64 := by rw [h.offset]; exact hn
    rw [if_pos hn]
    refine ⟨K, { s2 with offset := s2.offset + n }, ?_, fun _ _ h => h, ?_, fun hs => ⟨hs, hn⟩⟩
    · simp only [if_pos hn2]; rw [h.offset]
    · exact ⟨h.root, by show s2.offset + n = s.offset + n; rw [h.offset], h.puts, h.alike, h.left, h.right, h.new,
        Coherent.mono (fun _ _ h => h) rfl h.co, Coherent.mono (fun _ _ h => h) rfl h.co2⟩
  · have hn2 : ¬s2.offset + n < 2 ^ 64 := by rw [h.offset]; exact hn
    rw [if_neg hn]
    exact ⟨K, s2, by simp only [if_neg hn2], fun _ _ h => h, h⟩

theorem Both.log (h : Twin E sec K p p2 s s2) (items : List (Index T)) :
    Both sec K p p2 (logBranch items) s s2 fun _ _ => (items.map E.encIdx).flatten.length ≤ maxCapacity :=
  ⟨K, { s2 with written := s2.written ++ [items] }, rfl, fun _ _ h => h,
    ⟨h.root, h.offset, h.puts, h.alike, h.left, h.right, h.new, Coherent.mono (fun _ _ h => h) rfl h.co, Coherent.mono (fun _ _ h => h) rfl h.co2⟩,
    fun hs => ⟨fun cs hcs => hs cs (List.mem_append_left _ hcs), hs items (List.mem_append_right _ (List.mem_singleton.2 rfl))⟩⟩

theorem Alike.put {σ σ' : E.σ} (h : Alike E σ σ') (d : Bytes) : Alike E (E.put σ d).2 (E.put σ' d).2 := fun ds => h (d :: ds)

theorem Both.put (he : E.Lawful) (h : Twin E sec K p p2 s s2) (d : Bytes) : Both sec K p p2 (putBlock d) s s2 fun K' l => K' l d := by
  unfold Both putBlock
  have h0 : (E.put s2.store d).1 = (E.put s.store d).1 := h.alike [] d
  have h3 := he.put_mono s.store d
  have h3' := he.put_mono s2.store d
  have h4 := he.put_ok s.store d
  have h4' := he.put_ok s2.store d
  have h5 := h.alike.put d
  have h6 := fun hf : Frugal E => hf s.store d
  obtain ⟨bs, hb1, hb2⟩ := h.puts
  cases h1 : E.put s.store d with
  | mk r σ =>
    cases h2 : E.put s2.store d with
    | mk r2 σ2 =>
      rw [h1, h2] at h0 h5
      rw [h1] at h3 h4 h6
      rw [h2] at h3' h4'
      simp only at h0 h3 h3' h4 h4' h5 h6
      subst h0
      cases r2 with
      | ok l =>
        refine ⟨fun l' b => K l' b ∨ (l' = l ∧ b = d), { s2 with store := σ2, puts := s2.puts ++ [d] }, rfl, fun _ _ h => .inl h, ?_,
          fun hs => ⟨hs, .inr ⟨rfl, rfl⟩⟩⟩
        exact {
          root := h.root
          offset := h.offset
          puts := ⟨bs ++ [d], by show s.puts ++ [d] = _; rw [hb1, List.append_assoc], by show s2.puts ++ [d] = _; rw [hb2, List.append_assoc]⟩
          alike := h5
          left := by
            rintro l' b (hk | ⟨rfl, rfl⟩)
            · exact h3 _ _ (h.left _ _ hk)
            · exact h4 _ rfl
          right := by
            rintro l' b (hk | ⟨rfl, rfl⟩)
            · exact h3' _ _ (h.right _ _ hk)
            · exact h4' _ rfl
          new := by
            intro hf l' b hb
            rcases h6 hf l' b hb with hg | ⟨hg, rfl⟩
            · exact (h.new hf l' b hg).imp_right .inl
            · cases hg
              exact .inr (.inr ⟨rfl, rfl⟩)
          co := Coherent.mono h3 rfl h.co
          co2 := Coherent.mono h3' rfl h.co2 }
      | error m =>
        refine ⟨K, { s2 with store := σ2, puts := s2.puts ++ [d] }, rfl, fun _ _ h => h, ?_⟩
        exact {
          root := h.root
          offset := h.offset
          puts := ⟨bs ++ [d], by show s.puts ++ [d] = _; rw [hb1, List.append_assoc], by show s2.puts ++ [d] = _; rw [hb2, List.append_assoc]⟩
          alike := h5
          left := fun l' b hk => h3 _ _ (h.left _ _ hk)
          right := fun l' b hk => h3' _ _ (h.right _ _ hk)
          new := by
            intro hf l' b hb
            rcases h6 hf l' b hb with hg | ⟨hg, _⟩
            · exact h.new hf l' b hg
            · cases hg
          co := Coherent.mono h3 rfl h.co
          co2 := Coherent.mono h3' rfl h.co2 }

theorem loadBranchCached_known (he : E.Lawful) {l : T.Link} {b : Branch T} (hc : Coherent E sec s)
    (hl : loadBranchFromLink E sec s.store l = .ok b) :
    ∃ c, loadBranchCached sec l s = .ok b { s with cache := c } ∧ Coherent E sec { s with cache := c } := by
  obtain ⟨c, h1, ⟨b', h2, h3⟩ | ⟨e, h2, h3⟩⟩ := loadBranchCached_coherent he hc l
  · rw [← h3 b hl] at h2
    exact ⟨c, h2, h1⟩
  · rw [hl] at h3; cases h3

theorem Both.loadBranch (he : E.Lawful) (h : Twin E sec K p p2 s s2) {l : T.Link} {b : Bytes} {x : Branch T} (hk : K l b)
    (hl : ∀ σ, E.get σ l = .ok b → loadBranchFromLink E sec σ l = .ok x) {f : Branch T → M E β} {R : Known T → β → Prop}
    (hf : ∀ s' s2', s'.written = s.written → Twin E sec K p p2 s' s2' → Both sec K p p2 (f x) s' s2' R) :
    Both sec K p p2 (loadBranchCached sec l >>= f) s s2 R := by
  obtain ⟨c, h1, h2⟩ := loadBranchCached_known he h.co (hl _ (h.left _ _ hk))
  obtain ⟨c', h1', h2'⟩ := loadBranchCached_known he h.co2 (hl _ (h.right _ _ hk))
  have ht : Twin E sec K p p2 { s with cache := c } { s2 with cache := c' } :=
    ⟨h.root, h.offset, h.puts, h.alike, h.left, h.right, h.new, h2, h2'⟩
  have hf := hf { s with cache := c } _ rfl ht
  unfold Both at hf ⊢
  have e1 : (loadBranchCached sec l >>= f) s = f x { s with cache := c } := by
    show EStateM.bind _ f s = _
    unfold EStateM.bind
    rw [h1]
  have e2 : (loadBranchCached sec l >>= f) s2 = f x { s2 with cache := c' } := by
    show EStateM.bind _ f s2 = _
    unfold EStateM.bind
    rw [h1']
  rw [e1, e2]
  exact hf

theorem Both.loadLeaf (h : Twin E sec K p p2 s s2) {l : T.Link} {b : Bytes} (hk : K l b) :
    Both sec K p p2 (loadLeafM sec l) s s2 fun _ _ => True := by
  have h1 : loadLeafFromLink E sec s2.store l = loadLeafFromLink E sec s.store l := by
    unfold loadLeafFromLink
    rw [getBlock_congr (by rw [h.left _ _ hk, h.right _ _ hk] : E.get s2.store l = E.get s.store l)]
  unfold Both loadLeafM
  rw [h1]
  cases loadLeafFromLink E sec s.store l with
  | ok x => exact ⟨K, s2, rfl, fun _ _ h => h, h, fun hs => ⟨hs, trivial⟩⟩
  | error e => exact ⟨K, s2, rfl, fun _ _ h => h, h⟩

theorem Both.encrypt (h : Twin E sec K p p2 s s2) (z : ZSeq) (key : E.CKey) :
    Both sec K p p2 (intoEncrypted z key) s s2 fun _ b => ∃ o, o + z.data.length < 2 ^ 64 ∧
      b = E.encNode (o, z.links, applyKeystream E key o z.data) := by
  unfold intoEncrypted
  refine Both.bind (Both.reserve h _) fun K' o s' s2' hk ht hq => Both.pure ht fun hs hs' => ⟨o, (hq hs').2, rfl⟩

end

/-! ### the functions -/

section
variable {K : Known T} {p : Origin T} {p2 : List Bytes} {s s2 : St E}

theorem extendLeaf_both (he : E.Lawful) (h : Twin E cx.sec K p p2 s s2) (compressed : Bytes) (keys : Option T.KeySeq)
    (xs : List (T.Key × V)) :
    Both cx.sec K p p2 (extendLeaf cx compressed keys xs) s s2 fun K' r => EdgeKnown E cx.sec K' (.leaf r.1) := by
  unfold extendLeaf
  refine Both.assertBind h fun _ => Both.bind (Both.lift h _) ?_
  rintro K1 ⟨z, sealed, ks, rest⟩ s1 s21 hk1 h1 -
  refine Both.bind (Both.encrypt h1 z _) fun K2 b s2' s22 hk2 h2 _ => Both.bind (Both.put he h2 b) fun K3 l s3 s23 hk3 h3 hq => ?_
  exact Both.pure h3 fun _ hs _ _ => .leaf _ l b rfl (hq hs).2

theorem leafFromIter_both (he : E.Lawful) (h : Twin E cx.sec K p p2 s s2) (xs : List (T.Key × V)) :
    Both cx.sec K p p2 (leafFromIter cx xs) s s2 fun K' r => EdgeKnown E cx.sec K' (.leaf r.1) := by
  unfold leafFromIter
  exact Both.assertBind h fun _ => extendLeaf_both he h _ _ _

theorem persistBranch_both (he : E.Lawful) (h : Twin E cx.sec K p p2 s s2) (items : List (Index T)) (hne : items ≠ []) :
    Both cx.sec K p p2 (persistBranch cx items) s s2 fun K' r => ∃ b x, K' r.1 b ∧
      ∀ σ, E.get σ r.1 = .ok b → loadBranchFromLink E cx.sec σ r.1 = .ok ⟨items, x⟩ := by
  unfold persistBranch serializeCompressed
  refine Both.bind (Both.log h items) fun K1 _ s1 s21 hk1 h1 hq1 => ?_
  refine Both.bind (Q := fun _ b => ∃ o links, o + (E.zfin cx.cfg.zstdLevel (items.map E.encIdx)).length < 2 ^ 64 ∧
    b = E.encNode (o, links, applyKeystream E cx.sec.indexKey o (E.zfin cx.cfg.zstdLevel (items.map E.encIdx)))) ?_ ?_
  · rcases seqFromIterIpld_spec (cx := cx) he (fun _ => True) items cx.cfg.zstdLevel with ⟨links, g1, _⟩ | ⟨e', g1, _⟩
    · rw [g1]
      refine Both.bind (Both.lift h1 _) ?_
      rintro K2 z s3 s23 hk2 h2 hq2
      refine (Both.encrypt h2 z _).weaken ?_
      rintro K3 b ⟨o, ho, rfl⟩ hs
      have := (hq2 hs).2
      cases this
      exact ⟨o, links, ho, rfl⟩
    · rw [g1]
      exact Both.throw h1 _
  · intro K2 b s3 s23 hk2 h2 hq2
    refine Both.bind (Both.put he h2 b) fun K3 l s4 s24 hk3 h3 hq3 => Both.pure h3 fun hs hs4 hs3 hs1 => ?_
    obtain ⟨o, links, ho, rfl⟩ := (hq2 hs3).2
    exact ⟨_, _, (hq3 hs4).2, fun σ hg => loadBranchFromLink_of_get he hne (hq1 hs1).2 ho hg⟩

theorem newBranch_both (he : E.Lawful) (h : Twin E cx.sec K p p2 s s2) (children : List (Index T)) (mode : CreateMode)
    (hk : Small E s → ∀ c, children.getLast? = some c → EdgeKnown E cx.sec K c) :
    Both cx.sec K p p2 (newBranch cx children mode) s s2 fun K' i => EdgeKnown E cx.sec K' (.branch i) := by
  unfold newBranch
  refine Both.assertBind h fun hne => Both.assertBind h fun _ => ?_
  have hne : children ≠ [] := by simpa using hne
  cases maxLevel children with
  | none => exact Both.throw h _
  | some m =>
    refine Both.bind (persistBranch_both he h children hne) ?_
    rintro K1 ⟨l, n⟩ s1 s21 hk1 h1 hq1
    refine Both.pure h1 fun _ hs => ?_
    obtain ⟨hs0, b, x, g1, g2⟩ := hq1 hs
    exact .branch _ l b children x rfl g1 g2 fun c hc => (hk hs0 c hc).mono hk1

/-- Functions that make a node of the elements. -/
def FillBoth (cx : Ctx E) (f : List (T.Key × V) → M E (Index T × List (T.Key × V))) : Prop :=
  ∀ (K : Known T) p p2 (s s2 : St E) xs, Twin E cx.sec K p p2 s s2 →
    Both cx.sec K p p2 (f xs) s s2 fun K' r => EdgeKnown E cx.sec K' r.1

theorem extendBranchLoop_both {f : List (T.Key × V) → M E (Index T × List (T.Key × V))} (hf : FillBoth cx f) (n : Nat)
    (children : List (Index T)) (xs : List (T.Key × V)) (h : Twin E cx.sec K p p2 s s2)
    (hk : Small E s → ∀ c, children.getLast? = some c → EdgeKnown E cx.sec K c) :
    Both cx.sec K p p2 (extendBranchLoop f n children xs) s s2 fun K' r => ∀ c, r.1.getLast? = some c → EdgeKnown E cx.sec K' c := by
  induction n generalizing K s s2 children xs with
  | zero => exact Both.pure h hk
  | succ n ih =>
    unfold extendBranchLoop
    by_cases hx : xs.isEmpty = true
    · rw [if_pos hx]; exact Both.pure h hk
    · rw [if_neg hx]
      refine Both.bind (hf K p p2 s s2 xs h) ?_
      rintro K1 ⟨child, rest⟩ s1 s21 hk1 h1 hq1
      refine (ih (children ++ [child]) rest h1 ?_).weaken fun K2 r hr _ => hr
      intro hs c hc
      rw [List.getLast?_append, List.getLast?_singleton] at hc
      cases hc
      exact (hq1 hs).2

theorem extendBranchWith_both (he : E.Lawful) {f : List (T.Key × V) → M E (Index T × List (T.Key × V))} (hf : FillBoth cx f)
    (children : List (Index T)) (level : Nat) (xs : List (T.Key × V)) (mode : CreateMode) (h : Twin E cx.sec K p p2 s s2)
    (hk : Small E s → ∀ c, children.getLast? = some c → EdgeKnown E cx.sec K c) :
    Both cx.sec K p p2 (extendBranchWith cx f children level xs mode) s s2 fun K' r => EdgeKnown E cx.sec K' (.branch r.1) := by
  unfold extendBranchWith
  refine Both.assertBind h fun _ => Both.assertBind h fun _ => Both.bind (extendBranchLoop_both hf _ children xs h hk) ?_
  rintro K1 ⟨cs, rest⟩ s1 s21 hk1 h1 hq1
  refine Both.bind (newBranch_both he h1 cs mode fun hs => (hq1 hs).2) ?_
  rintro K2 i s3 s23 hk2 h2 hq2
  exact Both.assertBind h2 fun _ => Both.pure h2 fun _ hs _ => (hq2 hs).2

theorem fillNode_both (he : E.Lawful) (level : Nat) : FillBoth cx (fillNode cx level) := by
  induction level with
  | zero =>
    intro K p p2 s s2 xs h
    unfold fillNode
    refine Both.assertBind h fun _ => Both.bind (leafFromIter_both he h xs) ?_
    rintro K1 ⟨l, rest⟩ s1 s21 hk1 h1 hq1
    exact Both.pure h1 fun _ hs => (hq1 hs).2
  | succ level ih =>
    intro K p p2 s s2 xs h
    unfold fillNode
    refine Both.assertBind h fun _ => Both.bind (extendBranchWith_both he ih [] _ xs _ h fun _ c hc => by cases hc) ?_
    rintro K1 ⟨l, rest⟩ s1 s21 hk1 h1 hq1
    exact Both.pure h1 fun _ hs => (hq1 hs).2

theorem extendBranch_both (he : E.Lawful) (children : List (Index T)) (level : Nat) (xs : List (T.Key × V)) (mode : CreateMode)
    (h : Twin E cx.sec K p p2 s s2) (hk : Small E s → ∀ c, children.getLast? = some c → EdgeKnown E cx.sec K c) :
    Both cx.sec K p p2 (extendBranch cx children level xs mode) s s2 fun K' r => EdgeKnown E cx.sec K' (.branch r.1) := by
  unfold extendBranch
  cases level with
  | zero => exact Both.throw h _
  | succ l => exact extendBranchWith_both he (fillNode_both he l) children _ xs mode h hk

theorem extendAboveLoop_both (he : E.Lawful) (level fuel : Nat) (node : Index T) (xs : List (T.Key × V))
    (h : Twin E cx.sec K p p2 s s2) (hk : Small E s → EdgeKnown E cx.sec K node) :
    Both cx.sec K p p2 (extendAboveLoop cx level fuel node xs) s s2 fun K' r => EdgeKnown E cx.sec K' r.1 := by
  induction fuel generalizing K s s2 node xs with
  | zero =>
    unfold extendAboveLoop
    split
    · exact Both.throw h _
    · exact Both.pure h hk
  | succ fuel ih =>
    unfold extendAboveLoop
    split
    · refine Both.bind (extendBranch_both he [node] _ xs _ h fun hs c hc => by cases hc; exact hk hs) ?_
      rintro K1 ⟨b, rest⟩ s1 s21 hk1 h1 hq1
      exact (ih (.branch b) rest h1 fun hs => (hq1 hs).2).weaken fun K2 r hr _ => hr
    · exact Both.pure h hk

/-- Functions that extend a node at the right edge. -/
def GrowBoth (cx : Ctx E) (f : Index T → List (T.Key × V) → M E (Index T × List (T.Key × V))) : Prop :=
  ∀ (K : Known T) p p2 (s s2 : St E) i xs, Twin E cx.sec K p p2 s s2 → EdgeKnown E cx.sec K i →
    Both cx.sec K p p2 (f i xs) s s2 fun K' r => EdgeKnown E cx.sec K' r.1

theorem extendAboveWith_both (he : E.Lawful) {f : Index T → List (T.Key × V) → M E (Index T × List (T.Key × V))} (hf : GrowBoth cx f)
    (node : Option (Index T)) (level : Nat) (xs : List (T.Key × V)) (h : Twin E cx.sec K p p2 s s2)
    (hk : ∀ i, node = some i → EdgeKnown E cx.sec K i) :
    Both cx.sec K p p2 (extendAboveWith cx f node level xs) s s2 fun K' r => EdgeKnown E cx.sec K' r.1 := by
  unfold extendAboveWith
  refine Both.ensureBind h fun _ => Both.assertBind h fun _ => Both.bind (Q := fun K' r => EdgeKnown E cx.sec K' r.1) ?_ ?_
  · unfold extendStart
    cases node with
    | some i => exact hf K p p2 s s2 i xs h (hk i rfl)
    | none =>
      refine Both.bind (leafFromIter_both he h xs) ?_
      rintro K1 ⟨l, rest⟩ s1 s21 hk1 h1 hq1
      exact Both.pure h1 fun _ hs => (hq1 hs).2
  · rintro K1 ⟨i, rest⟩ s1 s21 hk1 h1 hq1
    refine Both.bind (extendAboveLoop_both he level _ i rest h1 fun hs => (hq1 hs).2) ?_
    rintro K2 ⟨i, rest⟩ s3 s23 hk2 h2 hq2
    exact Both.assertBind h2 fun _ => Both.pure h2 fun _ hs _ => (hq2 hs).2

theorem extend0_both (he : E.Lawful) (fuel : Nat) : GrowBoth cx (extend0 cx fuel) := by
  induction fuel with
  | zero => intro K p p2 s s2 i xs h hk; exact Both.throw h _
  | succ fuel ih =>
    intro K p p2 s s2 i xs h hk
    unfold extend0
    by_cases hx : (i.isSealed || xs.isEmpty) = true
    · rw [if_pos hx]; exact Both.pure h fun _ => hk
    · rw [if_neg hx]
      have hns : i.isSealed = false := by
        cases hi : i.isSealed with
        | false => rfl
        | true => rw [hi] at hx; exact absurd rfl hx
      cases i with
      | leaf i =>
        cases hl : i.link with
        | none => simp only [hl]; exact Both.pure h fun _ => hk
        | some l =>
          simp only [hl]
          have hk' : ∃ b, K l b := by
            cases hk with
            | full _ h1 => rw [hns] at h1; cases h1
            | purged _ h1 => rw [show (Index.leaf i).link = i.link from rfl, hl] at h1; cases h1
            | leaf _ l' b h1 h2 => rw [hl] at h1; cases h1; exact ⟨b, h2⟩
          obtain ⟨b, hb⟩ := hk'
          refine Both.bind (Both.loadLeaf h hb) fun K1 leaf s1 s21 hk1 h1 _ => Both.bind (extendLeaf_both he h1 _ _ xs) ?_
          rintro K2 ⟨l, rest⟩ s3 s23 hk2 h2 hq2
          exact Both.pure h2 fun _ hs _ => (hq2 hs).2
      | branch i =>
        cases hl : i.link with
        | none => simp only [hl]; exact Both.pure h fun _ => hk
        | some l =>
          simp only [hl]
          cases hk with
          | full _ h1 => rw [hns] at h1; cases h1
          | purged _ h1 => rw [show (Index.branch i).link = i.link from rfl, hl] at h1; cases h1
          | branch _ l' b cs r h1 h2 h3 h4 =>
            rw [hl] at h1
            cases h1
            refine Both.loadBranch he h h2 h3 fun s1 s21 _ h1 => ?_
            refine Both.bind (Q := fun K' r => ∀ c, r.1.getLast? = some c → EdgeKnown E cx.sec K' c) ?_ ?_
            · unfold extendLast
              cases hc : cs.getLast? with
              | none => simp only; exact Both.pure h1 fun _ c hc' => by rw [hc] at hc'; cases hc'
              | some c =>
                simp only
                refine Both.bind (extendAboveWith_both he ih (some c) _ xs h1 fun i hi => by cases hi; exact h4 c hc) ?_
                rintro K2 ⟨i2, rest⟩ s3 s23 hk2 h2 hq2
                refine Both.pure h2 fun _ hs c' hc' => ?_
                rw [List.getLast?_append, List.getLast?_singleton] at hc'
                cases hc'
                exact (hq2 hs).2
            · rintro K2 ⟨cs', rest⟩ s3 s23 hk2 h2 hq2
              refine Both.bind (extendBranch_both he cs' _ rest _ h2 fun hs => (hq2 hs).2) ?_
              rintro K3 ⟨b', rest⟩ s4 s24 hk3 h3 hq3
              exact Both.pure h3 fun _ hs _ => (hq3 hs).2

theorem Both.setIndex {sec : Secrets E} (h : Twin E sec K p p2 s s2) (i : Option (Index T)) :
    Both sec K p p2 (Banyan.setIndex i) s s2 fun _ _ => True :=
  ⟨K, { s2 with root := i }, rfl, fun _ _ h => h,
    ⟨rfl, h.offset, h.puts, h.alike, h.left, h.right, h.new, Coherent.mono (fun _ _ h => h) rfl h.co, Coherent.mono (fun _ _ h => h) rfl h.co2⟩,
    fun hs => ⟨hs, trivial⟩⟩

end

/-! ### the right edge of loaded trees -/

theorem getLast?_edgeL {c : PTree T V} : {cs : List (PTree T V)} → cs.getLast? = some c → PTree.edgeL cs = c.edge
  | [], h => by cases h
  | [_], h => by cases h; rfl
  | _ :: d :: cs, h => by
    rw [List.getLast?_cons_cons] at h
    exact getLast?_edgeL (cs := d :: cs) h

theorem loadBranchFromLink_block {sec : Secrets E} {σ : E.σ} {l : T.Link} {b : Bytes} {x : Branch T} (hb : E.get σ l = .ok b)
    (h : loadBranchFromLink E sec σ l = .ok x) (σ' : E.σ) (h' : E.get σ' l = .ok b) : loadBranchFromLink E sec σ' l = .ok x := by
  rw [← h]
  unfold loadBranchFromLink
  rw [getBlock_congr (by rw [h', hb] : E.get σ' l = E.get σ l)]

theorem stored_here {sec : Secrets E} {σ : E.σ} {t : PTree T V} (h : Stored E sec σ t) : StoredAt E sec σ t :=
  h t (PTree.self_mem_nodes t)

theorem stored_child {sec : Secrets E} {σ : E.σ} {i : BranchIndex T} {cs : List (PTree T V)} (h : Stored E sec σ (.branch i cs))
    {c : PTree T V} (hc : c ∈ cs) : Stored E sec σ c := fun n hn => h n (PTree.mem_nodes_branch.mpr (.inr ⟨c, hc, hn⟩))

theorem loadLeafFromLink_block {sec : Secrets E} {σ : E.σ} {l : T.Link} {x : Leaf} (h : loadLeafFromLink E sec σ l = .ok x) :
    ∃ b, E.get σ l = .ok b := by
  unfold loadLeafFromLink at h
  cases hg : getBlock E σ l with
  | error e => rw [hg] at h; cases h
  | ok b => exact ⟨b, getBlock_eq.1 hg⟩

mutual
theorem edgeKnown_of_stored {sec : Secrets E} {σ σ2 : E.σ} : (t : PTree T V) → Stored E sec σ t → SameBlocks E σ σ2 t.edge →
    EdgeKnown E sec (fun l b => E.get σ l = .ok b ∧ E.get σ2 l = .ok b) t.index
  | .leaf i vs, hs, h => by
    obtain ⟨l, z, r, h1, h2, _⟩ := (stored_here hs)
    by_cases hsl : i.isSealed = true
    · exact .full _ hsl
    · obtain ⟨b, hb⟩ := loadLeafFromLink_block h2
      refine .leaf i l b h1 ⟨hb, ?_⟩
      rw [← hb]
      exact h (.leaf i vs) (by unfold PTree.edge; rw [if_neg hsl]; exact List.mem_singleton.2 rfl) l h1
  | .branch i cs, hs, h => by
    obtain ⟨l, r, h1, h2⟩ := (stored_here hs)
    by_cases hsl : i.isSealed = true
    · exact .full _ hsl
    · have he : (PTree.branch i cs).edge = .branch i cs :: PTree.edgeL cs := by unfold PTree.edge; rw [if_neg hsl]
      obtain ⟨b, hb⟩ := loadBranchFromLink_get h2
      refine .branch i l b _ r h1 ⟨hb, ?_⟩ (loadBranchFromLink_block hb h2) fun c hc => ?_
      · rw [← hb]
        exact h (.branch i cs) (by rw [he]; exact List.mem_cons_self ..) l h1
      · rw [List.getLast?_map] at hc
        cases hl : cs.getLast? with
        | none => rw [hl] at hc; cases hc
        | some t =>
          rw [hl] at hc
          cases hc
          refine edgeKnown_of_storedL cs (fun c hc => stored_child hs hc) (fun n hn => h n ?_) t hl
          rw [he]
          exact List.mem_cons_of_mem _ hn
  | .purgedLeaf i, hs, _ => .purged _ (stored_here hs)
  | .purgedBranch i, hs, _ => .purged _ (stored_here hs)
theorem edgeKnown_of_storedL {sec : Secrets E} {σ σ2 : E.σ} : (cs : List (PTree T V)) → (∀ c ∈ cs, Stored E sec σ c) →
    SameBlocks E σ σ2 (PTree.edgeL cs) → ∀ t, cs.getLast? = some t →
    EdgeKnown E sec (fun l b => E.get σ l = .ok b ∧ E.get σ2 l = .ok b) t.index
  | [], _, _, _, h => by cases h
  | [c], hs, h, t, ht => by cases ht; exact edgeKnown_of_stored c (hs c (List.mem_singleton.2 rfl)) h
  | _ :: d :: cs, hs, h, t, ht => by
    rw [List.getLast?_cons_cons] at ht
    exact edgeKnown_of_storedL (d :: cs) (fun c hc => hs c (List.mem_cons_of_mem _ hc)) h t ht
end

mutual
theorem sameBlocks_of_known {sec : Secrets E} {σ σ2 : E.σ} {K : Known T} (hl : ∀ l b, K l b → E.get σ l = .ok b)
    (hr : ∀ l b, K l b → E.get σ2 l = .ok b) : (t : PTree T V) → Stored E sec σ t → EdgeKnown E sec K t.index → SameBlocks E σ σ2 t.edge
  | .leaf i vs, hs, h => by
    unfold PTree.edge
    split
    · exact fun n hn => by cases hn
    · rename_i hsl
      intro n hn l hnl
      rw [List.mem_singleton] at hn
      subst hn
      cases h with
      | full _ h1 => exact absurd h1 hsl
      | purged _ h1 => rw [hnl] at h1; cases h1
      | leaf _ l' b h1 h2 =>
        rw [show (PTree.leaf i vs).index.link = i.link from rfl, h1] at hnl
        cases hnl
        rw [hl _ _ h2, hr _ _ h2]
  | .branch i cs, hs, h => by
    obtain ⟨l0, r0, g1, g2⟩ := (stored_here hs)
    unfold PTree.edge
    split
    · exact fun n hn => by cases hn
    · rename_i hsl
      intro n hn l hnl
      cases h with
      | full _ h1 => exact absurd h1 hsl
      | purged _ h1 => rw [show (PTree.branch i cs).index.link = i.link from rfl, g1] at h1; cases h1
      | branch _ l' b cs' r h1 h2 h3 h4 =>
        rw [g1] at h1
        cases h1
        rcases List.mem_cons.1 hn with rfl | hn
        · rw [show (PTree.branch i cs).index.link = i.link from rfl, g1] at hnl
          cases hnl
          rw [hl _ _ h2, hr _ _ h2]
        · have h5 := h3 σ (hl _ _ h2)
          rw [g2] at h5
          injection h5 with h5
          injection h5 with h5 _
          refine sameBlocks_of_knownL hl hr cs (fun c hc => stored_child hs hc) (fun t ht => h4 _ ?_) n hn l hnl
          rw [← h5, List.getLast?_map, ht]
          rfl
  | .purgedLeaf i, _, _ => fun n hn => by cases hn
  | .purgedBranch i, _, _ => fun n hn => by cases hn
theorem sameBlocks_of_knownL {sec : Secrets E} {σ σ2 : E.σ} {K : Known T} (hl : ∀ l b, K l b → E.get σ l = .ok b)
    (hr : ∀ l b, K l b → E.get σ2 l = .ok b) : (cs : List (PTree T V)) → (∀ c ∈ cs, Stored E sec σ c) →
    (∀ t, cs.getLast? = some t → EdgeKnown E sec K t.index) → SameBlocks E σ σ2 (PTree.edgeL cs)
  | [], _, _ => fun n hn => by cases hn
  | [c], hs, h => sameBlocks_of_known hl hr c (hs c (List.mem_singleton.2 rfl)) (h c rfl)
  | _ :: d :: cs, hs, h => sameBlocks_of_knownL hl hr (d :: cs) (fun c hc => hs c (List.mem_cons_of_mem _ hc)) fun t ht =>
      h t (by rw [List.getLast?_cons_cons]; exact ht)
end

/-! ### whole operations -/

theorem Twin.edged {K : Known T} {s s2 s' s2' : St E} (h : Twin E cx.sec K ⟨s.puts, fun l b => E.get s.store l = .ok b⟩ s2.puts s' s2')
    (hk : ∀ i, s'.root = some i → EdgeKnown E cx.sec K i) : Edged cx s' s2' :=
  ⟨h.root, h.offset, h.alike, h.co2, fun t sh => sameBlocks_of_known h.left h.right t sh.stored (hk _ sh.root)⟩

theorem Edged.twin {s s2 : St E} (h : Edged cx s s2) (hco : Coherent E cx.sec s) :
    Twin E cx.sec (fun l b => E.get s.store l = .ok b ∧ E.get s2.store l = .ok b)
      ⟨s.puts, fun l b => E.get s.store l = .ok b⟩ s2.puts s s2 :=
  ⟨h.root, h.offset, ⟨[], by simp, by simp⟩, h.alike, fun _ _ h => h.1, fun _ _ h => h.2, fun _ _ _ h => .inl h, hco, h.coherent⟩

theorem extend_both (he : E.Lawful) {K : Known T} {p : Origin T} {p2 : List Bytes} {s s2 : St E} (h : Twin E cx.sec K p p2 s s2) (fuel : Nat)
    (xs : List (T.Key × V)) (hk : ∀ i, s.root = some i → EdgeKnown E cx.sec K i) :
    match extend cx fuel xs s with
    | .ok _ s' => ∃ K' s2', extend cx fuel xs s2 = .ok () s2' ∧ Twin E cx.sec K' p p2 s' s2' ∧
        (Small E s' → ∀ i, s'.root = some i → EdgeKnown E cx.sec K' i)
    | .error e s' => ∃ K' s2', extend cx fuel xs s2 = .error e s2' ∧ Twin E cx.sec K' p p2 s' s2' := by
  unfold extend
  by_cases hx : xs.isEmpty = true
  · simp only [if_pos hx]
    exact ⟨K, s2, rfl, h, fun _ => hk⟩
  · simp only [if_neg hx]
    have h1 := extendAboveWith_both he (extend0_both he fuel) s.root u32max xs h hk
    have e1 : ∀ s : St E, (getIndex >>= fun index => extendAbove cx fuel index u32max xs >>= fun x => setIndex (some x.1)) s =
        (extendAboveWith cx (extend0 cx fuel) s.root u32max xs >>= fun x => setIndex (some x.1)) s := fun _ => rfl
    rw [e1, e1, h.root]
    unfold Both at h1
    rw [bind_apply]
    cases h2 : extendAboveWith cx (extend0 cx fuel) s.root u32max xs s with
    | ok a s' =>
      rw [h2] at h1
      obtain ⟨K', s2', g1, _, g3, g4⟩ := h1
      refine ⟨K', { s2' with root := some a.1 }, ?_, ?_, fun hs i hi => ?_⟩
      · show EStateM.bind _ _ s2 = _
        unfold EStateM.bind
        rw [g1]
        rfl
      · exact ⟨rfl, g3.offset, g3.puts, g3.alike, g3.left, g3.right, g3.new, Coherent.mono (fun _ _ h => h) rfl g3.co,
          Coherent.mono (fun _ _ h => h) rfl g3.co2⟩
      · cases hi
        exact (g4 hs).2
    | error e s' =>
      rw [h2] at h1
      obtain ⟨K', s2', g1, _, g3⟩ := h1
      refine ⟨K', s2', ?_, g3⟩
      show EStateM.bind _ _ s2 = _
      unfold EStateM.bind
      rw [g1]

theorem extendUnpacked_both (he : E.Lawful) {K : Known T} {p : Origin T} {p2 : List Bytes} {s s2 : St E} (h : Twin E cx.sec K p p2 s s2) (fuel : Nat)
    (xs : List (T.Key × V)) :
    match extendUnpacked cx fuel xs s with
    | .ok _ s' => ∃ K' s2', extendUnpacked cx fuel xs s2 = .ok () s2' ∧ Twin E cx.sec K' p p2 s' s2' ∧
        (xs ≠ [] → Small E s' → ∀ i, s'.root = some i → EdgeKnown E cx.sec K' i)
    | .error e s' => ∃ K' s2', extendUnpacked cx fuel xs s2 = .error e s2' ∧ Twin E cx.sec K' p p2 s' s2' := by
  have h1 : Both cx.sec K p p2 (extendUnpacked0 cx fuel s.root xs) s s2
      fun K' r => xs ≠ [] → ∀ i, r = some i → EdgeKnown E cx.sec K' i := by
    unfold extendUnpacked0
    by_cases hx : xs.isEmpty = true
    · rw [if_pos hx]
      exact Both.pure h fun _ hne => absurd (List.isEmpty_iff.1 hx) hne
    · rw [if_neg hx]
      unfold extendAbove
      refine Both.bind (extendAboveWith_both he (extend0_both he fuel) none u32max xs h fun i hi => by cases hi) ?_
      rintro K1 ⟨b, rest⟩ s1 s21 hk1 h1 hq1
      cases s.root with
      | none => exact Both.pure h1 fun _ hs _ i hi => by cases hi; exact (hq1 hs).2
      | some a =>
        refine Both.bind (extendBranch_both he [a, b] _ rest _ h1 fun hs c hc => by cases hc; exact (hq1 hs).2) ?_
        rintro K2 ⟨r, rest⟩ s3 s23 hk2 h2 hq2
        exact Both.pure h2 fun _ hs _ _ i hi => by cases hi; exact (hq2 hs).2
  have e1 : ∀ s : St E, extendUnpacked cx fuel xs s = (extendUnpacked0 cx fuel s.root xs >>= fun x => setIndex x) s := fun _ => rfl
  rw [e1, e1, h.root]
  unfold Both at h1
  rw [bind_apply]
  cases h2 : extendUnpacked0 cx fuel s.root xs s with
  | ok a s' =>
    rw [h2] at h1
    obtain ⟨K', s2', g1, _, g3, g4⟩ := h1
    refine ⟨K', { s2' with root := a }, ?_, ?_, fun hx hs i hi => (g4 hs).2 hx i hi⟩
    · show EStateM.bind _ _ s2 = _
      unfold EStateM.bind
      rw [g1]
      rfl
    · exact ⟨rfl, g3.offset, g3.puts, g3.alike, g3.left, g3.right, g3.new, Coherent.mono (fun _ _ h => h) rfl g3.co,
        Coherent.mono (fun _ _ h => h) rfl g3.co2⟩
  | error e s' =>
    rw [h2] at h1
    obtain ⟨K', s2', g1, _, g3⟩ := h1
    refine ⟨K', s2', ?_, g3⟩
    show EStateM.bind _ _ s2 = _
    unfold EStateM.bind
    rw [g1]

mutual
theorem edge_length {t : PTree T V} (hw : WF E t) : t.edge.length ≤ t.index.level + 1 := by
  match t with
  | .leaf i vs => simp only [PTree.edge]; split <;> simp
  | .purgedLeaf i => simp [PTree.edge]
  | .purgedBranch i => simp [PTree.edge]
  | .branch i cs =>
    simp only [PTree.edge]
    split
    · simp
    · have := edgeL_length (i := i) (cs := cs) fun c hc => ⟨fun n hn => hw n (PTree.mem_nodes_branch.mpr (.inr ⟨c, hc, hn⟩)),
        (hw _ (PTree.self_mem_nodes _)).2.1 c hc⟩
      simp only [List.length_cons, PTree.index, Index.level]
      omega
theorem edgeL_length {cs : List (PTree T V)} {i : BranchIndex T} (hw : ∀ c ∈ cs, WF E c ∧ c.index.level < i.level) :
    (PTree.edgeL cs).length ≤ i.level := by
  match cs with
  | [] => simp [PTree.edgeL]
  | [c] =>
    have h1 := hw c (by simp)
    have := edge_length h1.1
    simp only [PTree.edgeL]
    omega
  | _ :: d :: cs =>
    simp only [PTree.edgeL]
    exact edgeL_length (cs := d :: cs) fun c hc => hw c (List.mem_cons_of_mem _ hc)
end

end Banyan
