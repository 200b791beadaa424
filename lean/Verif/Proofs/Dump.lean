import Verif.Proofs.Graph
import Verif.Spec.Dump
/-
Proofs about the dumps.
-/
set_option autoImplicit false
namespace Banyan

open PTree

variable {T : TreeTypes} {V : Type} {E : Env T V} {sec : Secrets E}

theorem dumpLoop_readsP {P : St E → Prop} {rec : Index T → M E (List (Nat × NodeLine T.Link))} (pre : Nat) (cs : List (PTree T V)) (s : St E)
    (hco : P s)
    (hrec : ∀ c ∈ cs, ∀ γ, P { s with cache := γ } → ReadsP P (rec c.index) { s with cache := γ } (c.lines pre)) :
    ReadsP P (dumpLoop rec (cs.map index)) s (linesL cs pre) := by
  induction cs generalizing s with
  | nil => exact ReadsP.pure hco _
  | cons c cs ih =>
    simp only [List.map_cons, dumpLoop, linesL]
    refine ReadsP.bind (hrec c (by simp) s.cache hco) fun γ hγ => ?_
    refine ReadsP.bind (ih { s with cache := γ } hγ fun c' hc' γ' hγ' => hrec c' (List.mem_cons_of_mem _ hc') γ' hγ') fun γ' hγ' => ?_
    exact ReadsP.pure hγ' _

theorem dump0_readsP {P : St E → Prop} (hP : Serves sec P) (hT : T.Lawful) (fuel pre : Nat) (t : PTree T V) (s : St E) (hs : Outlined E sec s.store t)
    (hcnt : Counts t) (hco : P s) (hf : t.index.level < fuel) :
    ReadsP P (dump0 sec fuel pre t.index) s (t.lines pre) := by
  induction fuel generalizing t s pre with
  | zero => omega
  | succ fuel ih =>
    unfold dump0
    have hl := content_length hT hcnt
    cases t with
    | leaf i vs =>
      obtain ⟨l, h1⟩ := PTree.All.root hs
      simp only [index, h1, PTree.lines]
      rw [hl]
      exact ReadsP.pure hco _
    | purgedLeaf i =>
      have h1 : i.link = none := PTree.All.root hs
      simp only [index, h1, PTree.lines]
      rw [hl]
      exact ReadsP.pure hco _
    | purgedBranch i =>
      have h1 : i.link = none := PTree.All.root hs
      simp only [index, h1, PTree.lines]
      rw [hl]
      exact ReadsP.pure hco _
    | branch i cs =>
      obtain ⟨l, r, h1, h2⟩ := PTree.All.root hs
      simp only [index, h1, PTree.lines]
      rw [hl]
      refine ReadsP.bind (hP _ _ _ hco h2) fun γ hγ => ?_
      refine ReadsP.bind (dumpLoop_readsP (pre + 2) cs { s with cache := γ } hγ ?_) fun γ' hγ' => ?_
      · intro c hc γ' hγ'
        have hlv := (PTree.All.root hcnt).1 c hc
        refine ih (pre + 2) c _ (PTree.All.children hs c hc) (PTree.All.children hcnt c hc) hγ' ?_
        simp only [index, Index.level] at hf; omega
      · simp only [List.length_map]
        exact ReadsP.pure hγ' _

theorem dump0_reads (h : E.Lawful) (hT : T.Lawful) (fuel pre : Nat) (t : PTree T V) (s : St E) (hs : Outlined E sec s.store t)
    (hcnt : Counts t) (hco : Coherent E sec s) (hf : t.index.level < fuel) :
    Reads sec (dump0 sec fuel pre t.index) s (t.lines pre) :=
  dump0_readsP (coherent_serves h sec) hT fuel pre t s hs hcnt hco hf

/-! ### blocks -/

theorem rawItemsLoop_spec (items : List Bytes) (hi : ∀ b ∈ items, IsItem E b) (n : Nat) (hn : items.flatten.length ≤ n) (acc : List Bytes) :
    rawItemsLoop E n items.flatten acc = .ok (acc ++ items) := by
  induction items generalizing n acc with
  | nil => cases n <;> simp [rawItemsLoop]
  | cons b items ih =>
    simp only [List.flatten_cons, List.length_append] at hn ⊢
    have hb := hi b (by simp)
    obtain ⟨x, xs, hx, hl⟩ := append_cons_of_ne hb.1 items.flatten
    obtain ⟨n, rfl⟩ : ∃ m, n = m + 1 := ⟨n - 1, by omega⟩
    rw [hx]
    simp only [rawItemsLoop]
    rw [← hx, hb.2]
    simp only
    rw [ih (fun b' hb' => hi b' (List.mem_cons_of_mem _ hb')) n (by omega)]
    simp

theorem json_spec (P : Printers) (items : List Bytes) (lines : Bytes → String) (hi : ∀ b ∈ items, b ≠ [] ∧ PrintsAs P b (lines b)) :
    ∃ l : List P.Ipld, (∀ n acc, items.flatten.length ≤ n → ipldLoop P n items.flatten acc = .ok (acc ++ l)) ∧
      ∀ out, printJson P l out = (out ++ items.map lines, .ok ()) := by
  induction items with
  | nil => exact ⟨[], fun n acc _ => by cases n <;> simp [ipldLoop], fun out => by simp [printJson]⟩
  | cons b items ih =>
    obtain ⟨l, h1, h2⟩ := ih fun b' hb' => hi b' (List.mem_cons_of_mem _ hb')
    obtain ⟨hne, i, h3, h4⟩ := hi b (by simp)
    refine ⟨i :: l, fun n acc hn => ?_, fun out => ?_⟩
    · simp only [List.flatten_cons, List.length_append] at hn ⊢
      obtain ⟨x, xs, hx, hl⟩ := append_cons_of_ne hne items.flatten
      obtain ⟨n, rfl⟩ : ∃ m, n = m + 1 := ⟨n - 1, by omega⟩
      rw [hx]
      simp only [ipldLoop]
      rw [← hx, h3]
      simp only
      rw [h1 n _ (by omega)]
      simp
    · unfold printJson
      rw [h4]
      simp only
      rw [h2]
      simp

/-- The two dumps of a block that decrypts to a sequence of items. -/
theorem dump_items (P : Printers) {s : E.σ} {l : T.Link} {key : E.CKey} {b : Bytes} {z : ZSeq} {r : Nat × Nat} {items : List Bytes}
    (hb : getBlock E s l = .ok b) (hd : decrypt E b key = .ok (z, r)) (hz : decompress E z.data = .ok items.flatten)
    (hi : ∀ b ∈ items, IsItem E b) :
    dumpCbor E P s l key = ("ZstdDagCborSeq" :: items.map P.text, .ok ()) ∧
    ∀ lines : Bytes → String, (∀ b ∈ items, PrintsAs P b (lines b)) →
      dumpJson E P s l key = ("ZstdDagCborSeq" :: items.map lines, .ok ()) := by
  constructor
  · unfold dumpCbor ZSeq.rawItems
    rw [hb]
    simp only
    rw [hd]
    simp only
    rw [hz]
    simp only
    rw [rawItemsLoop_spec items hi _ (Nat.le_refl _)]
    simp
  · intro lines hl
    obtain ⟨is, h1, h2⟩ := json_spec P items lines fun b hb => ⟨(hi b hb).1, hl b hb⟩
    unfold dumpJson ZSeq.ipldItems
    rw [hb]
    simp only
    rw [hd]
    simp only
    rw [hz]
    simp only
    rw [h1 _ _ (Nat.le_refl _)]
    simp only [List.nil_append]
    rw [h2]
    rfl

end Banyan
