import Verif.Props.Reload
import Verif.Props.Query
import Verif.Proofs.Dump
/-
Trees loaded with `load_tree`: the same nodes as those of the builder, except for two fields of the root.
-/
set_option autoImplicit false
namespace Banyan

open PTree

variable {T : TreeTypes} {V : Type} {E : Env T V} {cx : Ctx E} {s : St E} {c : List (Option (T.Key × V))}

/-- What `load_tree` returns for the link of the root of a reachable tree. -/
theorem loadTree_seen (ok : cx.Ok) (hr : Reach cx s) (hs : Small E s) {i : BranchIndex T} {l : T.Link} (hi : s.root = some (.branch i))
    (hl : i.link = some l) :
    ∃ (cs : List (PTree T V)) (i' : BranchIndex T) (o : Nat), Shows cx s (.branch i cs) ∧ i' = { i with keyBytes := i'.keyBytes, isSealed := true } ∧
      loadTree cx.sec l s = .ok (some (.branch i', cx.sec, o)) s ∧ Stored E cx.sec s.store (.branch i' cs) ∧ Formed (PTree.branch i' cs) ∧
      Coherent E cx.sec s ∧ (PTree.branch i' cs).All (fun n => 0 < n.index.count) ∧
      ∀ c, Contains cx s c ↔ c = PTree.content (.branch i' cs) := by
  obtain ⟨t, hinv⟩ := ok.inv hr hs
  obtain ⟨cs, rfl⟩ := hinv.branch hi hl
  have hg := hinv.holds.good _ rfl
  obtain ⟨bytes, r, hb, h1⟩ := createIndex_spec hg hl (fun _ _ => true)
  have hst := hg.stored
  have hfo := hg.wf.formed
  have hpos := hinv.holds.snap.positive
  refine ⟨cs, { i with keyBytes := (cs.map fun c => c.index.keyBytes).sum + bytes.length, isSealed := true }, r.2, ⟨hi, hst⟩, rfl, ?_, ?_, ?_,
    hinv.holds.coherent, ?_, fun _ => hinv.holds.contains ok.env ok.types⟩
  · unfold loadTree
    rw [h1]
  · rw [Stored, all_branch] at hst ⊢
    exact hst
  · rw [Formed, all_branch] at hfo ⊢
    exact hfo
  · rw [all_branch] at hpos ⊢
    exact hpos

/-- The elements of a tree that can be iterated over. -/
theorem elements_seen (ok : cx.Ok) {t : PTree T V} (hst : Stored E cx.sec s.store t) (hf : Formed t) (hco : Coherent E cx.sec s)
    (hpos : t.All fun n => 0 < n.index.count) (o : Nat) (q : Query T) (covers : T.Summary → T.Key → Prop) (m : Nat → T.Key → Bool)
    (hcov : Covering T covers) (hq : QueryFor q covers m) (between : Nat → St E → St E) (hb : Harmless cx.sec between) (n fuel : Nat)
    (hfu : 2 * t.index.level + 4 ≤ fuel) (hn : t.index.count ≤ n) :
    ∃ s', Tree.elements q .forward between n fuel (some (t.index, cx.sec, o)) s = .ok ((matching m 0 t.content).map .ok) s' := by
  have hseen : Seen cx.sec s.store t := ⟨hst, hf.iterOk ok.types⟩
  obtain ⟨s', h1⟩ := chunkedTake_spec (q := q) (m := .forward) (mkExtra := fun _ => ()) ok.env ok.types hb n hseen hco hfu
  have h2 := consecutive_length (chunksOf_consecutive (q := q) (mkExtra := fun _ => ()) t hseen.ok hpos 0)
  refine ⟨s', ?_⟩
  unfold Tree.elements Tree.chunks
  rw [bind_apply]
  simp only
  rw [h1]
  show EStateM.Result.ok (flattenChunks _) s' = _
  rw [flattenChunks_ok, List.take_of_length_le, ← chunksOf_matching (mkExtra := fun _ => ()) ok.types hcov hq t hf 0]
  · rfl
  · show (chunksOf q (fun _ => ()) t 0).length ≤ n
    omega

end Banyan
