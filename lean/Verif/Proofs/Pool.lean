import Verif.Spec.Pool
import Verif.Proofs.History
/-
What each thread of a pool does.
-/
set_option autoImplicit false
namespace Banyan

variable {T : TreeTypes} {V : Type} {E : Env T V} {α : Type} {ι : Type} {sec : Secrets E}

theorem Peers.trans {a b c : World E} (h1 : Peers sec a b) (h2 : Peers sec b c) : Peers sec a c := by
  induction h2 with
  | refl => exact h1
  | step _ h ih => exact .step ih h

theorem Peer.peers {a b : World E} (h : Peer sec a b) : Peers sec a b := .step (.refl a) h

theorem loadBranch_same_key {sec' : Secrets E} (hk : sec'.indexKey = sec.indexKey) (σ : E.σ) (l : T.Link) :
    loadBranchFromLink E sec' σ l = loadBranchFromLink E sec σ l := by
  unfold loadBranchFromLink
  rw [hk]

theorem Peer.same_key {sec' : Secrets E} (hk : sec'.indexKey = sec.indexKey) {a b : World E} (h : Peer sec' a b) : Peer sec a b := by
  cases h with
  | put d => exact .put a d
  | lookup l => exact .lookup a l
  | insert l b h => exact .insert a l b (by rw [← loadBranch_same_key hk]; exact h)
  | evict γ h => exact .evict a γ h

theorem Peers.same_key {sec' : Secrets E} (hk : sec'.indexKey = sec.indexKey) {a b : World E} (h : Peers sec' a b) : Peers sec a b := by
  induction h with
  | refl => exact .refl _
  | step _ h ih => exact .step ih (h.same_key hk)

theorem WProg.Runs.after {p : WProg T α} {s s' : St E} {w w' : World E} {r : Except Err α} (hw : Peers sec w w')
    (h : p.Runs sec (s.within w') r s') : p.Runs sec (s.within w) r s' := by
  induction hw with
  | refl => exact h
  | @step b c _ hs ih => exact ih (.others (w := c) hs h)

/-- A branch that a thread is about to insert into the cache has been read with its key. -/
def Phase.Fine (sec : Secrets E) (σ : E.σ) : Phase T α → Prop
  | .loaded l b _ => loadBranchFromLink E sec σ l = .ok b
  | _ => True

theorem Phase.Fine.mono {σ τ : E.σ} {ph : Phase T α} (h : StoreLe E σ τ) (hf : ph.Fine sec σ) : ph.Fine sec τ := by
  cases ph with
  | loaded l b k => exact loadBranchFromLink_mono h hf
  | _ => exact trivial

/-- A step of a thread is an access as others can make it. -/
theorem Phase.Step.peers {ph ph' : Phase T α} {s s' : St E} (h : Phase.Step sec ph s ph' s') (hf : ph.Fine sec s.store) :
    Peers sec s.world s'.world := by
  cases h with
  | hit b _ => exact (Peer.lookup s.world _).peers
  | miss _ => exact (Peer.lookup s.world _).peers
  | insert _ l b k => exact (Peer.insert s.world l b hf).peers
  | @put _ d σ k l hp =>
    have := (Peer.put (sec := sec) s.world d).peers
    rw [show (E.put s.world.1 d).2 = σ from congrArg Prod.snd hp] at this
    exact this
  | @noPut _ d σ k m hp =>
    have := (Peer.put (sec := sec) s.world d).peers
    rw [show (E.put s.world.1 d).2 = σ from congrArg Prod.snd hp] at this
    exact this
  | _ => exact .refl _

theorem Phase.Step.fine (hE : E.Lawful) {ph ph' : Phase T α} {s s' : St E} (h : Phase.Step sec ph s ph' s') : ph'.Fine sec s'.store := by
  cases h with
  | load b hb => exact hb
  | _ => exact trivial

/-- What becomes of a thread that is in some phase, with the store and the cache as given. -/
def Phase.Ends (sec : Secrets E) (s : St E) (w : World E) (r : Except Err α) (s' : St E) : Phase T α → Prop
  | .running p => p.Runs sec (s.within w) r s'
  | .loading l k => ∃ w1, Peers sec w w1 ∧
      ((∃ b w2, loadBranchFromLink E sec w1.1 l = .ok b ∧ Peers sec w1 w2 ∧ (k b).Runs sec (s.within (w2.1, E.cachePut w2.2 l b)) r s') ∨
        ∃ e, loadBranchFromLink E sec w1.1 l = .error e ∧ r = .error e ∧ s' = s.within w1)
  | .loaded l b k => ∃ w2, Peers sec w w2 ∧ (k b).Runs sec (s.within (w2.1, E.cachePut w2.2 l b)) r s'
  | .done r' => r = r' ∧ s' = s

theorem Phase.Ends.after {ph : Phase T α} {s s' : St E} {w w' : World E} {r : Except Err α} (hw : Peers sec w w')
    (h : ph.Ends sec s w' r s') : ph.Ends sec s w r s' := by
  cases ph with
  | running p => exact WProg.Runs.after hw h
  | loading l k =>
    obtain ⟨w1, h1, h2⟩ := h
    exact ⟨w1, hw.trans h1, h2⟩
  | loaded l b k =>
    obtain ⟨w1, h1, h2⟩ := h
    exact ⟨w1, hw.trans h1, h2⟩
  | done r' => exact h

theorem Phase.Step.ends {ph ph' : Phase T α} {s s1 s' : St E} {w : World E} {r : Except Err α} (h : Phase.Step sec ph (s.within w) ph' s1)
    (he : ph'.Ends sec s1 s1.world r s') : ph.Ends sec s w r s' := by
  cases h with
  | ret a => obtain ⟨rfl, rfl⟩ := he; exact .ret a _
  | stop e => obtain ⟨rfl, rfl⟩ := he; exact .stop e _
  | hit b hb => exact .hit b hb he
  | miss hb =>
    obtain ⟨w1, h1, ⟨b, w2, h2, h3, h4⟩ | ⟨e, h2, rfl, rfl⟩⟩ := he
    · exact .miss b hb h1 h2 h3 h4
    · exact .missing e hb h1 h2
  | load b hb =>
    obtain ⟨w2, h3, h4⟩ := he
    exact ⟨w, .refl w, .inl ⟨b, w2, hb, h3, h4⟩⟩
  | noLoad e hb =>
    obtain ⟨rfl, rfl⟩ := he
    exact ⟨w, .refl w, .inr ⟨e, hb, rfl, rfl⟩⟩
  | insert l b k => exact ⟨w, .refl w, he⟩
  | read b hb => exact .read b hb he
  | noRead e hb => obtain ⟨rfl, rfl⟩ := he; exact .noRead e hb
  | leaf b hb => exact .leaf b hb he
  | noLeaf e hb => obtain ⟨rfl, rfl⟩ := he; exact .noLeaf e hb
  | put l hp => exact .put l hp he
  | noPut m hp => obtain ⟨rfl, rfl⟩ := he; exact .noPut m hp
  | reserve hn => exact .reserve hn he
  | noReserve hn => obtain ⟨rfl, rfl⟩ := he; exact .noReserve hn
  | log items k => exact .log he
  | getIndex k => exact .getIndex he
  | setIndex i k => exact .setIndex he

section Pool
variable {α : ι → Type} {secs : ι → Secrets E}

def Pool.Fine (secs : ι → Secrets E) (a : Pool E α) : Prop := ∀ i, (a.threads i).1.Fine (secs i) a.world.1

theorem Pool.Step.peers {a b : Pool E α} (h : Pool.Step secs a b) (hf : a.Fine secs) (hk : ∀ i, (secs i).indexKey = sec.indexKey) :
    Peers sec a.world b.world := by
  cases h with
  | thread i h1 h2 _ =>
    rw [h2]
    exact (h1.peers (hf i)).same_key (hk i)
  | evict h1 h2 _ =>
    have := (Peer.evict (sec := sec) a.world b.world.2 h1).peers
    rw [← h2] at this
    exact this

theorem Pool.Step.fine (hE : E.Lawful) {a b : Pool E α} (h : Pool.Step secs a b) (hf : a.Fine secs) : b.Fine secs := by
  intro j
  have hw : StoreLe E a.world.1 b.world.1 := by
    cases h with
    | thread i h1 h2 _ =>
      rw [h2]
      exact (h1.peers (hf i)).grows hE
    | evict h1 h2 _ => rw [h2]; exact StoreLe.refl _
  cases h with
  | thread i h1 h2 h3 =>
    by_cases hj : j = i
    · subst hj
      rw [h2]
      exact h1.fine hE
    · rw [h3 j hj]
      exact (hf j).mono hw
  | evict h1 h2 h3 =>
    rw [h3]
    exact (hf j).mono hw

theorem Pool.Steps.peers (hE : E.Lawful) {a b : Pool E α} (h : Pool.Steps secs a b) (hf : a.Fine secs)
    (hk : ∀ i, (secs i).indexKey = sec.indexKey) : Peers sec a.world b.world := by
  induction h with
  | refl => exact .refl _
  | step h1 _ ih => exact (h1.peers hf hk).trans (ih (h1.fine hE hf))

/-- What a thread does in a pool is what it can do among others. -/
theorem Pool.Steps.ends (hE : E.Lawful) {a b : Pool E α} (h : Pool.Steps secs a b) (hf : a.Fine secs) {i : ι}
    (hk : ∀ j, (secs j).indexKey = (secs i).indexKey) {r : Except Err (α i)} (hd : (b.threads i).1 = .done r) :
    (a.threads i).1.Ends (secs i) (a.threads i).2 a.world r (b.threads i).2 := by
  induction h with
  | refl a => rw [hd]; exact ⟨rfl, rfl⟩
  | @step a b c h1 _ ih =>
    have ih := ih (h1.fine hE hf) hd
    have hp := h1.peers hf hk
    cases h1 with
    | thread j g1 g2 g3 =>
      by_cases hj : i = j
      · subst hj
        rw [g2] at ih
        exact g1.ends ih
      · rw [g3 i hj] at ih
        exact ih.after hp
    | evict g1 g2 g3 =>
      rw [g3] at ih
      exact ih.after hp

/-- The store and the cache a thread saw last have become those of the pool by accesses of others. -/
theorem Pool.Steps.since (hE : E.Lawful) {a b : Pool E α} (h : Pool.Steps secs a b) (hf : a.Fine secs) (i : ι)
    (hk : ∀ j, (secs j).indexKey = (secs i).indexKey) (ha : Peers (secs i) (a.threads i).2.world a.world) :
    Peers (secs i) (b.threads i).2.world b.world := by
  induction h with
  | refl a => exact ha
  | @step a b c h1 _ ih =>
    refine ih (h1.fine hE hf) ?_
    have hp := h1.peers hf hk
    cases h1 with
    | thread j g1 g2 g3 =>
      by_cases hj : i = j
      · subst hj
        rw [g2]
        exact .refl _
      · rw [g3 i hj]
        exact ha.trans hp
    | evict g1 g2 g3 =>
      rw [g3]
      exact ha.trans hp

theorem Pool.Steps.moved (hE : E.Lawful) {a b : Pool E α} (h : Pool.Steps secs a b) (hf : a.Fine secs) (i : ι)
    (hk : ∀ j, (secs j).indexKey = (secs i).indexKey) :
    b.threads i = a.threads i ∨ Peers (secs i) (b.threads i).2.world b.world := by
  induction h with
  | refl a => exact .inl rfl
  | @step a b c h1 hrest ih =>
    have hf' := h1.fine hE hf
    cases h1 with
    | thread j g1 g2 g3 =>
      by_cases hj : i = j
      · subst hj
        exact .inr (hrest.since hE hf' i hk (by rw [g2]; exact .refl _))
      · rw [← g3 i hj]
        exact ih hf'
    | evict g1 g2 g3 =>
      rw [← g3]
      exact ih hf'

end Pool

end Banyan
