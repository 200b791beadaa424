import Verif.Concrete.States
/-
A variant of the concrete environment with a store that never runs out of space.
-/
set_option autoImplicit false
namespace Banyan.Concrete

/-- The concrete environment, with a store that accepts everything. -/
def freeEnv : Env types Nat :=
  { env with put := fun (s : Store) d => (.ok s.blocks.length, { s with blocks := s.blocks ++ [some d] }) }

theorem freeEnv_lawful : freeEnv.Lawful where
  put_ok := by
    intro (s : Store) d (l : Nat) h
    have hl : s.blocks.length = l := by cases h; rfl
    subst hl
    show env.get (⟨s.blocks ++ [some d], s.room⟩ : Store) s.blocks.length = .ok d
    simp [env, Store.get]
  put_mono := by
    intro (s : Store) d (l : Nat) b (h : env.get s l = .ok b)
    show env.get (⟨s.blocks ++ [some d], s.room⟩ : Store) l = .ok b
    have h1 := env_lawful.put_mono (⟨s.blocks, 1⟩ : Store) d l b h
    exact h1
  cacheGet_sub := env_lawful.cacheGet_sub
  cachePut_sub := env_lawful.cachePut_sub
  unz_zfin := env_lawful.unz_zfin
  zfin_ne := env_lawful.zfin_ne
  zlen_le := env_lawful.zlen_le
  encV_ne := env_lawful.encV_ne
  item_encV := env_lawful.item_encV
  decV_encV := env_lawful.decV_encV
  encIdx_ne := env_lawful.encIdx_ne
  item_encIdx := env_lawful.item_encIdx
  decIdx_encIdx := env_lawful.decIdx_encIdx
  decNode_encNode := env_lawful.decNode_encNode

theorem freeEnv_putsOk : freeEnv.PutsOk := fun (s : Store) _ => ⟨s.blocks.length, rfl⟩

theorem freeEnv_scrapesIdx : freeEnv.ScrapesIdx := env_scrapesIdx
theorem freeEnv_scrapesVal : freeEnv.ScrapesVal := env_scrapesVal

def freeCtx (cfg : Config) : Ctx freeEnv := ⟨cfg, ⟨(3 : Nat), (5 : Nat)⟩⟩

def freeStart : St freeEnv := ⟨(⟨[], 0⟩ : Store), ([] : List (Nat × Branch types)), 0, none, [], []⟩

theorem freeTiny_ok : (freeCtx tiny).Ok := ⟨freeEnv_lawful, types_lawful, tiny_valid⟩

theorem freeStart_reach (cfg : Config) : Reach (freeCtx cfg) freeStart :=
  Reach.fresh _ rfl (by intro l b h; cases h)

theorem freeStart_steady (cfg : Config) : Steady (freeCtx cfg) freeStart :=
  Steady.fresh _ rfl (by intro l b h; cases h)

def freeSmallB (s : St freeEnv) : Bool := s.written.all fun cs => decide ((cs.map freeEnv.encIdx).flatten.length ≤ maxCapacity)

theorem freeSmall_of {s : St freeEnv} (h : freeSmallB s = true) : Small freeEnv s := by
  intro cs hcs
  have := List.all_eq_true.mp h cs hcs
  simpa using this

def freeSucceeds {α : Type} (m : M freeEnv α) (s : St freeEnv) : Bool :=
  match m s with
  | .ok _ _ => true
  | .error _ _ => false

/-- Three elements and, without packing, five more. -/
def free3 : St freeEnv := endState (extend (freeCtx tiny) 10 (seq 0 3)) freeStart
def free8 : St freeEnv := endState (extendUnpacked (freeCtx tiny) 10 (seq 3 5)) free3

def freeFits (s : St freeEnv) (fuel n : Nat) : Bool :=
  decide (rootLevel s.root < fuel) && decide (rootCount s.root + n ≤ maxElements)

theorem freeFits_iff {s : St freeEnv} {fuel n : Nat} (h : freeFits s fuel n = true) :
    rootLevel s.root < fuel ∧ rootCount s.root + n ≤ maxElements := by
  unfold freeFits at h
  rw [Bool.and_eq_true, decide_eq_true_eq, decide_eq_true_eq] at h
  exact h

theorem free_extend {s : St freeEnv} (h : Reach (freeCtx tiny) s) (xs : List (Nat × Nat))
    (hf : freeFits s 10 xs.length = true) : Reach (freeCtx tiny) (endState (extend (freeCtx tiny) 10 xs) s) :=
  h.run (.extend 10 xs (.refl _) (freeFits_iff hf).1 (freeFits_iff hf).2)

theorem free_steady_extend {s : St freeEnv} (h : Steady (freeCtx tiny) s) (xs : List (Nat × Nat))
    (hf : freeFits s 10 xs.length = true) : Steady (freeCtx tiny) (endState (extend (freeCtx tiny) 10 xs) s) :=
  h.run (.extend 10 xs (.refl _) (freeFits_iff hf).1 (freeFits_iff hf).2)

theorem free_extendUnpacked {s : St freeEnv} (h : Reach (freeCtx tiny) s) (xs : List (Nat × Nat))
    (hf : freeFits s 10 xs.length = true) : Reach (freeCtx tiny) (endState (extendUnpacked (freeCtx tiny) 10 xs) s) :=
  h.run (.extendUnpacked 10 xs (.refl _) (freeFits_iff hf).1 (freeFits_iff hf).2)

theorem free_steady_extendUnpacked {s : St freeEnv} (h : Steady (freeCtx tiny) s) (xs : List (Nat × Nat))
    (hf : freeFits s 10 xs.length = true) : Steady (freeCtx tiny) (endState (extendUnpacked (freeCtx tiny) 10 xs) s) :=
  h.run (.extendUnpacked 10 xs (.refl _) (freeFits_iff hf).1 (freeFits_iff hf).2)

theorem free3_reach : Reach (freeCtx tiny) free3 := free_extend (freeStart_reach tiny) _ (by decide +kernel)

theorem free3_steady : Steady (freeCtx tiny) free3 := free_steady_extend (freeStart_steady tiny) _ (by decide +kernel)
theorem free8_reach : Reach (freeCtx tiny) free8 := free_extendUnpacked free3_reach _ (by decide +kernel)

theorem free8_steady : Steady (freeCtx tiny) free8 := free_steady_extendUnpacked free3_steady _ (by decide +kernel)

end Banyan.Concrete
