import Verif.Spec.Reach
import Verif.CacheLemmas
/-! Small concrete caches and histories, used to show that the hypotheses of the
theorems can be met. -/
namespace Hoard.Demo
open Spec

/-- A plain cache with numbers as keys; everything collides modulo 4. -/
def plain : Cfg Nat := { hash := fun k => k % 4, eqv := fun a b => a == b }

/-- Any cache whose keys are numbers compared with `==` and hashed by a function. -/
theorem nat_ok {cfg : Cfg Nat} (h1 : cfg.eqv = fun a b => a == b) (h2 : ∀ d i, cfg.refresh = some (d, i) → 0 ≤ i) : cfg.Ok := by
  refine ⟨?_, ?_, ?_, ?_, h2⟩
  · intro a; simp [h1]
  · intro a b h; simp [h1] at h ⊢; exact h.symm
  · intro a b c h h'; simp [h1] at h h' ⊢; exact h.trans h'
  · intro a b h; simp [h1] at h; rw [h]

/-- At time `t`, with every object alive. -/
def at_ (t : Int) : Env Nat := { now := ⟨t, t⟩, alive := fun _ => true }

deriving instance DecidableEq for Res
deriving instance DecidableEq for Ret
deriving instance DecidableEq for Out

instance (cfg : Cfg Nat) (s : St Nat Nat Nat) (o : Op Nat Nat Nat) : Decidable (o.ok cfg s) :=
  match o with
  | .get _ _ => inferInstanceAs (Decidable (_ ∧ _))
  | .asyncGet _ _ _ => inferInstanceAs (Decidable (_ ∧ _))
  | .tick _ _ => inferInstanceAs (Decidable (_ ∧ _ ∧ _))
  | .complete _ _ => isTrue trivial
  | .drop _ => isTrue trivial
  | .getIfExists _ | .emplace _ _ _ | .getOrEmplace _ _ _ | .erase _ | .clear | .count | .destroy =>
    inferInstanceAs (Decidable (s.destroyed = false))

instance histOkDec (cfg : Cfg Nat) : (s : St Nat Nat Nat) → (h : Hist Nat Nat Nat) → Decidable (HistOk cfg s h)
  | _, [] => isTrue trivial
  | s, (env, o) :: h =>
    have := histOkDec cfg (step cfg env s o).1 h
    inferInstanceAs (Decidable (_ ∧ _))

theorem mono_at (ts : List Int) (h : ts.Pairwise (· ≤ ·)) : Mono (ts.map at_) := by
  unfold Mono
  rw [List.pairwise_map]
  exact h.imp (fun h => ⟨h, h, fun _ h => h⟩)

/-! The conditions of the theorems can be checked by evaluation for a given history. -/

instance (o : Option (Nat × Nat)) (P : Nat × Nat → Prop) [DecidablePred P] : Decidable (∃ p, o = some p ∧ P p) :=
  match o with
  | none => isFalse (fun ⟨_, h, _⟩ => nomatch h)
  | some p => decidable_of_iff (P p) ⟨fun h => ⟨p, rfl, h⟩, fun ⟨_, h, h'⟩ => Option.some.inj h ▸ h'⟩

instance (b : Beh Nat Nat) : Decidable (∃ r, b = .now r) :=
  match b with
  | .now r => isTrue ⟨r, rfl⟩
  | .later => isFalse (fun ⟨_, h⟩ => nomatch h)
  | .drop => isFalse (fun ⟨_, h⟩ => nomatch h)

deriving instance DecidableEq for Beh

instance (r : Ret Nat Nat) : Decidable (∃ v, r = .val v) :=
  match r with
  | .val v => isTrue ⟨v, rfl⟩
  | .unit | .miss | .err _ | .throws | .bool _ | .num _ => isFalse (fun ⟨_, h⟩ => nomatch h)

instance noEvictDec (cfg : Cfg Nat) (s : St Nat Nat Nat) : Decidable (NoEvict cfg s) :=
  match h : cfg.maxSize with
  | none => isTrue (fun N hN => by rw [h] at hN; cases hN)
  | some M => decidable_of_iff (s.size ≤ M ∨ cfg.weaken = true ∧ cfg.ptr = true)
      ⟨fun hh N hN => by rw [h] at hN; cases hN; exact hh, fun hh => hh M h⟩

instance noEvictHDec (cfg : Cfg Nat) : (s : St Nat Nat Nat) → (h : Hist Nat Nat Nat) → Decidable (NoEvictH cfg s h)
  | s, [] => noEvictDec cfg s
  | s, (env, o) :: h =>
    have := noEvictHDec cfg (step cfg env s o).1 h
    inferInstanceAs (Decidable (_ ∧ _))

instance changesDec (eqv : Nat → Nat → Bool) (kind : Kind) (L : Ledger Nat Nat) (k : Nat) (o : Op Nat Nat Nat) (out : Out Nat Nat Nat) :
    Decidable (L.Changes eqv kind k o out) :=
  match o with
  | .getIfExists _ | .count | .drop _ => isFalse (fun h => h)
  | .get _ _ => inferInstanceAs (Decidable (_ ∧ _))
  | .asyncGet _ _ _ => inferInstanceAs (Decidable (_ ∧ _ ∧ _))
  | .emplace _ _ _ | .erase _ => inferInstanceAs (Decidable (_ = true))
  | .getOrEmplace _ _ _ => inferInstanceAs (Decidable (_ ∧ _))
  | .clear | .destroy => isTrue trivial
  | .complete _ _ => inferInstanceAs (Decidable (_ ∧ _))
  | .tick _ _ => inferInstanceAs (Decidable ((∃ p, _ = some p ∧ _ = true) ∧ (_ = _ → ∃ r, _ = Beh.now r)))

instance writesDec (eqv : Nat → Nat → Bool) (kind : Kind) (L : Ledger Nat Nat) (k v : Nat) (o : Op Nat Nat Nat) (out : Out Nat Nat Nat) :
    Decidable (L.Writes eqv kind k v o out) :=
  match o with
  | .emplace _ _ _ | .getOrEmplace _ _ _ => inferInstanceAs (Decidable (_ ∧ _ ∧ _))
  | .get _ _ => inferInstanceAs (Decidable (_ ∧ _ ∧ _))
  | .asyncGet _ _ _ => inferInstanceAs (Decidable (_ ∧ _ ∧ _))
  | .complete _ _ => inferInstanceAs (Decidable (_ ∧ _ ∧ _))
  | .tick _ _ => inferInstanceAs (Decidable ((∃ p, _ = some p ∧ _ = true) ∧ (if _ = _ then _ else _)))
  | .getIfExists _ | .erase _ | .clear | .count | .drop _ | .destroy => isFalse (fun h => h)

instance usesDec (eqv : Nat → Nat → Bool) (L : Ledger Nat Nat) (k : Nat) (o : Op Nat Nat Nat) (out : Out Nat Nat Nat) :
    Decidable (L.Uses eqv k o out) :=
  match o with
  | .get _ _ => inferInstanceAs (Decidable (_ ∧ (_ ∨ ∃ v, _ = Ret.val v)))
  | .asyncGet _ _ _ => inferInstanceAs (Decidable (_ ∧ _))
  | .emplace _ _ _ => inferInstanceAs (Decidable (_ = true))
  | .getOrEmplace _ _ _ => inferInstanceAs (Decidable (_ ∧ (_ ∨ ∃ v, _ = Ret.val v)))
  | .complete _ _ => inferInstanceAs (Decidable (_ ∧ _ ∧ _))
  | .getIfExists _ | .erase _ | .clear | .count | .drop _ | .destroy | .tick _ _ => isFalse (fun h => h)

instance startsDec (eqv : Nat → Nat → Bool) (kind : Kind) (k tok : Nat) (o : Op Nat Nat Nat) (out : Out Nat Nat Nat) :
    Decidable (Ledger.Starts eqv kind k tok o out) :=
  match o with
  | .asyncGet _ _ .later => inferInstanceAs (Decidable (_ ∧ ∃ p, _ = some p ∧ _))
  | .tick _ .later => inferInstanceAs (Decidable (_ ∧ ∃ p, _ = some p ∧ _ ∧ _))
  | .asyncGet _ _ (.now _) | .asyncGet _ _ .drop | .tick _ (.now _) | .tick _ .drop | .get _ _ | .emplace _ _ _ | .getOrEmplace _ _ _
  | .complete _ _ | .getIfExists _ | .erase _ | .clear | .count | .drop _ | .destroy => isFalse (fun h => h)

instance (cfg : Cfg Nat) (k v : Nat) (h : Hist Nat Nat Nat) (env : Env Nat) (o : Op Nat Nat Nat) : Decidable (WritesAt cfg k v h env o) := writesDec ..
instance (cfg : Cfg Nat) (k : Nat) (h : Hist Nat Nat Nat) (env : Env Nat) (o : Op Nat Nat Nat) : Decidable (ChangesAt cfg k h env o) := changesDec ..
instance (cfg : Cfg Nat) (k tok : Nat) (h : Hist Nat Nat Nat) (env : Env Nat) (o : Op Nat Nat Nat) : Decidable (StartsAt cfg k tok h env o) := startsDec ..
instance (cfg : Cfg Nat) (k : Nat) (h : Hist Nat Nat Nat) (env : Env Nat) (o : Op Nat Nat Nat) : Decidable (UsesAt cfg k h env o) := usesDec ..
instance (cfg : Cfg Nat) (k v : Nat) (h : Hist Nat Nat Nat) (env : Env Nat) (o : Op Nat Nat Nat) : Decidable (StoredAnswer cfg k v h env o) :=
  inferInstanceAs (Decidable (_ ∧ _ ∧ _))

theorem kept_nil (cfg : Cfg Nat) (k : Nat) (h : Hist Nat Nat Nat) : Kept cfg k h [] := by
  intro h1 e o h2 he; cases h1 <;> cases he

theorem kept_cons (cfg : Cfg Nat) (k : Nat) (h h' : Hist Nat Nat Nat) (env : Env Nat) (o : Op Nat Nat Nat) :
    Kept cfg k h ((env, o) :: h') ↔ ¬ ChangesAt cfg k h env o ∧ Kept cfg k (h ++ [(env, o)]) h' := by
  constructor
  · intro hk
    refine ⟨by simpa using hk [] env o h' rfl, ?_⟩
    intro h1 e1 o1 h2 he
    have := hk ((env, o) :: h1) e1 o1 h2 (by rw [he]; rfl)
    simpa using this
  · rintro ⟨ha, hk⟩ h1 e1 o1 h2 he
    cases h1 with
    | nil => cases he; simpa using ha
    | cons p h1 =>
      injection he with he1 he2
      subst he1
      have := hk h1 e1 o1 h2 he2
      simpa using this

instance keptDec (cfg : Cfg Nat) (k : Nat) : (h h' : Hist Nat Nat Nat) → Decidable (Kept cfg k h h')
  | h, [] => isTrue (kept_nil cfg k h)
  | h, (env, o) :: h' =>
    have := keptDec cfg k (h ++ [(env, o)]) h'
    decidable_of_iff _ (kept_cons cfg k h h' env o).symm

end Hoard.Demo
