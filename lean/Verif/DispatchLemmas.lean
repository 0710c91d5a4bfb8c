import Verif.Dispatch
import Verif.MetaLemmas
/-! # Lemmas on the dispatch of events -/
namespace Hoard.Dispatch
open Hoard.Meta (Pol Clock Cls allPolicies lib valueBases keepsErrors)
variable {V E : Type}

theorem tpMin_comm (a b : Option Int) : tpMin a b = tpMin b a := by
  cases a <;> cases b <;> simp [tpMin, Int.min_comm]

theorem tpMin_assoc (a b c : Option Int) : tpMin (tpMin a b) c = tpMin a (tpMin b c) := by
  cases a <;> cases b <;> cases c <;> simp [tpMin, Int.min_assoc]

theorem tpMin_right (a b c : Option Int) : tpMin (tpMin a b) c = tpMin (tpMin a c) b := by
  rw [tpMin_assoc, tpMin_comm b c, ← tpMin_assoc]

theorem set2_self {A B : Type} [DecidableEq B] (f : Nat → B → A) (i : Nat) (b : B) (a : A) : set2 f i b a i b = a := by simp [set2]

theorem set2_ne {A B : Type} [DecidableEq B] (f : Nat → B → A) {i j : Nat} {b c : B} (a : A) (h : ¬ (j = i ∧ c = b)) :
    set2 f i b a j c = f j c := by simp [set2, h]

theorem set2_comm {A B : Type} [DecidableEq B] (f : Nat → B → A) (i j : Nat) {b c : B} (x y : A) (h : b ≠ c) :
    set2 (set2 f i b x) j c y = set2 (set2 f j c y) i b x := by
  funext k e
  simp only [set2]
  by_cases h1 : k = j ∧ e = c
  · have h2 : ¬ (k = i ∧ e = b) := fun g => h (g.2.symm.trans h1.2)
    rw [if_pos h1, if_neg h2, if_pos h1]
  · rw [if_neg h1, if_neg h1]

theorem setP_comm {A : Type} (f : Pol → A) {p q : Pol} (x y : A) (h : p ≠ q) : setP (setP f p x) q y = setP (setP f q y) p x := by
  funext r
  simp only [setP]
  by_cases h1 : r = q
  · have h2 : r ≠ p := fun g => h (g.symm.trans h1)
    rw [if_pos h1, if_neg h2, if_pos h1]
  · rw [if_neg h1, if_neg h1]

theorem setP_ne {A : Type} (f : Pol → A) {p q : Pol} (x : A) (h : q ≠ p) : setP f p x q = f q := by simp [setP, h]

/-- Two deadlines of an entry can be set in either order. -/
theorem minAt_comm (f : Nat → Clock → Option Int) (i : Nat) (b c : Clock) (s t : Option Int) :
    set2 (set2 f i b (tpMin (f i b) s)) i c (tpMin (set2 f i b (tpMin (f i b) s) i c) t) =
      set2 (set2 f i c (tpMin (f i c) t)) i b (tpMin (set2 f i c (tpMin (f i c) t) i b) s) := by
  by_cases h : b = c
  · subst h
    funext k e
    simp only [set2]
    by_cases h1 : k = i ∧ e = b <;> simp [h1]
    exact tpMin_right _ _ _
  · rw [set2_ne f _ (fun g => h g.2.symm), set2_ne f _ (fun g => h g.2), set2_comm f i i _ _ h]

/-- What an age limit does to the deadlines. -/
def limitF (pe : PEnv V) (i : Nat) (c : Clock) (a : Int) (f : Nat → Clock → Option Int) : Nat → Clock → Option Int :=
  let g := set2 f i c (tpMin (f i c) (some (pe.now c + a)))
  if c.isSteady then g else set2 g i .steady (tpMin (g i .steady) (some (pe.now .steady + a)))

theorem limitAge_eq (pe : PEnv V) (i : Nat) (c : Clock) (a : Int) (d : Data V E) :
    limitAge pe i c a d = { d with exp := limitF pe i c a d.exp } := by
  simp only [limitAge, limitF, expireAt]
  split <;> rfl

theorem limitF_comm (pe : PEnv V) (i : Nat) (b c : Clock) (x y : Int) (f : Nat → Clock → Option Int) :
    limitF pe i c y (limitF pe i b x f) = limitF pe i b x (limitF pe i c y f) := by
  simp only [limitF]
  have m := minAt_comm (i := i)
  by_cases hb : b.isSteady = true <;> by_cases hc : c.isSteady = true <;>
    simp only [hb, hc, if_true, Bool.false_eq_true, if_false]
  · exact m _ _ _ _ _
  · rw [m f b c, m _ b .steady]
  · rw [m _ .steady c, m f b c]
  · rw [m _ .steady c, m f b c, m _ .steady .steady, m _ b .steady]

/-- The clock of a refresh policy. -/
def refreshClock : Pol → Option Clock
  | .refresh c | .asioRefresh c _ | .asioRefreshFn c _ => some c
  | _ => none

/-- The clock and the duration of an age limit that concerns what is assigned. -/
def ageOf (a : Args V) (value : Bool) : Pol → Option (Clock × Int)
  | .maxAge c => if value then some (c, a.age c) else none
  | .errMaxAge c => if value then none else some (c, a.errAge c)
  | _ => none

/-- When the refresh of an entry is due. -/
def dueOf (a : Args V) (pe : PEnv V) (m : Mapped V E) : Pol → Option Int
  | .refresh c => some (pe.now c + a.delay (.refresh c))
  | .asioRefresh c n => some (pe.now c + a.delay (.asioRefresh c n))
  | .asioRefreshFn c n =>
    match m.get pe.env false with
    | .val v => some (a.due (.asioRefreshFn c n) v (pe.now c))
    | _ => none
  | _ => none

def isQueued : Pol → Bool
  | .refresh _ => true
  | _ => false

/-- `on_assign_` in one form for all policies. -/
theorem onAssign_eq (a : Args V) (pe : PEnv V) (i : Nat) (value : Bool) (d : Data V E) (p : Pol) :
    onAssign a pe i value d p =
      { d with
        exp := match ageOf a value p with
          | some (c, t) => limitF pe i c t d.exp
          | none => d.exp
        refT := if value then match dueOf a pe (d.mapped i) p with
          | some t => set2 d.refT i p (some t)
          | none => d.refT else d.refT
        can := if value then match refreshClock p, dueOf a pe (d.mapped i) p with
          | some c, some _ => if a.idle p = 0 then d.can else set2 d.can i p (tpMin (d.can i p) (some (pe.now c + a.idle p)))
          | _, _ => d.can else d.can
        dq := if value && isQueued p then setP d.dq p (d.dq p ++ [i]) else d.dq } := by
  cases value <;> cases p <;> simp [onAssign, ageOf, dueOf, refreshClock, isQueued, limitAge_eq, startIdle]
  · split <;> rfl
  · split <;> rfl
  · split <;> simp_all
    split <;> rfl

theorem onAssign_comm (a : Args V) (pe : PEnv V) (i : Nat) (value : Bool) (d : Data V E) (p q : Pol) :
    onAssign a pe i value (onAssign a pe i value d p) q = onAssign a pe i value (onAssign a pe i value d q) p := by
  by_cases hpq : p = q
  · rw [hpq]
  simp only [onAssign_eq]
  congr 1
  · cases hp : ageOf a value p with
    | none => cases hq : ageOf a value q <;> simp
    | some x => cases hq : ageOf a value q with
      | none => simp
      | some y => simp [limitF_comm]
  · cases value <;> simp
    cases dueOf a pe (d.mapped i) p <;> cases dueOf a pe (d.mapped i) q <;> simp
    exact set2_comm _ _ _ _ _ hpq
  · cases value <;> simp
    have h1 : ∀ x, set2 d.can i p x i q = d.can i q := fun x => set2_ne _ _ (fun g => hpq g.2.symm)
    have h2 : ∀ x, set2 d.can i q x i p = d.can i p := fun x => set2_ne _ _ (fun g => hpq g.2)
    cases refreshClock p <;> cases refreshClock q <;> cases dueOf a pe (d.mapped i) p <;> cases dueOf a pe (d.mapped i) q <;> simp
    by_cases i1 : a.idle p = 0 <;> by_cases i2 : a.idle q = 0 <;> simp [i1, i2, h1, h2]
    exact set2_comm _ _ _ _ _ hpq
  · cases value <;> simp
    cases isQueued p <;> cases isQueued q <;> simp
    rw [setP_ne _ _ (Ne.symm hpq), setP_ne _ _ hpq]
    exact setP_comm _ _ _ hpq

theorem holdsValue_strengthen (env : Env V) (m : Mapped V E) : (m.strengthen env).holdsValue env = m.holdsValue env := by
  cases m with
  | weak v =>
    by_cases h : env.alive v = true
    · simp [Mapped.strengthen, Mapped.holdsValue, h]
    · simp [Mapped.strengthen, Mapped.holdsValue, h]
  | pending p => by_cases h : p.expired = true <;> simp [Mapped.strengthen, Mapped.holdsValue, h]
  | _ => simp [Mapped.strengthen, Mapped.holdsValue]

/-- `on_hit_` in one form for all policies. -/
theorem onHit_eq (a : Args V) (pe : PEnv V) (i : Nat) (d : Data V E) (p : Pol) :
    onHit a pe i d p =
      { d with
        bq := if p = .queue then d.bq.onHit i else d.bq
        mapped := if p = .queue then set1 d.mapped i ((d.mapped i).strengthen pe.env) else d.mapped
        can := match refreshClock p with
          | some c => if a.idle p ≠ 0 ∧ (d.mapped i).holdsValue pe.env = true then set2 d.can i p (some (pe.now c + a.idle p)) else d.can
          | none => d.can } := by
  cases p <;> simp [onHit, refreshClock, moveIdle] <;> split <;> rfl

theorem onHit_comm (a : Args V) (pe : PEnv V) (i : Nat) (d : Data V E) (p q : Pol) :
    onHit a pe i (onHit a pe i d p) q = onHit a pe i (onHit a pe i d q) p := by
  by_cases hpq : p = q
  · rw [hpq]
  simp only [onHit_eq]
  congr 1
  · by_cases h1 : p = .queue <;> by_cases h2 : q = .queue <;> simp [h1, h2]
  · have h1 : ∀ r : Pol, (if r = .queue then set1 d.mapped i ((d.mapped i).strengthen pe.env) else d.mapped) i =
        if r = .queue then (d.mapped i).strengthen pe.env else d.mapped i := by intro r; split <;> simp [set1]
    have h2 : ∀ r : Pol, ((if r = .queue then set1 d.mapped i ((d.mapped i).strengthen pe.env) else d.mapped) i).holdsValue pe.env =
        (d.mapped i).holdsValue pe.env := by
      intro r; rw [h1]; split
      · exact holdsValue_strengthen _ _
      · rfl
    simp only [h2]
    cases refreshClock p <;> cases refreshClock q <;> simp
    by_cases g1 : a.idle p = 0 <;> by_cases g2 : a.idle q = 0 <;> cases (d.mapped i).holdsValue pe.env <;> simp [g1, g2]
    exact set2_comm _ _ _ _ _ hpq
  · by_cases h1 : p = .queue <;> by_cases h2 : q = .queue <;> simp [h1, h2]

theorem onCreate_comm (pe : PEnv V) (i : Nat) (d : Data V E) (p q : Pol) :
    onCreate pe i (onCreate pe i d p) q = onCreate pe i (onCreate pe i d q) p := by
  by_cases hpq : p = q
  · rw [hpq]
  by_cases h1 : p = .queue
  · have : ∀ d : Data V E, onCreate pe i d q = d := by intro d; cases q <;> simp_all [onCreate]
    rw [this, this]
  · have : ∀ d : Data V E, onCreate pe i d p = d := by intro d; cases p <;> simp_all [onCreate]
    rw [this, this]

/-- `on_unlink_` in one form for all policies. -/
theorem onUnlink_eq (i : Nat) (d : Data V E) (p : Pol) :
    onUnlink i d p =
      { d with
        bq := if p = .queue then d.bq.onUnlink i else d.bq
        dq := if isQueued p then setP d.dq p ((d.dq p).erase i) else d.dq
        refT := if (refreshClock p).isSome && !isQueued p then set2 d.refT i p none else d.refT } := by
  cases p <;> simp [onUnlink, isQueued, refreshClock]

theorem onUnlink_comm (i : Nat) (d : Data V E) (p q : Pol) :
    onUnlink i (onUnlink i d p) q = onUnlink i (onUnlink i d q) p := by
  by_cases hpq : p = q
  · rw [hpq]
  simp only [onUnlink_eq]
  congr 1
  · cases (refreshClock p).isSome <;> cases (refreshClock q).isSome <;> cases isQueued p <;> cases isQueued q <;> simp
    exact set2_comm _ _ _ _ _ hpq
  · cases isQueued p <;> cases isQueued q <;> simp
    rw [setP_ne _ _ (Ne.symm hpq), setP_ne _ _ hpq]
    exact setP_comm _ _ _ hpq
  · by_cases h1 : p = .queue <;> by_cases h2 : q = .queue <;> simp [h1, h2]

/-- The policy a base belongs to. -/
def refreshOf : Cls → Option Pol
  | .refreshBase c => some (.refresh c)
  | .asioRefreshBase c n => some (.asioRefresh c n)
  | .asioRefreshFnBase c n => some (.asioRefreshFn c n)
  | _ => none

theorem refreshOf_inj {b c : Cls} {p : Pol} (hb : refreshOf b = some p) (hc : refreshOf c = some p) : b = c := by
  cases b <;> simp [refreshOf] at hb <;> subst hb <;> cases c <;> simp_all [refreshOf]

theorem onRefresh_eq (new old : Nat) (d : Data V E) (c : Cls) :
    onRefresh new old d c =
      { d with can := match refreshOf c with
          | some p => set2 d.can new p (tpMin (d.can new p) (d.can old p))
          | none => d.can } := by
  cases c <;> simp [onRefresh, refreshOf]

theorem onRefresh_comm (new old : Nat) (d : Data V E) (b c : Cls) :
    onRefresh new old (onRefresh new old d b) c = onRefresh new old (onRefresh new old d c) b := by
  by_cases hbc : b = c
  · rw [hbc]
  simp only [onRefresh_eq]
  congr 1
  cases hb : refreshOf b with
  | none => cases hc : refreshOf c <;> simp
  | some p => cases hc : refreshOf c with
    | none => simp
    | some q =>
      have hpq : p ≠ q := fun h => hbc (refreshOf_inj hb (h ▸ hc))
      simp only
      rw [set2_ne _ _ (fun g => hpq g.2.symm), set2_ne _ _ (fun g => hpq g.2.symm), set2_ne _ _ (fun g => hpq g.2), set2_ne _ _ (fun g => hpq g.2)]
      exact set2_comm _ _ _ _ _ hpq

end Hoard.Dispatch
