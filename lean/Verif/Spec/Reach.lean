import Verif.Spec.Ledger
/-! # Specification: histories and the conditions put on them -/
namespace Hoard
open Spec
variable {K V E : Type}

/-- State of the cache after a history. -/
def stateAfter (cfg : Cfg K) (h : Hist K V E) : St K V E := (run cfg St.init h).1

/-- What the ledger says after a history. -/
def ledgerAfter (cfg : Cfg K) (h : Hist K V E) : Ledger K V :=
  ({} : Ledger K V).history cfg.eqv cfg.resolver h (run cfg (St.init : St K V E) h).2

/-- A value is dead for reasons known to the ledger. -/
def DeadL (cfg : Cfg K) (env : Env V) (L : Ledger K V) (k : K) (v : V) : Prop :=
  env.now.past (L.ageLimit cfg.maxAge cfg.wall k) = true ∨ reached env.now (L.idleLimit cfg.refresh k) = true ∨
  (cfg.maxSize.isSome = true ∧ cfg.weaken = true ∧ cfg.ptr = true ∧ env.alive v = false)

/-- Time passes: the clocks do not go back, objects do not come back. -/
structure Env.le (a b : Env V) : Prop where
  now : a.now.steady ≤ b.now.steady
  wall : a.now.wall ≤ b.now.wall
  alive : ∀ v, b.alive v = true → a.alive v = true

/-- Less than `A` has passed from `t` to `now`: on the steady clock and, where
age limits are measured on another clock (`wall`), on that clock too. -/
def Younger (wall : Bool) (A : Int) (t now : Time) : Prop :=
  now.steady < t.steady + A ∧ (wall = true → now.wall < t.wall + A)

/-- No value of such a cache dies with time. -/
def Cfg.Untimed (cfg : Cfg K) : Prop :=
  cfg.maxAge = none ∧ cfg.refresh = none ∧ (cfg.maxSize = none ∨ cfg.weaken = false ∨ cfg.ptr = false)

/-- Nothing that is still of use is evicted: there is no size limit, or there are
not more entries than it allows, or evicted entries are only weakened. -/
def NoEvict (cfg : Cfg K) (s : St K V E) : Prop :=
  ∀ N, cfg.maxSize = some N → s.size ≤ N ∨ cfg.weaken = true ∧ cfg.ptr = true

/-- No step of the history evicts a value for good: the table is never over the
size limit after a step, unless evicted values are only weakened. -/
def NoEvictH (cfg : Cfg K) : St K V E → Hist K V E → Prop
  | s, [] => NoEvict cfg s
  | s, (env, o) :: h => NoEvict cfg s ∧ NoEvictH cfg (step cfg env s o).1 h

/-- The clocks do not go back along the history, and objects once destroyed do
not come back. -/
def Mono (es : List (Env V)) : Prop := es.Pairwise Env.le

/-- What an operation does when it is performed after a history. -/
def outAt (cfg : Cfg K) (h : Hist K V E) (env : Env V) (o : Op K V E) : Out K V E := (step cfg env (stateAfter cfg h) o).2

/-- The operation, performed after the history `h`, writes `v` to `k`. -/
def WritesAt (cfg : Cfg K) (k : K) (v : V) (h : Hist K V E) (env : Env V) (o : Op K V E) : Prop :=
  (ledgerAfter cfg h).Writes cfg.eqv cfg.resolver k v o (outAt cfg h env o)

/-- The operation, performed after the history `h`, writes or removes `k`. -/
def ChangesAt (cfg : Cfg K) (k : K) (h : Hist K V E) (env : Env V) (o : Op K V E) : Prop :=
  (ledgerAfter cfg h).Changes cfg.eqv cfg.resolver k o (outAt cfg h env o)

/-- No operation of `h'`, performed after `h`, writes or removes `k`. -/
def Kept (cfg : Cfg K) (k : K) (h h' : Hist K V E) : Prop :=
  ∀ h1 env o h2, h' = h1 ++ (env, o) :: h2 → ¬ ChangesAt cfg k (h ++ h1) env o

/-- The operation, performed after the history `h`, starts the lookup `tok` of `k`. -/
def StartsAt (cfg : Cfg K) (k : K) (tok : Nat) (h : Hist K V E) (env : Env V) (o : Op K V E) : Prop :=
  Ledger.Starts cfg.eqv cfg.resolver k tok o (outAt cfg h env o)

/-- The operation, performed after the history `h`, is a use of `k` by the user. -/
def UsesAt (cfg : Cfg K) (k : K) (h : Hist K V E) (env : Env V) (o : Op K V E) : Prop :=
  (ledgerAfter cfg h).Uses cfg.eqv k o (outAt cfg h env o)

/-- The operation, performed after the history, answers a lookup of `k` with the
stored value `v`: it neither asked the resolver nor made a new value. -/
def StoredAnswer (cfg : Cfg K) (k : K) (v : V) (h : Hist K V E) (env : Env V) (o : Op K V E) : Prop :=
  answered o (outAt cfg h env o) = some (k, v) ∧ (outAt cfg h env o).calls = [] ∧ (outAt cfg h env o).made = false

/-- The operation asks for the value of the key. -/
def Asks (k : K) : Op K V E → Prop
  | .getIfExists k' => k' = k
  | .get k' _ => k' = k
  | .asyncGet k' _ _ => k' = k
  | .getOrEmplace k' _ _ => k' = k
  | _ => False

/-- The cache itself keeps the object alive: it holds a strong reference. -/
def Owns (s : St K V E) (v : V) : Prop := ∃ e ∈ s.ents, e.mapped = .value v

/-- After no step of the history does the table hold more than `N` entries. -/
def WithinH (cfg : Cfg K) (N : Nat) (h : Hist K V E) : Prop := ∀ h1 h2, h = h1 ++ h2 → (stateAfter cfg h1).size ≤ N

/-- The keys a synchronous operation can store something for. -/
def Op.keys : Op K V E → List K
  | .get k _ => [k]
  | .emplace k _ _ => [k]
  | .getOrEmplace k _ _ => [k]
  | _ => []

/-- The refresh worker runs several times in a row at one moment; `ts` is what the resolver does each time. -/
def ticks (env : Env V) (ts : List (Res V E × Beh V E)) : Hist K V E := ts.map (fun p => (env, .tick p.1 p.2))

/-- The call returned a value. -/
def Ret.isVal : Ret V E → Bool
  | .val _ => true
  | _ => false

end Hoard
