import Verif.Dispatch
import Verif.Spec.Policies
/-! # When a value expires, for any combination of policies; and which cache has which policies

For C96, C97 and C98. -/
namespace Hoard.Dispatch
open Hoard.Meta (Pol Clock)
variable {K V E : Type}

/-- One of the age limits named has passed since `pe0`: on its own clock, or, if that clock can be set, on the steady clock. -/
def TooOld (user : List Pol) (a : Args V) (pe0 pe : PEnv V) : Prop :=
  ∃ c, .maxAge c ∈ user ∧
    (pe0.now c + a.age c ≤ pe.now c ∨ (c.isSteady = false ∧ pe0.now .steady + a.age c ≤ pe.now .steady))

/-- One of the refresh policies named, with this clock. -/
def Refreshes (p : Pol) (c : Clock) : Prop := p = .refresh c ∨ ∃ n, p = .asioRefresh c n ∨ p = .asioRefreshFn c n

/-- The idle timer of one of the refresh policies named has run out since `pe0`.  Zero means that there is no timer. -/
def Idle (user : List Pol) (a : Args V) (pe0 pe : PEnv V) : Prop :=
  ∃ p ∈ user, ∃ c, Refreshes p c ∧ a.idle p ≠ 0 ∧ pe0.now c + a.idle p ≤ pe.now c

/-- When entry `i` was used last: at the last hit, or else at `pe0`. -/
def lastUse (i : Nat) (pe0 : PEnv V) : List (PEnv V × Ev) → PEnv V
  | [] => pe0
  | (pe, e) :: es => lastUse i (if e = .hit i then pe else pe0) es

/-- The event gives entry `i` nothing new. -/
def Ev.leaves (i : Nat) : Ev → Prop
  | .assign j _ => j ≠ i
  | .refreshed new _ => new ≠ i
  | _ => True

/-- When the refresh of a value `v` that was given at `pe0` is due, for each of the refresh policies: after the delay, or when the function says. -/
def DueAt (a : Args V) (pe0 : PEnv V) (v : V) : Pol → Option Int
  | .refresh c => some (pe0.now c + a.delay (.refresh c))
  | .asioRefresh c n => some (pe0.now c + a.delay (.asioRefresh c n))
  | .asioRefreshFn c n => some (a.due (.asioRefreshFn c n) v (pe0.now c))
  | _ => none

/-- Entry `i` is hit only while it is not expired. -/
def HitsAlive (user : List Pol) (a : Args V) (i : Nat) : Data V E → List (PEnv V × Ev) → Prop
  | _, [] => True
  | d, (pe, e) :: es => (e = .hit i → expired user pe d i = false) ∧ HitsAlive user a i (event user a pe d e) es

/-- The cache of `Verif.Cache` with configuration `cfg` is one with these policies, named in any order: no policy of `asio/`, the
refresh policy on the steady clock, and age limits on one clock `c`, which is the steady clock or can be set. -/
structure Fits (cfg : Cfg K) (user : List Pol) (a : Args V) (c : Clock) : Prop where
  clock : c = .steady ∨ c.isSteady = false
  wall : cfg.wall = !c.isSteady
  size : cfg.maxSize = if .maxSize ∈ user then some a.size else none
  age : cfg.maxAge = if .maxAge c ∈ user then some (a.age c) else none
  errAge : cfg.errAge = if .errMaxAge c ∈ user then some (a.errAge c) else none
  refresh : cfg.refresh = if .refresh .steady ∈ user then some (a.delay (.refresh .steady), a.idle (.refresh .steady)) else none
  weaken : cfg.weaken = decide (.weaken ∈ user)
  ptr : cfg.ptr = user.any isPointer
  one_clock : ∀ c', (.maxAge c' ∈ user ∨ .errMaxAge c' ∈ user) → c' = c
  steady : ∀ c', .refresh c' ∈ user → c' = .steady
  no_asio : ∀ c' n, .asioRefresh c' n ∉ user ∧ .asioRefreshFn c' n ∉ user
  no_queue : .queue ∉ user
  nodup : user.Nodup

/-- The clocks show the same. -/
structure SameTime (c : Clock) (env : Env V) (pe : PEnv V) : Prop where
  steady : env.now.steady = pe.now .steady
  wall : c.isSteady = false → env.now.wall = pe.now c
  alive : env.alive = pe.alive

/-- An entry of `Verif.Cache` and what the policies keep for it are the same; there are deadlines only where a policy sets them. -/
structure SeesEntry (user : List Pol) (c : Clock) (e : Entry K V E) (d : Data V E) : Prop where
  mapped : d.mapped e.id = e.mapped
  steady : d.exp e.id .steady = e.expTp.map (·.1)
  wall : c.isSteady = false → d.exp e.id c = e.expTp.bind (·.2)
  both : c.isSteady = true → e.expTp.bind (·.2) = none
  refT : d.refT e.id (.refresh .steady) = e.refTp
  can : d.can e.id (.refresh .steady) = e.canTp
  exp_named : ∀ c', d.exp e.id c' ≠ none → Meta.Required Meta.lib user (.expireAt c') ∧ (c' = .steady ∨ c' = c)
  can_named : e.canTp ≠ none → .refresh .steady ∈ user

/-- A state of `Verif.Cache` and what the policies keep are the same. -/
structure Sees (user : List Pol) (c : Clock) (s : St K V E) (d : Data V E) : Prop where
  entry : ∀ e ∈ s.ents ++ s.limbo, SeesEntry user c e d
  bq : d.bq = s.bq
  dq : d.dq (.refresh .steady) = s.delayQ
  dq_named : s.delayQ ≠ [] → .refresh .steady ∈ user

end Hoard.Dispatch
