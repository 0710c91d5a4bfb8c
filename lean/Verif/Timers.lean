import Verif.Cache
/-!
# Model: refreshing by timers

`asio_refresh_policy` (asio/refresh_policy.h, asio/refresh_policy.ii) has no refresh thread.  Every entry
has a timer of its own.  When a value is assigned, the timer is set and a handler is attached to it
(asio/refresh_policy.ii:54-74).  When the time has come, the executor queues the handler, and runs
it some time later.  The handler locks the cache, if it still exists, and refreshes the entry (60-66).
When the entry is unlinked, the timer is cancelled (85-87).  A handler that is queued already is
not affected by that: it will be called as if nothing had happened.

The cache is the one of `Verif.Cache`.  There, `delayQ` lists the entries waiting for the refresh thread.  Here it
lists the entries whose timer is running: `on_assign_` adds the entry and `on_unlink_` removes it, as in
refresh_policy.ii:49-63, 72-76.  The deadlines `refTp` and `canTp` are set in the same way
(asio/refresh_policy.ii:56, 68-72, 78-81), and so is `expired` (26-28) and `on_refresh` (31-33).

Simplified: the timer uses the clock of the cache (the code allows for different wait traits).  Handlers may run in any order.
-/
namespace Hoard.Timers
variable {K V E : Type}

/-- What happens, in the order in which it happens.  Calls of cache.h:35-89 and the rest of `Op`,
the expiry of a timer and its handler (asio/refresh_policy.ii:57-66). -/
inductive Ev (K V E : Type) where
  /-- an operation on the cache -/
  | op (o : Op K V E)
  /-- the timer of the entry `i` runs out: its handler is queued -/
  | expire (i : Nat)
  /-- the handler of the entry `i` is called; `r` and `b` say what the resolver would do -/
  | handler (i : Nat) (r : Res V E) (b : Beh V E)

/-- The cache, and the entries whose handlers are queued.  Handlers of asio/refresh_policy.ii:57-66
that the executor has not run so far. -/
structure TSt (K V E : Type) where
  s : St K V E := {}
  queue : List Nat := []

/-- One step.  `expire` is done by the executor; `handler` is asio/refresh_policy.ii:60-66.  The handler keeps the entry alive, linked or not
(59), and does nothing when the cache was destroyed (62). -/
def next (cfg : Cfg K) (env : Env V) (t : TSt K V E) : Ev K V E → TSt K V E × Out K V E
  | .op o => ({ t with s := (step cfg env t.s o).1 }, (step cfg env t.s o).2)
  | .expire i => ({ s := { t.s with delayQ := t.s.delayQ.filter (· != i) }, queue := t.queue ++ [i] }, {})
  | .handler i r b =>
    if t.s.destroyed then ({ t with queue := t.queue.erase i }, {})
    else match t.s.findAny i with
      | none => ({ t with queue := t.queue.erase i }, {})
      | some e => ({ s := (refresh cfg env t.s e r b).1, queue := t.queue.erase i }, (refresh cfg env t.s e r b).2)

/-- Steps that can happen: the operations that make sense for the cache (`Op.ok`) except for the refresh thread, a timer
that is running and whose time has come, and a handler that is queued.
asio/refresh_policy.ii:56-66. -/
def Ev.ok (cfg : Cfg K) (env : Env V) (t : TSt K V E) : Ev K V E → Prop
  | .op o => o.ok cfg t.s ∧ ∀ r b, o ≠ .tick r b
  | .expire i => i ∈ t.s.delayQ ∧ ∃ e ∈ t.s.ents, e.id = i ∧ reached env.now e.refTp = true
  | .handler i _ _ => i ∈ t.queue ∧ cfg.resolver ≠ .none

/-- A history.  Calls and handlers in the order of their locks (asio/refresh_policy.ii:64). -/
abbrev THist (K V E : Type) := List (Env V × Ev K V E)

/-- Carry it out.  One after the other (asio/refresh_policy.ii:64). -/
def runT (cfg : Cfg K) : TSt K V E → THist K V E → TSt K V E × List (Out K V E)
  | t, [] => (t, [])
  | t, (env, e) :: h =>
    let r := next cfg env t e
    let r2 := runT cfg r.1 h
    (r2.1, r.2 :: r2.2)

/-- All steps are possible when they happen.  asio/refresh_policy.ii:56-66, throughout. -/
def TOk (cfg : Cfg K) : TSt K V E → THist K V E → Prop
  | _, [] => True
  | t, (env, e) :: h => e.ok cfg env t ∧ TOk cfg (next cfg env t e).1 h

/-! ## Delays chosen by a function -/

/-- Whether the value with which the lookup `tok` is completed cannot be read back afterwards, because the lookup was invalidated or weakened
meanwhile (mapped_type.ii:32-38, 221-244). -/
def unreadable (cfg : Cfg K) (env : Env V) (s : St K V E) (tok : Nat) (v : V) : Bool :=
  match s.findAny tok with
  | none => false
  | some e => match (completed cfg (.ok v) e.mapped).get env false with
    | .val _ => false
    | _ => true

/-- `asio_refresh_fn_policy` computes the delay from the value: `on_assign_` reads the value just stored with `std::get<1>`
(asio/refresh_policy.ii:133-136).  If there is none, `std::get` throws, and the exception leaves a `noexcept` function
(asio/refresh_policy.h:104): the program is terminated.  This says whether a step does so.

Simplified: the delay itself is the constant `cfg.refresh` as above, and the function does not throw.  Lookups completed inside the resolver
are left out (there it can only happen if the size limit evicts the entry while it is being added).
asio/refresh_policy.ii:133-135. -/
def terminates (cfg : Cfg K) (env : Env V) (t : TSt K V E) : Ev K V E → Bool
  | .op (.complete tok (.ok v)) => decide (tok ∈ t.s.opens) && !t.s.destroyed && unreadable cfg env t.s tok v
  | _ => false

end Hoard.Timers
