import Verif.Timers
/-!
# Model: refreshes that fail

`refresh` (refresh_impl_policy.ii:52-89) calls code that can throw: the allocation of the new entry, the constructor
of the value, the allocation of new buckets, the resolver of the user, and the registration of
the callback that retires the old value.  Nothing on the way catches an exception for good (the `catch` of
refresh_impl_policy.ii:82-87 throws again):

* With `asio_refresh_policy` the exception leaves the handler of the timer (asio/refresh_policy.ii:60-66), and so the
  function of the executor that runs handlers, and reaches the user there.  The program can go on.
* With `refresh_policy` it leaves the function of the refresh thread (refresh_policy.ii:120, "should we swallow
  exceptions?"), which ends the program.

Simplified: when making the value fails in `assign` of a synchronous resolver and nothing is left of the
entry's variant, the program ends (see Throw.lean); that case is left out here.  Exceptions of hash functions and
comparisons do not occur in `refresh`: the hash code is stored in the entry (value_type.h:41-45, refresh_impl_policy.ii:64).
-/
namespace Hoard.RefreshFail
open Timers
variable {K V E : Type}

/-- Where a refresh fails: allocation of the entry or of the handle (resolver_policy.ii:38, 40, 87, 89); making the value inside the
new entry by a synchronous resolver that is `noexcept` (resolver_policy.ii:38); growing the table
(resolver_policy.ii:51, 90); the functor of an asynchronous resolver throws (resolver_policy.ii:91); registering the callback that will
retire the old value (refresh_impl_policy.ii:70-75). -/
inductive RFail where
  | alloc
  | build
  | grow
  | functor
  | register

/-- `refresh` (refresh_impl_policy.ii:52-89) of the entry `e` that fails at `f`, if it gets there; otherwise
it is the ordinary `refresh`.  `b` is what the functor does with the handle, before it throws, if it does.
Only a failed registration is noticed, by marking the old value as expired (refresh_impl_policy.ii:82-86).  In the other cases
`refresh_started_` is not set (65). -/
def refreshFail (cfg : Cfg K) (env : Env V) (s : St K V E) (e : Entry K V E) (r : Res V E) (b : Beh V E) (f : RFail) : St K V E × Out K V E :=
  if e.refreshing || e.expired env then (s, {}) else
  match f with
  | .alloc => (s, { ret := .throws })
  | .build =>
    if cfg.resolver = .async then refresh cfg env s e r b
    else (s, { ret := .throws, calls := [(e.key, s.nextId)] })
  | .grow =>
    if mustGrow cfg (beforeLink cfg env s) then
      (beforeLink cfg env s, { ret := .throws, calls := if cfg.resolver = .async then [] else [(e.key, s.nextId)] })
    else refresh cfg env s e r b
  | .functor =>
    if cfg.resolver = .async then ((resolveAsync cfg env s e.key b).1, { ret := .throws, calls := [(e.key, s.nextId)] })
    else refresh cfg env s e r b
  | .register =>
    if cfg.resolver = .async then
      let (s1, tok) := resolveAsync cfg env s e.key b
      let s2 := s1.modify e.id (fun x => { x with refreshing := true })
      match s2.find tok with
      | some n =>
        if n.isPending then (s2.modify e.id (·.upd .markExpired), { ret := .throws, calls := [(e.key, tok)] })
        else refresh cfg env s e r b
      | none => refresh cfg env s e r b
    else refresh cfg env s e r b

/-- What happens: the steps of Timers.lean, and handlers (asio/refresh_policy.ii:60-66) that fail. -/
inductive FEv (K V E : Type) where
  | ev (e : Timers.Ev K V E)
  /-- the handler of the entry `i` is called and fails at `f`; `r` and `b` as in `handler` -/
  | fail (i : Nat) (r : Res V E) (b : Beh V E) (f : RFail)

/-- One step.  The handler (asio/refresh_policy.ii:60-66) is used up, whether it fails or not. -/
def fnext (cfg : Cfg K) (env : Env V) (t : TSt K V E) : FEv K V E → TSt K V E × Out K V E
  | .ev e => next cfg env t e
  | .fail i r b f =>
    if t.s.destroyed then ({ t with queue := t.queue.erase i }, {})
    else match t.s.findAny i with
      | none => ({ t with queue := t.queue.erase i }, {})
      | some e => ({ s := (refreshFail cfg env t.s e r b f).1, queue := t.queue.erase i }, (refreshFail cfg env t.s e r b f).2)

/-- Steps that can happen: as in Timers.lean; a handler that fails is one that is queued (asio/refresh_policy.ii:57-60). -/
def FEv.ok (cfg : Cfg K) (env : Env V) (t : TSt K V E) : FEv K V E → Prop
  | .ev e => e.ok cfg env t
  | .fail i _ _ _ => i ∈ t.queue ∧ cfg.resolver ≠ .none

/-- A history.  Calls and handlers in the order of their locks (asio/refresh_policy.ii:64). -/
abbrev FHist (K V E : Type) := List (Env V × FEv K V E)

/-- Carry it out.  One after the other (asio/refresh_policy.ii:64). -/
def frun (cfg : Cfg K) : TSt K V E → FHist K V E → TSt K V E × List (Out K V E)
  | t, [] => (t, [])
  | t, (env, e) :: h =>
    let r := fnext cfg env t e
    let r2 := frun cfg r.1 h
    (r2.1, r.2 :: r2.2)

/-- All steps are possible when they happen.  asio/refresh_policy.ii:56-66, throughout. -/
def FOk (cfg : Cfg K) : TSt K V E → FHist K V E → Prop
  | _, [] => True
  | t, (env, e) :: h => e.ok cfg env t ∧ FOk cfg (fnext cfg env t e).1 h

/-- One iteration of the loop of the refresh thread (refresh_policy.ii:117-121) whose refresh fails at `f`, if it gets there.
The last component says whether the program has ended: the exception leaves the function of a thread (refresh_policy.ii:66-70,
95-123). -/
def tickFail (cfg : Cfg K) (env : Env V) (s : St K V E) (r : Res V E) (b : Beh V E) (f : RFail) : St K V E × Out K V E × Bool :=
  match s.delayQ with
  | [] => (s, {}, false)
  | i :: q =>
    match s.find i with
    | none => (s, {}, false)
    | some e =>
      if reached env.now e.refTp then
        let g := refreshFail cfg env { s with delayQ := q } e r b f
        (g.1, g.2, match g.2.ret with | .throws => true | _ => false)
      else (s, {}, false)

end Hoard.RefreshFail
