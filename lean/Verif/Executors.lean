import Verif.Cache
/-!
# Executors

A cache with `asio_resolver_policy` (asio/resolver_policy.h) runs nothing by itself: the functor of the resolver is handed to the executor of
the policy, and each completion handler to its own executor.  `dispatch` runs the function at once if the calling thread belongs to the
executor, and queues it otherwise; `post` queues it always.  `io_context::run` returns when there is no outstanding work: no
function in the queue, and no `executor_work_guard`, of which each registered callback holds one (asio/resolver_policy.h:128).

Which executors the calling thread belongs to is given with each operation.  A queued function may be taken out of turn, since executors can have
several threads.  Simplified: functions that run at once do nothing to the cache besides what the operation says (`Beh`); handlers that do are
`Verif.Handlers`.  A functor that completes or drops its handle within the operation (`Beh.now`, `Beh.drop`) is one that runs at once, so the thread is inside
the executor of the resolver; this is not demanded, the theorems hold without.
-/
namespace Hoard.Executors
variable {K V E X : Type}

/-- Where functions run: the executor associated with each handler, and that of the policy (asio/resolver_policy.h:125, 45). -/
structure Place (X : Type) where
  handler : Nat → X
  resolver : X

/-- A function in the queue of an executor: the call of the functor (asio/resolver_policy.h:78-82), or of a completion handler
with its result (asio/resolver_policy.h:132-138). -/
inductive Job (K V E : Type) where
  | call (k : K) (tok : Nat)
  | handler (w : Nat) (r : Res V E)

/-- The executor in whose queue it is.  asio/resolver_policy.h:78, 140-143. -/
def Job.on (p : Place X) : Job K V E → X
  | .call _ _ => p.resolver
  | .handler w _ => p.handler w

/-- The cache, the queues of all executors in one list, and what has run (not part of the program).  asio/resolver_policy.h:78, 140-143. -/
structure XSt (K V E : Type) where
  s : St K V E
  queue : List (Job K V E) := []
  ran : List (Nat × Res V E) := []
  called : List (K × Nat) := []

/-- What happens: an operation by a thread that is inside some executors, or an executor runs a queued function.
asio/resolver_policy.h:117-147, async_resolver_callback.h:29-60. -/
inductive XEv (K V E X : Type) where
  | op (inside : X → Bool) (env : Env V) (o : Op K V E)
  | run (i : Nat)

/-- `is_immediately_resolved` (hashtable.ii:621, 624): the handlers invoked by an operation are told by `async_get` itself. -/
def immediate : Op K V E → Bool
  | .asyncGet _ _ _ => true
  | _ => false

/-- The handler of a waiter runs at once: `dispatch` by a thread inside its executor, and not `post` (asio/resolver_policy.h:140-143). -/
def atOnce (p : Place X) (inside : X → Bool) (o : Op K V E) (w : Nat) : Bool := !immediate o && inside (p.handler w)

/-- One event.  asio/resolver_policy.h:70-84, 127-144; the functor is handed over before the callback is invoked (hashtable.ii:610-617). -/
def xstep (cfg : Cfg K) (p : Place X) (n : XSt K V E) : XEv K V E X → XSt K V E
  | .op inside env o =>
    let out := (step cfg env n.s o).2
    { s := (step cfg env n.s o).1
      queue := n.queue ++ (if inside p.resolver then [] else out.calls.map (fun c => .call c.1 c.2)) ++
        (out.fired.filter (fun f => !atOnce p inside o f.1)).map (fun f => .handler f.1 f.2)
      ran := n.ran ++ out.fired.filter (fun f => atOnce p inside o f.1)
      called := n.called ++ (if inside p.resolver then out.calls else []) }
  | .run i => match n.queue[i]? with
    | some (.call k tok) => { n with queue := n.queue.eraseIdx i, called := n.called ++ [(k, tok)] }
    | some (.handler w r) => { n with queue := n.queue.eraseIdx i, ran := n.ran ++ [(w, r)] }
    | none => n

/-- Everything that happens, from a new cache on.  asio/resolver_policy.h:117-147. -/
def xrun (cfg : Cfg K) (p : Place X) (es : List (XEv K V E X)) : XSt K V E := es.foldl (xstep cfg p) { s := St.init }

/-- The callbacks stored in the cache, each with its `executor_work_guard` (asio/resolver_policy.h:128, pending.h:38). -/
def guards (s : St K V E) : List Nat := (s.ents ++ s.limbo).flatMap (fun e => users e.mapped.cbs)

/-- Outstanding work of an executor: functions in its queue, and work guards (asio/resolver_policy.h:128).  `run` returns when it is 0. -/
def outstanding [DecidableEq X] (p : Place X) (n : XSt K V E) (x : X) : Nat :=
  (n.queue.filter (fun j => j.on p = x)).length + ((guards n.s).filter (fun w => p.handler w = x)).length

end Hoard.Executors
