import Verif.Events
import Verif.Nested
import Verif.NestedAsync
import Verif.Handlers
/-!
# Model: the calls that policies see while resolvers and handlers use the cache

`Verif.Events` has the calls of operations that nothing interrupts.  Here are those of the three models in which code of the user
runs in the middle of an operation and uses the cache: synchronous resolvers (`Verif.Nested`), asynchronous ones
(`Verif.NestedAsync`) and completion handlers (`Verif.Handlers`).

The same simplifications as there.
-/
namespace Hoard.Events
variable {K V E : Type}

/-- `get` up to the call of the resolver looks the key up (hashtable.ii:567-592); when the resolver has returned the new entry is linked
(hashtable.ii:592-595, resolver_policy.ii:42-53). -/
def nested (cfg : Cfg K) (env : Env V) (n : Nested.NSt K V E) : Nested.Ev K V E → List Ev
  | .op o => events cfg env n.s o
  | .get k => lookup cfg env n.s k false
  | .ret r =>
    match n.stack with
    | [] => []
    | k :: _ => resolveSync cfg env n.s k r

/-- The calls of a whole history of `Verif.Nested`.  One step after the other (thread_safe_policy.h:29). -/
def nestedTrace (cfg : Cfg K) : Nested.NSt K V E → Nested.NHist K V E → List Ev
  | _, [] => []
  | n, (env, e) :: h => nested cfg env n e ++ nestedTrace cfg (Nested.next cfg env n e).1 h

/-- `async_get` up to the call of the functor looks the key up and links a pending entry (hashtable.ii:597-611,
resolver_policy.ii:81-93).  When the functor returns or throws nothing is reported (hashtable.ii:613-641). -/
def nestedAsync (cfg : Cfg K) (env : Env V) (n : NestedAsync.NSt K V E) : NestedAsync.Ev K V E → List Ev
  | .op o => events cfg env n.s o
  | .get k _ =>
    lookup cfg env n.s k true ++
      match (getWalk cfg env k true (n.s.bucket (n.s.bucketFor (cfg.hash k)))).hit with
      | some _ => []
      | none => resolveAsync cfg env (get_ cfg env n.s k true).1 k .later
  | .ret => []
  | .throw => []

/-- The calls of a whole history of `Verif.NestedAsync`.  One step after the other (thread_safe_policy.h:29). -/
def nestedAsyncTrace (cfg : Cfg K) : NestedAsync.NSt K V E → NestedAsync.NHist K V E → List Ev
  | _, [] => []
  | n, (env, e) :: h => nestedAsync cfg env n e ++ nestedAsyncTrace cfg (NestedAsync.next cfg env n e).1 h

/-- A completion reports the assignment at its end, after all callbacks have run (async_resolver_callback.h:35-36, 51-52).  A completion that
comes too late, or twice, reports nothing (async_resolver_callback.h:31, 39-43, 47, 55-59). -/
def handled (cfg : Cfg K) (env : Env V) (n : Handlers.HSt K V E) : Handlers.Ev K V E → List Ev
  | .op o => events cfg env n.s o
  | .begin _ _ => []
  | .next => []
  | .finish =>
    match n.frames with
    | [] => []
    | f :: _ => [.assign f.tok (!Handlers.failed f.r) true]

/-- The calls of a whole history of `Verif.Handlers`, up to a step that is undefined or ends the program.  One step after the other
(thread_safe_policy.h:29). -/
def handledTrace (cfg : Cfg K) : Handlers.HSt K V E → Handlers.HHist K V E → List Ev
  | _, [] => []
  | n, (env, e) :: h =>
    match Handlers.next cfg env n e with
    | .ok n1 _ => handled cfg env n e ++ handledTrace cfg n1 h
    | _ => []

end Hoard.Events
