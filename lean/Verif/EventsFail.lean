import Verif.Events
import Verif.Throw
import Verif.Abort
/-!
# The events that policies are told when calls fail

The calls of `Verif.Events` made by the operations of `Verif.Throw` (values that cannot be made, resolvers that throw, allocations that fail) and of `Verif.Abort`
(comparisons or copies that throw in the middle of a walk).
-/
namespace Hoard.Events
variable {K V E : Type}

/-- A synchronous `get` that fails at `f` (resolver_policy.ii:31-53, hashtable.ii:567-595; compare `Hoard.Throw.getFail`).  The lookup was reported before; a failure to grow comes after
the stale entries were dropped (basic_hashtable.ii:403-409) and before `on_create_` (hashtable.ii:713-719). -/
def getFailed (cfg : Cfg K) (env : Env V) (s : St K V E) (k : K) (r : Res V E) (f : Throw.SyncFail) : List Ev :=
  let w := getWalk cfg env k false (s.bucket (s.bucketFor (cfg.hash k)))
  let s1 := (get_ cfg env s k false).1
  lookup cfg env s k false ++ if w.hit.isNone = true then
    match f with
    | .grow => if mustGrow cfg (beforeLink cfg env s1) then before cfg env s1 else resolveSync cfg env s1 k r
    | _ => []
  else []

/-- An asynchronous `get` that fails at `f` (resolver_policy.ii:80-93, hashtable.ii:597-642; compare `Hoard.Throw.asyncFail`).  When the functor throws, or registering the callback fails, the entry
is there already and stays. -/
def asyncFailed (cfg : Cfg K) (env : Env V) (s : St K V E) (k : K) (b : Beh V E) (f : Throw.AsyncFail) : List Ev :=
  let w := getWalk cfg env k true (s.bucket (s.bucketFor (cfg.hash k)))
  let s1 := (get_ cfg env s k true).1
  lookup cfg env s k true ++ if w.hit.isNone = true then
    match f with
    | .alloc => []
    | .grow => if mustGrow cfg (beforeLink cfg env s1) then before cfg env s1 else resolveAsync cfg env s1 k b
    | _ => resolveAsync cfg env s1 k b
  else []

/-- The calls made by an operation that may fail.  A value that cannot be made: `on_assign_` (async_resolver_callback.h:36) is not reached.  Nor is it (36, 52) with a callback object
whose entry holds no lookup any more, `std::get` throws before (mapped_type.ii:35, 42). -/
def failing (cfg : Cfg K) (env : Env V) (x : Throw.XSt K V E) : Throw.XOp K V E → List Ev
  | .plain (.complete tok r) => if tok ∈ x.dead then [] else completed x.s tok r
  | .plain o => events cfg env x.s o
  | .getFail k r f => getFailed cfg env x.s k r f
  | .asyncFail k _ b f => asyncFailed cfg env x.s k b f
  | .assignFail _ _ _ => []

/-- The calls made in a history with failing calls (cache.h:39, 51, 58, 65: one operation after the other). -/
def failTrace (cfg : Cfg K) (nx : Bool) : Throw.XSt K V E → Throw.XHist K V E → List Ev
  | _, [] => []
  | x, (env, o) :: h => failing cfg env x o ++ failTrace cfg nx (Throw.xstep cfg nx env x o).1 h

/-- The calls made by an operation that may be left in the middle of a walk: the entries dropped so far (hashtable.ii:529, 547, 673, 680); `on_hit_` (554), `on_miss_` (563) and the insertion are
not reached. -/
def left (cfg : Cfg K) (env : Env V) (s : St K V E) : Abort.AOp K V E → List Ev
  | .plain o => events cfg env s o
  | o => match Abort.stopWalk cfg env s o with
    | some (_, w) => unlinks w.removed
    | none => []

/-- The calls made in a history with such calls (cache.h:39, 51, 58, 65). -/
def leftTrace (cfg : Cfg K) : St K V E → Abort.AHist K V E → List Ev
  | _, [] => []
  | s, (env, o) :: h => left cfg env s o ++ leftTrace cfg (Abort.astep cfg env s o).1 h

end Hoard.Events
