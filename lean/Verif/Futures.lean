import Verif.Cache
/-!
# What waiters are given

`Verif.Cache` says with which result a waiter is answered.  The code has no type for such a result: a callback gets a value and an
error, of which one is made up, and `get` of a cache with `async_resolver_policy` decides by the error which of the two goes into the future.
-/
namespace Hoard.Futures
variable {K V E : Type}

/-- What the code needs of the types of values and errors: `mapped_type()` (pending.ii:39, hashtable.ii:624), `error_type()`
(pending.ii:27, hashtable.ii:621), and the conversion of an error to `bool` (resolver_policy.ii:140).  The type of errors is the
argument of `error_policy` (error_policy.h:9-13). -/
structure ErrT (V E : Type) where
  noValue : V
  noError : E
  isSet : E → Bool

/-- The arguments with which a callback is invoked: pending.ii:27 and 39 when a lookup completes, hashtable.ii:621 and 624 when the
answer was there.  A completion handler of asio gets the same two (asio/resolver_policy.h:128-138). -/
def args (t : ErrT V E) : Res V E → V × E
  | .ok v => (v, t.noError)
  | .err e => (t.noValue, e)

/-- The callback of `get` (resolver_policy.ii:137-144): what it puts into the future. -/
def future (t : ErrT V E) (p : V × E) : Res V E := if t.isSet p.2 then .err p.2 else .ok p.1

/-- What is in the futures of the waiters answered, in the order in which they are (resolver_policy.ii:137-144). -/
def futures (t : ErrT V E) (outs : List (Out K V E)) : List (Nat × Res V E) := (outs.flatMap (·.fired)).map (fun p => (p.1, future t (args t p.2)))

end Hoard.Futures
