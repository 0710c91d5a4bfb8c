/-!
# Mapped values

Models `/repo/include/libhoard/detail/mapped_type.ii` and `pending.ii`: the
variant stored in each entry of the cache.

Simplifications: a member pointer is identified with the pointer it was made
from; `Verif.Member` models the difference, and C85 says when there is none.
Waiters' callbacks do not re-enter the cache.
-/
namespace Hoard

/-- What the clocks say: a steady clock, which the refresh policies use, and the clock of the
age limit if that one can be set, as `std::chrono::system_clock`, the default
(max_age_policy.h:13, 61).  Nothing is assumed of either, unless a theorem says so. -/
structure Time where
  steady : Int
  wall : Int
deriving DecidableEq

/-- A time used as a number is the time on the steady clock. -/
instance : Coe Time Int := ⟨Time.steady⟩

/-- What an operation can observe outside the cache: the clocks, and which
objects still have some strong owner (so that `lock()` on a weak pointer
succeeds).  One operation reads one consistent environment
(simplification: the code reads the clocks several times per operation).  `Clock::now()`
(expire_at_policy.ii:13, refresh_policy.ii:26) and `WeakPointer::lock` or `expired`
(mapped_type.ii:294-431). -/
structure Env (V : Type) where
  now : Time
  alive : V → Bool

/-- Result of a lookup made by a resolver.  The tuple or exception of resolver_policy.ii:42-48, or
the argument of async_resolver_callback.h:30, 46. -/
inductive Res (V E : Type) where
  | ok (v : V)
  | err (e : E)

/-- Callbacks registered on a pending lookup (`callback_fn`,
pending.h): a waiter of the user, or the callback installed by a refresh of the
entry `old` (refresh_impl_policy.ii:70-75). -/
inductive Cb where
  | user (w : Nat)
  | refresh (old : Nat)

/-- `pending` (pending.ii:8-13): callbacks and the two flags. -/
structure Pend where
  cbs : List Cb := []
  expired : Bool := false
  weakened : Bool := false

/-- The variant `value_` of `mapped_value` (mapped_type.h) and of
`mapped_pointer`: pending lookup, (strong) value, weak pointer
(`mapped_pointer` only), `expired_t`, error.  `gone` also stands for the empty
weak pointer, which behaves the same in every member function.  mapped_type.h:29, 76-79.
`void` is a variant of a `mapped_value` that holds nothing, because the constructor of the value
threw in `assign` (mapped_type.ii:36); the member functions then take the `default` cases of their
switches (mapped_type.ii:50-119, 135-161).  For a `mapped_pointer` such a variant behaves like
`gone` (mapped_type.ii:265-373, 395-431). -/
inductive Mapped (V E : Type) where
  | pending (p : Pend)
  | value (v : V)
  | weak (v : V)
  | gone
  | error (e : E)
  | void

/-- Result of `get` (mapped_type.ii:135-163, 395-431): the variant
`monostate, mapped_type, error_type, pending_type*`. -/
inductive Look (V E : Type) where
  | none
  | val (v : V)
  | err (e : E)
  | pend

namespace Mapped
variable {V E : Type}

/-- `pending()` (mapped_type.ii:88-91, 335-338). -/
def isPending : Mapped V E → Bool
  | .pending _ => true
  | _ => false

/-- The variant holds nothing (`valueless_by_exception`, after a failed mapped_type.ii:36). -/
def isVoid : Mapped V E → Bool
  | .void => true
  | _ => false

/-- `holds_error()` (mapped_type.ii:111-114, 358-361). -/
def holdsError : Mapped V E → Bool
  | .error _ => true
  | _ => false

/-- `expired()` (mapped_type.ii:76-86, 320-333). -/
def expired (env : Env V) : Mapped V E → Bool
  | .pending p => p.expired
  | .value _ => false
  | .weak v => !env.alive v
  | .gone => true
  | .error _ => false
  | .void => false

/-- `holds_value()` (mapped_type.ii:116-119, 363-373). -/
def holdsValue (env : Env V) : Mapped V E → Bool
  | .value _ => true
  | .weak v => env.alive v
  | _ => false

/-- `get(include_pending)` (mapped_type.ii:135-163, 395-431). -/
def get (env : Env V) (inclPending : Bool) : Mapped V E → Look V E
  | .pending _ => if inclPending then .pend else .none
  | .value v => .val v
  | .weak v => if env.alive v then .val v else .none
  | .gone => .none
  | .error e => .err e
  | .void => .none

/-- `mark_expired()` (mapped_type.ii:99-109, 346-356; pending.ii:72-75). -/
def markExpired : Mapped V E → Mapped V E
  | .pending p => .pending { p with expired := true }
  | _ => .gone

/-- `weaken()`: `mapped_value` (mapped_type.ii:50-62) and, when `ptr`,
`mapped_pointer` (mapped_type.ii:265-292); pending.ii:54-57. -/
def weaken (ptr : Bool) : Mapped V E → Mapped V E
  | .pending p => .pending { p with weakened := true }
  | .value v => if ptr then .weak v else .gone
  | .weak v => .weak v
  | .gone => .gone
  | .error _ => .gone
  | .void => .gone

/-- `strengthen()` (mapped_type.ii:64-74, 294-318; pending.ii:59-64). -/
def strengthen (env : Env V) : Mapped V E → Mapped V E
  | .pending p => if p.expired then .pending p else .pending { p with weakened := false }
  | .weak v => if env.alive v then .value v else .weak v
  | m => m

/-- `cancel()` (mapped_type.ii:93-97, 340-344; pending.ii:66-70): drops all
callbacks and marks the lookup expired. -/
def cancel : Mapped V E → Mapped V E
  | .pending p => .pending { p with cbs := [], expired := true }
  | m => m

/-- State of the variant after `assign(v)` on a pending lookup whose flags are
in `p` (mapped_type.ii:32-38, 221-244). -/
def assigned (ptr : Bool) (p : Pend) (v : V) : Mapped V E :=
  if p.expired then .gone
  else if p.weakened then (if ptr then .weak v else .gone)
  else .value v

/-- State after `assign_error(e)` on a pending lookup (mapped_type.ii:40-48,
246-263). -/
def assignedError (p : Pend) (e : E) : Mapped V E :=
  if p.expired || p.weakened then .gone else .error e

/-- The callbacks of a pending lookup.  `cbq_` (pending.h:38). -/
def cbs : Mapped V E → List Cb
  | .pending p => p.cbs
  | _ => []

/-- `add_callback` (pending.ii:15-18). -/
def addCb (cb : Cb) : Mapped V E → Mapped V E
  | .pending p => .pending { p with cbs := p.cbs ++ [cb] }
  | m => m

end Mapped
end Hoard
