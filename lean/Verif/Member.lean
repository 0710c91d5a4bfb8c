import Verif.Mapped
/-!
# Member pointers

Models `mapped_pointer` (`/repo/include/libhoard/detail/mapped_type.ii:165-444`)
of a cache whose `pointer_policy` names a member pointer type and a functor
(`/repo/include/libhoard/pointer_policy.h:100-176`): what the entry stores is not
the pointer it is given but a member pointer, made from the results of the functor
(`wrap`); what it hands out is a pointer made from the member pointer (`back`).
`Verif.Mapped` models the same class without this, that is, for a member pointer
type that is the pointer type.

Simplifications: the functor and the conversions are functions of the pointer; the
copies of the functor, one in the table and one in each entry
(pointer_policy.h:139, 146, 159), are the same function; they do not throw.
-/
namespace Hoard.Member
variable {V M E : Type}

/-- The type parameters of `pointer_policy` as functions: the functor together with the constructor
of the member pointer (pointer_policy.h:163-171, mapped_type.ii:212-217, 227-230, 301-305), and the
conversion of the member pointer to the pointer (pointer_policy.h:31-33). -/
structure Conv (V M : Type) where
  wrap : V → M
  back : M → V

/-- The variant `value_` (mapped_type.h:76-79): a member pointer while strong, a weak pointer, made
from the pointer, while weak.  `gone` stands for the empty weak pointer and `expired_t`. -/
inductive Held (V M E : Type) where
  | pending (p : Pend)
  | member (m : M)
  | weak (v : V)
  | gone
  | error (e : E)

namespace Held

/-- The constructor with the arguments of a value (mapped_type.ii:205-218). -/
def ofValue (c : Conv V M) (v : V) : Held V M E := .member (c.wrap v)

/-- `pending()` (mapped_type.ii:335-338). -/
def isPending : Held V M E → Bool
  | .pending _ => true
  | _ => false

/-- `holds_error()` (mapped_type.ii:358-361). -/
def holdsError : Held V M E → Bool
  | .error _ => true
  | _ => false

/-- `expired()` (mapped_type.ii:320-333). -/
def expired (env : Env V) : Held V M E → Bool
  | .pending p => p.expired
  | .weak v => !env.alive v
  | .gone => true
  | _ => false

/-- `holds_value()` (mapped_type.ii:363-373). -/
def holdsValue (env : Env V) : Held V M E → Bool
  | .member _ => true
  | .weak v => env.alive v
  | _ => false

/-- `get(include_pending)` (mapped_type.ii:395-431): the pointer is made from the member pointer. -/
def get (c : Conv V M) (env : Env V) (incl : Bool) : Held V M E → Look V E
  | .pending _ => if incl then .pend else .none
  | .member m => .val (c.back m)
  | .weak v => if env.alive v then .val v else .none
  | .gone => .none
  | .error e => .err e

/-- `mark_expired()` (mapped_type.ii:346-356). -/
def markExpired : Held V M E → Held V M E
  | .pending p => .pending { p with expired := true }
  | _ => .gone

/-- `weaken()` (mapped_type.ii:265-292): the weak pointer is made from the pointer made from the
member pointer. -/
def weaken (c : Conv V M) : Held V M E → Held V M E
  | .pending p => .pending { p with weakened := true }
  | .member m => .weak (c.back m)
  | .weak v => .weak v
  | _ => .gone

/-- `strengthen()` (mapped_type.ii:294-318): the functor is applied to the locked pointer. -/
def strengthen (c : Conv V M) (env : Env V) : Held V M E → Held V M E
  | .pending p => if p.expired then .pending p else .pending { p with weakened := false }
  | .weak v => if env.alive v then .member (c.wrap v) else .weak v
  | h => h

/-- `cancel()` (mapped_type.ii:340-344). -/
def cancel : Held V M E → Held V M E
  | .pending p => .pending { p with cbs := [], expired := true }
  | h => h

/-- `add_callback` (pending.ii:15-18). -/
def addCb (cb : Cb) : Held V M E → Held V M E
  | .pending p => .pending { p with cbs := p.cbs ++ [cb] }
  | h => h

/-- The waiters of a pending lookup (pending.h:38). -/
def cbs : Held V M E → List Cb
  | .pending p => p.cbs
  | _ => []

/-- `assign` on a pending lookup (mapped_type.ii:220-244): the variant afterwards, and the pointer
the waiters are given.  `std::get` throws if the entry is not a pending lookup: no result. -/
def assign (c : Conv V M) (v : V) : Held V M E → Option (Held V M E × V)
  | .pending p => some (
      if p.expired then .gone
      else if p.weakened then .weak (c.back (c.wrap v))
      else .member (c.wrap v), c.back (c.wrap v))
  | _ => none

/-- `assign_error` on a pending lookup (mapped_type.ii:246-263). -/
def assignError (e : E) : Held V M E → Option (Held V M E)
  | .pending p => some (if p.expired || p.weakened then .gone else .error e)
  | _ => none

end Held

/-- The member functions that change an entry, in the order in which they are called
(value_type.ii:127-175). -/
inductive Act (V E : Type) where
  | markExpired
  | weaken
  | strengthen
  | cancel
  | addCb (cb : Cb)
  | assign (v : V)
  | assignError (e : E)

/-- One call.  The second component is what the waiters are told, with the waiters; no result if the
call throws.  mapped_type.ii:220-356. -/
def act (c : Conv V M) (env : Env V) (h : Held V M E) : Act V E → Option (Held V M E × List (Cb × Res V E))
  | .markExpired => some (h.markExpired, [])
  | .weaken => some (h.weaken c, [])
  | .strengthen => some (h.strengthen c env, [])
  | .cancel => some (h.cancel, [])
  | .addCb cb => some (h.addCb cb, [])
  | .assign v => (h.assign c v).map (fun p => (p.1, h.cbs.map (fun cb => (cb, .ok p.2))))
  | .assignError e => (h.assignError e).map (fun h' => (h', h.cbs.map (fun cb => (cb, .err e))))

/-- Several calls, with what is told to waiters in total.  mapped_type.ii:220-356. -/
def acts (c : Conv V M) (h : Held V M E) : List (Env V × Act V E) → Option (Held V M E × List (Cb × Res V E))
  | [] => some (h, [])
  | (env, a) :: as =>
    match act c env h a with
    | none => none
    | some (h1, l1) => (acts c h1 as).map (fun p => (p.1, l1 ++ p.2))

end Hoard.Member
