import Verif.Threads
/-!
# Model: several threads deliver on the same completion handle

detail/async_resolver_callback.h: the flag `called` is read before the lock of the
table is taken (lines 31, 47, 63) and written while it is held (37, 53) or after it
was released (71).

Simplified: the cache still exists; the flag, a plain `bool`, is read and written
as if it were atomic (two threads doing this at the same time is a data race in C++);
memory is interleaved.
-/
namespace Hoard.Race
open Threads (set)

/-- What a thread delivers: `assign`, `assign_error` or `cancel`.  async_resolver_callback.h:30, 46,
62. -/
inductive Kind where
  | assign | error | cancel
deriving DecidableEq, Repr

/-- What became of a delivery: it returned, or `std::get` of the wrong alternative threw
(which ends the program if it happens inside `noexcept`, as in `assign_error`).
async_resolver_callback.h:31-43, 47-59, 63-72; `std::get` in mapped_type.ii:35, 42. -/
inductive Result where
  | returned (b : Bool)
  | threw
deriving DecidableEq, Repr

/-- Where a thread is. -/
inductive Pc where
  /-- not begun -/
  | start
  /-- read `called == false`, waits for the lock (async_resolver_callback.h:33, 49, 65) -/
  | checked
  /-- has the lock -/
  | locked
  /-- delivered, has the lock -/
  | applied
  /-- `called` set, has the lock -/
  | flagged
  /-- `cancel`: lock released, `called` not yet set -/
  | released
  | done (r : Result)
deriving DecidableEq, Repr

/-- The looked up entry: waiting for its value, cancelled (nobody waits any more), or filled.
mapped_type.h:29; cancelled is `expired_` of pending.h:39 without callbacks. -/
inductive Cell where
  | pending | cancelled | filled
deriving DecidableEq, Repr

/-- The handle, the entry, the lock, the threads; `answered`: the threads whose delivery reached the
waiters.  async_resolver_callback.h:76-78, mapped_type.h:29, thread_safe_policy.h:29. -/
structure St where
  called : Bool := false
  cell : Cell := .pending
  owner : Option Nat := none
  answered : List Nat := []
  pc : Nat → Pc := fun _ => .start

/-- One step of thread `t`, which delivers `kind t`; `none` if it is blocked or has finished. -/
def step (kind : Nat → Kind) (s : St) (t : Nat) : Option St :=
  match s.pc t with
  | .start =>
    -- lines 31, 47, 63: `if (called) return false;`
    some { s with pc := set s.pc t (if s.called then .done (.returned false) else .checked) }
  | .checked =>
    -- lines 34, 50, 66: `std::lock_guard`
    match s.owner with
    | none => some { s with owner := some t, pc := set s.pc t .locked }
    | some _ => none
  | .locked =>
    match kind t with
    | .assign | .error =>
      -- lines 35-36, 51-52 with mapped_type.ii:33-48: `std::get<pending_type>` throws unless the entry is pending
      match s.cell with
      | .pending => some { s with cell := .filled, answered := s.answered ++ [t], pc := set s.pc t .applied }
      | .cancelled => some { s with cell := .filled, pc := set s.pc t .applied }
      | .filled => some { s with owner := none, pc := set s.pc t (.done .threw) }
    | .cancel =>
      -- line 67 with mapped_type.ii:94-97: does nothing unless the entry is pending
      some { s with
        cell := (match s.cell with | .pending => .cancelled | c => c)
        owner := none, pc := set s.pc t .released }
  | .applied =>
    -- lines 37, 53: `called = true`
    some { s with called := true, pc := set s.pc t .flagged }
  | .flagged =>
    -- lines 38, 54: the lock is released on return
    some { s with owner := none, pc := set s.pc t (.done (.returned true)) }
  | .released =>
    -- lines 71-72
    some { s with called := true, pc := set s.pc t (.done (.returned true)) }
  | .done _ => none

/-- A schedule: which thread goes next.  Any interleaving of async_resolver_callback.h:29-73. -/
def exec (kind : Nat → Kind) : St → List Nat → Option St
  | s, [] => some s
  | s, t :: ts => match step kind s t with
    | none => none
    | some s' => exec kind s' ts

/-- Reachable by some schedule from an unanswered lookup.  From resolver_policy.ii:89-91 on. -/
def Reached (kind : Nat → Kind) (s : St) : Prop := ∃ ts, exec kind {} ts = some s

/-- Thread `t` delivers while nobody else does anything; at most five steps.  One of
async_resolver_callback.h:29-73 from start to end. -/
def alone (kind : Nat → Kind) : Nat → St → Nat → St
  | 0, s, _ => s
  | n + 1, s, t => match step kind s t with
    | none => s
    | some s' => alone kind n s' t

/-- Threads deliver one after the other.  Calls of async_resolver_callback.h:29-73 that do not
overlap. -/
def oneByOne (kind : Nat → Kind) : St → List Nat → St
  | s, [] => s
  | s, t :: ts => oneByOne kind (alone kind 5 s t) ts

end Hoard.Race
