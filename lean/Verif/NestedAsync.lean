import Verif.Cache
/-!
# Model: asynchronous resolvers that use the cache

The functor given to `async_resolver_policy` is called inside `async_get`, while the calling thread holds the lock of the table.  The
lock is a `std::recursive_mutex` (thread_safe_policy.h:29), so the functor may use the cache: ask for other
keys, or for its own, insert and erase, and complete or drop any lookup, including its own.  `Verif.Cache` performs `async_get` in one step, in which the functor can do no
more than complete or drop its own lookup.

Here an `async_get` that misses is two steps.  First the pending entry is linked and the functor starts; when the functor returns, the
callback of the caller is answered from the entry, or registered with it (hashtable.ii:597-642, resolver_policy.ii:80-93).  Between them
anything can be done with the cache, including further calls of `async_get`.  Lookups whose functors are running are on a stack.

What `async_get` remembers while the functor runs is the callback of the caller and a counted pointer to the new entry (`new_value_ptr`, hashtable.ii:600; `new_value`,
resolver_policy.ii:87), so the entry still exists when the functor returns, linked or not.

Simplified: a refresh (`tick`) whose functor uses the cache is not modelled: `tick` is one step, and only happens while no functor
runs, because the worker needs the lock.  Destroying the cache while one of its functors runs is undefined behaviour of the
program using the cache, and left out (`Ev.ok`).
-/
namespace Hoard.NestedAsync
variable {K V E : Type}

/-- What happens, in the order in which it happens.  Calls of cache.h:35-89 and the rest of `Op`,
with `async_get` split at resolver_policy.ii:91. -/
inductive Ev (K V E : Type) where
  /-- an operation other than `async_get`, by the running functor, or from outside when none runs -/
  | op (o : Op K V E)
  /-- a call of `async_get` for key `k` with callback `w`, by the running functor, or from outside -/
  | get (k : K) (w : Nat)
  /-- the running functor (the one started last) returns -/
  | ret
  /-- the running functor throws -/
  | throw

/-- The cache, and the lookups whose functors are running with the callbacks of those who asked,
innermost first.  The stack of calls of hashtable.ii:597-642. -/
structure NSt (K V E : Type) where
  s : St K V E := {}
  stack : List (Nat × Nat) := []

/-- What the caller sees.  resolver_policy.ii:123-148. -/
inductive Ans (K V E : Type) where
  /-- the result of an operation, or of an `async_get` -/
  | out (o : Out K V E)
  /-- the functor is called for this key, and given the handle of this lookup; `async_get` has not returned yet -/
  | called (k : K) (tok : Nat)

/-- What the new entry holds when the functor returns (`new_value_ptr->get`, hashtable.ii:613). -/
def lookAt (env : Env V) (s : St K V E) (tok : Nat) : Look V E :=
  match s.findAny tok with
  | some e => e.mapped.get env true
  | none => .none

/-- One step.  `get`: hashtable.ii:597-611, and resolver_policy.ii:80-90 up to the call of the functor.  `ret`: resolver_policy.ii:91-92,
hashtable.ii:613-641.  `throw`: `async_get` is left by the exception, and with it the callback of the caller is destroyed. -/
def next (cfg : Cfg K) (env : Env V) (n : NSt K V E) : Ev K V E → NSt K V E × Ans K V E
  | .op o => ({ n with s := (step cfg env n.s o).1 }, .out (step cfg env n.s o).2)
  | .get k w =>
    match (getWalk cfg env k true (n.s.bucket (n.s.bucketFor (cfg.hash k)))).hit with
    | some (id, l) =>
      let a := answer (get_ cfg env n.s k true).1 id w l
      ({ n with s := a.1 }, .out a.2)
    | none =>
      let r := resolveAsync cfg env (get_ cfg env n.s k true).1 k .later
      ({ s := r.1, stack := (r.2, w) :: n.stack }, .called k r.2)
  | .ret =>
    match n.stack with
    | [] => (n, .out {})
    | (tok, w) :: st =>
      let a := answer n.s tok w (lookAt env n.s tok)
      ({ s := a.1, stack := st }, .out a.2)
  | .throw =>
    match n.stack with
    | [] => (n, .out {})
    | (_, w) :: st => ({ n with stack := st }, .out { ret := .throws, broken := [w] })

/-- Steps that can happen: the operations that make sense for the cache (`Op.ok`), `async_get` as two steps only, the worker and the destructor only
while no functor runs.  The lock is recursive, so calls from a resolver go on
(thread_safe_policy.h:29). -/
def Ev.ok (cfg : Cfg K) (n : NSt K V E) : Ev K V E → Prop
  | .op o => o.ok cfg n.s ∧ (∀ k w b, o ≠ .asyncGet k w b) ∧ ((∃ r b, o = .tick r b) ∨ o = .destroy → n.stack = [])
  | .get _ _ => cfg.resolver = .async ∧ n.s.destroyed = false
  | .ret => n.stack ≠ []
  | .throw => n.stack ≠ []

/-- A history of nested calls.  Everything in the order in which it happens under the recursive lock
(thread_safe_policy.h:29). -/
abbrev NHist (K V E : Type) := List (Env V × Ev K V E)

/-- Carry it out.  One step after the other (thread_safe_policy.h:29: the lock is recursive). -/
def runN (cfg : Cfg K) : NSt K V E → NHist K V E → NSt K V E × List (Ans K V E)
  | n, [] => (n, [])
  | n, (env, e) :: h =>
    let r := next cfg env n e
    let r2 := runN cfg r.1 h
    (r2.1, r.2 :: r2.2)

/-- All steps are possible when they happen.  The conditions of `Op.ok` (detail/cache_get.h:55-59)
throughout. -/
def NOk (cfg : Cfg K) : NSt K V E → NHist K V E → Prop
  | _, [] => True
  | n, (env, e) :: h => e.ok cfg n ∧ NOk cfg (next cfg env n e).1 h

end Hoard.NestedAsync
