import Verif.Machine
/-!
# Model: resolvers that use the cache

A synchronous resolver runs inside `get`, while the calling thread holds the lock of the table.  The
lock is a `std::recursive_mutex` (thread_safe_policy.h:29), so the resolver may use the cache itself, for instance to
compute `f(n)` from `get(n - 1)`.  `Verif.Cache` performs `get` in one step and so leaves this out.

Here a `get` that misses is two steps: the search, after which the resolver starts, and the linking
of what the resolver returned.  Between them anything can be done with the cache, including further
calls of `get`.  The keys whose resolvers are running are on a stack.

What `hashtable::get` and `resolve` remember while the resolver runs (hashtable.ii:567-595,
resolver_policy.ii:31-53) are the key, its hash, and the new entry, which is not yet linked: no
iterator and no pointer into the table.

Simplified: the new entry gets its number when it is linked (`Verif.Cache` numbers entries in the order
of allocation; here it is the order of linking).  With a resolver declared `noexcept` the code calls
it before allocating, which makes no difference here.  A refresh (`tick`) whose resolver uses the cache is not modelled: `tick` is
one step, and only happens while no resolver runs, because the worker needs the lock.
-/
namespace Hoard.Nested
variable {K V E : Type}

/-- What happens, in the order in which it happens.  Calls of cache.h:35-89 and the rest of `Op`,
with `get` split at resolver_policy.ii:38, 46. -/
inductive Ev (K V E : Type) where
  /-- an operation other than `get`, by the running resolver, or from outside when none runs -/
  | op (o : Op K V E)
  /-- a call of `get`, by the running resolver, or from outside -/
  | get (k : K)
  /-- the running resolver (the one started last) returns a value or throws -/
  | ret (r : Res V E)

/-- The cache, and the keys whose resolvers are running, innermost first.  The stack of calls of
hashtable.ii:567-595. -/
structure NSt (K V E : Type) where
  s : St K V E := {}
  stack : List K := []

/-- What the caller sees.  resolver_policy.ii:107-119. -/
inductive Ans (K V E : Type) where
  /-- the result of an operation, or of a `get` -/
  | out (o : Out K V E)
  /-- the resolver is called for this key; the `get` has no result yet -/
  | called (k : K)

/-- One step.  `get`: hashtable.ii:567-592, and resolver_policy.ii:31-41 up to the call of the resolver.  `ret`:
resolver_policy.ii:42-53, hashtable.ii:592-595, resolver_policy.ii:101-120. -/
def next (cfg : Cfg K) (env : Env V) (n : NSt K V E) : Ev K V E → NSt K V E × Ans K V E
  | .op o => ({ n with s := (step cfg env n.s o).1 }, .out (step cfg env n.s o).2)
  | .get k =>
    match get_ cfg env n.s k false with
    | (s1, .none) => ({ s := s1, stack := k :: n.stack }, .called k)
    | (s1, l) => ({ n with s := s1 }, .out { ret := syncRet l })
  | .ret r =>
    match n.stack with
    | [] => (n, .out {})
    | k :: st =>
      ({ s := (resolveSync cfg env n.s k r).1, stack := st }, .out { ret := syncRet ((syncMapped r).get env false) })

/-- Steps that can happen: the operations that make sense for the cache (`Op.ok`), `get` as two steps only, the worker and the destructor only
while no resolver runs.  The lock is recursive, so calls from a resolver go on
(thread_safe_policy.h:29). -/
def Ev.ok (cfg : Cfg K) (n : NSt K V E) : Ev K V E → Prop
  | .op o => o.ok cfg n.s ∧ (∀ k r, o ≠ .get k r) ∧ ((∃ r b, o = .tick r b) ∨ o = .destroy → n.stack = [])
  | .get _ => cfg.resolver = .sync ∧ n.s.destroyed = false
  | .ret _ => n.stack ≠ []

/-- A history of nested calls.  Everything in the order in which it happens under the recursive lock
(thread_safe_policy.h:29). -/
abbrev NHist (K V E : Type) := List (Env V × Ev K V E)

/-- Carry it out.  One step after the other (thread_safe_policy.h:29: the lock is recursive). -/
def runN (cfg : Cfg K) : NSt K V E → NHist K V E → NSt K V E × List (Ans K V E)
  | n, [] => (n, [])
  | n, (env, e) :: h =>
    let r := next cfg env n e
    let r2 := runN cfg r.1 h
    (r2.1, r.2 :: r2.2)

/-- All steps are possible when they happen.  The conditions of `Op.ok` (detail/cache_get.h:55-59)
throughout. -/
def NOk (cfg : Cfg K) : NSt K V E → NHist K V E → Prop
  | _, [] => True
  | n, (env, e) :: h => e.ok cfg n ∧ NOk cfg (next cfg env n e).1 h

/-! ## With pointers -/

/-- The same for the pointer-level cache of `Verif.Machine`; no result where the code would do something
undefined.  hashtable.ii:567-595, resolver_policy.ii:31-53. -/
def pnext (cfg : Cfg K) (env : Env V) (p : PSt K V E) (stack : List K) : Ev K V E → Option (PSt K V E × List K × Ans K V E)
  | .op o => do
    let r ← p.step cfg env o
    some (r.1, stack, .out r.2)
  | .get k => do
    let r ← p.get_ cfg env k false
    match r.2 with
    | none => some (r.1, k :: stack, .called k)
    | some (_, l) => some (r.1, stack, .out { ret := syncRet l })
  | .ret r =>
    match stack with
    | [] => some (p, [], .out {})
    | k :: st => do
      let r2 ← p.resolveSync cfg env k r
      let e ← r2.1.rd r2.2
      let p3 ← r2.1.dec r2.2
      some (p3, st, .out { ret := syncRet (e.mapped.get env false) })

/-- Carry out a history on the pointer-level cache.  One step after the other
(thread_safe_policy.h:29: the lock is recursive). -/
def prunN (cfg : Cfg K) : PSt K V E → List K → NHist K V E → Option (PSt K V E × List K × List (Ans K V E))
  | p, st, [] => some (p, st, [])
  | p, st, (env, e) :: h => do
    let r ← pnext cfg env p st e
    let r2 ← prunN cfg r.1 r.2.1 h
    some (r2.1, r2.2.1, r.2.2 :: r2.2.2)

end Hoard.Nested
