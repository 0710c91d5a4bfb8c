/-!
# Model: operations of several threads on one table

Every operation of the cache takes the lock of the table first and holds it until
it returns (`std::lock_guard` in cache.h:39, 51, 58, 65, 72, 79, 86,
detail/cache_get.h:30, resolver_policy.ii:106, 132, asio/resolver_policy.h:122; the refresh worker:
refresh_policy.ii:100-123; asio timers: asio/refresh_policy.ii:62-64, 141-143).  The lock is a
recursive mutex (thread_safe_policy.h:28-32, thread_safe_policy.ii:10-20), or nothing at
all (thread_unsafe_policy.h:16-27).

What an operation does is a program: a tree of single accesses to the table, with
arbitrary many steps of other threads in between.  How an operation is cut into such
accesses is left open; the theorems hold for every way of doing it.

Simplified: accesses to memory are interleaved (a program without data races is
guaranteed this by C++); operations read the clock when they got the lock, once.
-/
namespace Hoard.Threads

/-- What an operation still has to do.  The shape of the calls of cache.h:35-89: lock, use the
table, unlock. -/
inductive Prog (S R : Type) where
  /-- return to the caller -/
  | ret (r : R)
  /-- a single access to the table; what follows may depend on what was read -/
  | act (upd : S → S) (next : S → Prog S R)
  /-- take the lock (again) -/
  | lock (p : Prog S R)
  /-- release it (once) -/
  | unlock (p : Prog S R)

/-- What a thread is doing.  Inside or outside of a call of cache.h:35-89. -/
inductive Th (S O R : Type) where
  /-- not in the cache -/
  | idle
  /-- called an operation and waits for the lock -/
  | waiting (o : O)
  /-- inside the operation -/
  | running (p : Prog S R)

/-- Table, clock, mutex (owner and how often it locked), threads.  `mtx_` (thread_safe_policy.h:29).
-/
structure G (S Env O R : Type) where
  s : S
  env : Env
  owner : Option (Nat × Nat)
  th : Nat → Th S O R

/-- What the scheduler may choose.  Any call of cache.h:35-89 at any time. -/
inductive Choice (Env O : Type) where
  /-- time passes -/
  | tick (e : Env)
  /-- thread `t` calls an operation -/
  | call (t : Nat) (o : O)
  /-- thread `t` takes a step -/
  | go (t : Nat)

/-- What can be seen from outside.  The beginning and the return of calls of cache.h:35-89. -/
inductive Vis (O R : Type) where
  | call (t : Nat) (o : O)
  | ret (t : Nat) (r : R)

variable {S Env O R : Type}

/-- Update at one place.  Of the model only: one thread moves, the others stay (their stacks are
separate), thread_safe_policy.h:29. -/
def set (f : Nat → α) (t : Nat) (x : α) : Nat → α := fun u => if u = t then x else f u

/-- `recursive_mutex::lock` (thread_safe_policy.ii:10-12): `none` if another thread has it. -/
def takeLock (t : Nat) : Option (Nat × Nat) → Option (Option (Nat × Nat))
  | none => some (some (t, 1))
  | some (u, n) => if u = t then some (some (t, n + 1)) else none

/-- `recursive_mutex::unlock` (thread_safe_policy.ii:18-20): `none` if the thread does not have it. -/
def releaseLock (t : Nat) : Option (Nat × Nat) → Option (Option (Nat × Nat))
  | none => none
  | some (u, n) => if u = t then (if n ≤ 1 then some none else some (some (t, n - 1))) else none

/-- One step, with what can be seen of it; `none`: the choice is not possible (the thread
is blocked or has nothing to do).  `body env o` is the operation after taking the lock.
thread_safe_policy.ii:10-20, cache.h:39, 51, 58, 65, 72, 79, 86. -/
def step (body : Env → O → Prog S R) (g : G S Env O R) : Choice Env O → Option (G S Env O R × Option (Vis O R))
  | .tick e => some ({ g with env := e }, none)
  | .call t o => match g.th t with
    | .idle => some ({ g with th := set g.th t (.waiting o) }, some (.call t o))
    | _ => none
  | .go t => match g.th t with
    | .idle => none
    | .waiting o => match takeLock t g.owner with
      | some w => some ({ g with owner := w, th := set g.th t (.running (body g.env o)) }, none)
      | none => none
    | .running (.ret r) => some ({ g with th := set g.th t .idle }, some (.ret t r))
    | .running (.act upd next) => some ({ g with s := upd g.s, th := set g.th t (.running (next g.s)) }, none)
    | .running (.lock p) => match takeLock t g.owner with
      | some w => some ({ g with owner := w, th := set g.th t (.running p) }, none)
      | none => none
    | .running (.unlock p) => match releaseLock t g.owner with
      | some w => some ({ g with owner := w, th := set g.th t (.running p) }, none)
      | none => none

/-- A schedule, with what can be seen of it.  Any interleaving of calls of cache.h:35-89. -/
def exec (body : Env → O → Prog S R) : G S Env O R → List (Choice Env O) → Option (G S Env O R × List (Vis O R))
  | g, [] => some (g, [])
  | g, c :: cs => match step body g c with
    | none => none
    | some (g', v) => match exec body g' cs with
      | none => none
      | some (g'', vs) => some (g'', v.toList ++ vs)

/-- All threads outside.  Before any call of cache.h:35-89. -/
def start (s : S) (e : Env) : G S Env O R := { s := s, env := e, owner := none, th := fun _ => .idle }

/-- A program that holds the lock `n` times: it touches the table only while it holds
the lock, releases it as often as it took it, and returns after the last release.  What
`std::lock_guard` ensures (cache.h:39, 51, 58, 65, 72, 79, 86). -/
inductive Closed : Nat → Prog S R → Prop where
  | ret (r : R) : Closed 0 (.ret r)
  | act {n : Nat} {upd : S → S} {next : S → Prog S R} (h : ∀ s, Closed (n + 1) (next s)) : Closed (n + 1) (.act upd next)
  | lock {n : Nat} {p : Prog S R} (h : Closed (n + 2) p) : Closed (n + 1) (.lock p)
  | unlock {n : Nat} {p : Prog S R} (h : Closed n p) : Closed (n + 1) (.unlock p)

/-- The program run from start to end without anybody else.  A call of cache.h:35-89. -/
def Prog.run : Prog S R → S → S × R
  | .ret r, s => (s, r)
  | .act upd next, s => (next s).run (upd s)
  | .lock p, s => p.run s
  | .unlock p, s => p.run s

/-- An operation without lock (`thread_unsafe_policy`): taking and releasing it does nothing.
thread_unsafe_policy.h:20-26. -/
def Prog.unlocked : Prog S R → Prog S R
  | .ret r => .ret r
  | .act upd next => .act upd (fun s => (next s).unlocked)
  | .lock p => p.unlocked
  | .unlock p => p.unlocked

/-- One step without locks: as `step`, but entering needs no lock (thread_unsafe_policy.h:20-27). -/
def stepUnsafe (body : Env → O → Prog S R) (g : G S Env O R) : Choice Env O → Option (G S Env O R × Option (Vis O R))
  | .go t => match g.th t with
    | .waiting o => some ({ g with th := set g.th t (.running (body g.env o).unlocked) }, none)
    | _ => step body g (.go t)
  | c => step body g c

/-- A schedule without locks.  thread_unsafe_policy.h:20-26. -/
def execUnsafe (body : Env → O → Prog S R) : G S Env O R → List (Choice Env O) → Option (G S Env O R × List (Vis O R))
  | g, [] => some (g, [])
  | g, c :: cs => match stepUnsafe body g c with
    | none => none
    | some (g', v) => match execUnsafe body g' cs with
      | none => none
      | some (g'', vs) => some (g'', v.toList ++ vs)

end Hoard.Threads
