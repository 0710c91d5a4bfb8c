import Verif.Cache
/-!
# Model: completion handlers that use the cache

`async_get` of a cache with `asio_resolver_policy` (asio/resolver_policy.h:117-150) takes a completion handler.
If the value is there, the handler is posted to its executor and runs later (line 142).  If a lookup is in flight, the handler is
registered, and when the lookup completes it is dispatched (line 144): when the completing thread belongs to the
executor, the handler runs right there, inside `assign` or `assign_error`, with the lock of the table held.  The lock is a
`std::recursive_mutex` (thread_safe_policy.h:29), so the handler may use the cache.

`Verif.Cache` completes a lookup in one step.  Here a completion is a number of steps: it begins, the
callbacks are invoked one by one, it finishes.  After each callback, anything can be done with the
cache by the handler that runs, including further completions.

What happens in between matters because of the order in which things are done (mapped_type.ii:32-48, 221-263;
async_resolver_callback.h:29-60):
* a success first moves the `pending` object out of the entry and puts the value in, then runs the callbacks, which get a
  reference to the value in the entry (`mapped_value`) or a copy of the pointer (`mapped_pointer`), and then
  drops the value again if the lookup had been invalidated, and tells the policies (`on_assign_`);
* a failure runs the callbacks while the `pending` object with the list of callbacks is still in the entry, and then puts the error in.

Simplified: a handler that is not run right there is a handler that does nothing here; what it does
later are operations like any other.  The callback object given to the resolver is not used again
while one of its own completions is going on (`Ev.ok`).
-/
namespace Hoard.Handlers
variable {K V E : Type}

/-- A completion that is going on.  The local variables of `assign`, `assign_error` and the loop
over the callbacks (async_resolver_callback.h:29-60, mapped_type.ii:32-48, pending.ii:20-42). -/
structure Frame (V E : Type) where
  /-- the lookup -/
  tok : Nat
  /-- what it is completed with -/
  r : Res V E
  /-- callbacks invoked (not part of the program) -/
  ran : List Cb := []
  /-- callbacks still to be invoked -/
  todo : List Cb
  /-- the flags of the `pending` object that was moved out of the entry (success only) -/
  expired : Bool := false
  weakened : Bool := false

/-- The cache, and the completions going on, innermost first.  The stack of calls of
async_resolver_callback.h:29-60. -/
structure HSt (K V E : Type) where
  s : St K V E := {}
  frames : List (Frame V E) := []

/-- What happens, in the order in which it happens.  Calls of cache.h:35-89 and the rest of `Op`,
with those of async_resolver_callback.h:29-60 as several steps. -/
inductive Ev (K V E : Type) where
  /-- an operation, by the running handler, or from outside if none runs -/
  | op (o : Op K V E)
  /-- `assign` or `assign_error` of the callback object of lookup `tok` is called -/
  | begin (tok : Nat) (r : Res V E)
  /-- the innermost completion invokes its next callback -/
  | next
  /-- the innermost completion comes to its end -/
  | finish

/-- What is seen of it.  What is returned or invoked by async_resolver_callback.h:29-60,
pending.ii:27, 39. -/
inductive Ans (K V E : Type) where
  /-- result of an operation, or of a completion that does nothing -/
  | out (o : Out K V E)
  | begun
  /-- the handler `w` is invoked with the result `r` -/
  | ran (w : Nat) (r : Res V E)
  /-- the callback of a refresh is invoked -/
  | internal
  | finished

/-- What becomes of it.  Undefined behaviour and `std::terminate` can happen in
mapped_type.ii:32-48, 221-263 and pending.ii:27, 39. -/
inductive Outcome (K V E : Type) where
  | ok (n : HSt K V E) (a : Ans K V E)
  /-- undefined behaviour -/
  | ub
  /-- an exception escapes from a function declared `noexcept`: the program is terminated -/
  | crash

/-- The result is an error.  `assign_error` instead of `assign` (async_resolver_callback.h:46). -/
def failed : Res V E → Bool
  | .ok _ => false
  | .err _ => true

/-- The lookups whose failure is being delivered.  Inside pending.ii:39. -/
def failing (n : HSt K V E) : List Nat := (n.frames.filter (fun f => failed f.r)).map (·.tok)

/-- The lookups whose success is being delivered.  Inside pending.ii:27. -/
def delivering (n : HSt K V E) : List Nat := (n.frames.filter (fun f => !failed f.r)).map (·.tok)

/-- `async_get` (hashtable.ii:597-642) would register its callback with a lookup whose callbacks are being run: `push_back` on a vector
(pending.ii:15-18) that a range-for is iterating over (pending.ii:33-42). -/
def joinsFailing (cfg : Cfg K) (env : Env V) (n : HSt K V E) : Op K V E → Bool
  | .asyncGet k _ _ =>
    match (getWalk cfg env k true (n.s.bucket (n.s.bucketFor (cfg.hash k)))).hit with
    | some (id, .pend) => (failing n).contains id
    | _ => false
  | _ => false

/-- The entry of lookup `tok` holds a value.  Alternative 1 of the variant (mapped_type.h:29, 78).
-/
def holdsStrong (s : St K V E) (tok : Nat) : Bool :=
  match s.findAny tok with
  | some e => match e.mapped with
    | .value _ => true
    | _ => false
  | none => false

/-- The start of `assign` and `assign_error` (async_resolver_callback.h:29-60 up to the calls of `resolve_success` (mapped_type.ii:35-36,
224-230) and `resolve_failure` (mapped_type.ii:42-43, 248-249)). -/
def begin_ (cfg : Cfg K) (env : Env V) (n : HSt K V E) (tok : Nat) (r : Res V E) : Outcome K V E :=
  if tok ∈ n.s.opens ∧ n.s.destroyed = false then
    match n.s.findAny tok with
    | none => .crash
    | some e =>
      match e.mapped with
      | .pending p =>
        match r with
        | .ok v => .ok {
            s := n.s.modify tok (·.upd (fun _ => .value v))
            frames := { tok := tok, r := r, todo := p.cbs, expired := p.expired, weakened := p.weakened } :: n.frames } .begun
        | .err _ => .ok { n with frames := { tok := tok, r := r, todo := p.cbs } :: n.frames } .begun
      -- `std::get<pending_type>` throws
      | _ => .crash
  else .ok { n with s := (complete cfg env n.s tok r).1 } (.out (complete cfg env n.s tok r).2)

/-- One iteration of the loops of `resolve_success` and `resolve_failure` (pending.ii:20-42).  A waiter of the user copies the value
through the reference it gets (asio/resolver_policy.h:131): undefined if the value is no longer there.
The callback of a refresh (refresh_impl_policy.ii:70-75) does not look at it. -/
def next_ (cfg : Cfg K) (n : HSt K V E) : Outcome K V E :=
  match n.frames with
  | [] => .ok n .finished
  | f :: fs =>
    match f.todo with
    | [] => .ok n .finished
    | .user w :: cbs =>
      if !failed f.r && !cfg.ptr && !holdsStrong n.s f.tok then .ub
      else .ok { n with frames := { f with ran := f.ran ++ [.user w], todo := cbs } :: fs } (.ran w f.r)
    | .refresh old :: cbs =>
      .ok { s := runCb n.s f.tok (.refresh old), frames := { f with ran := f.ran ++ [.refresh old], todo := cbs } :: fs } .internal

/-- What remains of the value of a successful lookup with these flags (mapped_type.ii:37, 232-243). -/
def settled (cfg : Cfg K) (f : Frame V E) (m : Mapped V E) : Mapped V E :=
  if f.expired then .gone
  else if f.weakened then (if cfg.ptr then .weaken true m else .gone)
  else m

/-- The end of `assign` and `assign_error` (mapped_type.ii:37, 44-47, 232-243, 250-262; async_resolver_callback.h:36-38, 51-53). -/
def finish_ (cfg : Cfg K) (env : Env V) (n : HSt K V E) : Outcome K V E :=
  match n.frames with
  | [] => .ok n .finished
  | f :: fs =>
    -- `std::get<1>` throws (mapped_type.ii:241)
    if !failed f.r && !f.expired && f.weakened && cfg.ptr && !holdsStrong n.s f.tok then .crash else
    let s1 := if failed f.r then n.s.modify f.tok (·.upd (completed cfg f.r)) else n.s.modify f.tok (·.upd (settled cfg f))
    let s2 := onAssign cfg env s1 f.tok (!failed f.r)
    .ok { s := { s2 with opens := s2.opens.erase f.tok }, frames := fs } .finished

/-- One step.  Dispatch only; see the functions it calls for async_resolver_callback.h:29-60. -/
def next (cfg : Cfg K) (env : Env V) (n : HSt K V E) : Ev K V E → Outcome K V E
  | .op o => if joinsFailing cfg env n o then .ub else .ok { n with s := (step cfg env n.s o).1 } (.out (step cfg env n.s o).2)
  | .begin tok r => begin_ cfg env n tok r
  | .next => next_ cfg n
  | .finish => finish_ cfg env n

/-- Steps that can happen: the operations that make sense for the cache (`Op.ok`), completions only in several steps; the callback
object of a lookup is not used while it is being completed; the refresh worker and the destructor only while nothing is being completed
(the worker needs the lock; `assign` keeps the table alive, async_resolver_callback.h:33); a callback is
invoked if there is one, and a completion ends if there is none left. -/
def Ev.ok (cfg : Cfg K) (n : HSt K V E) : Ev K V E → Prop
  | .op o => o.ok cfg n.s ∧ (∀ t r, o ≠ .complete t r) ∧ (∀ f ∈ n.frames, o ≠ .drop f.tok) ∧ ((∃ r b, o = .tick r b) ∨ o = .destroy → n.frames = [])
  | .begin tok _ => ∀ f ∈ n.frames, f.tok ≠ tok
  | .next => ∃ f fs, n.frames = f :: fs ∧ f.todo ≠ []
  | .finish => ∃ f fs, n.frames = f :: fs ∧ f.todo = []

/-- A history with handlers.  Everything in the order in which it happens under the recursive lock
(thread_safe_policy.h:29). -/
abbrev HHist (K V E : Type) := List (Env V × Ev K V E)

/-- Carry it out; no result if the program does something undefined or is terminated.  One step
after the other (thread_safe_policy.h:29: the lock is recursive). -/
def runH (cfg : Cfg K) : HSt K V E → HHist K V E → Option (HSt K V E × List (Ans K V E))
  | n, [] => some (n, [])
  | n, (env, e) :: h => match next cfg env n e with
    | .ok n1 a => match runH cfg n1 h with
      | some (n2, as) => some (n2, a :: as)
      | none => none
    | _ => none

/-- All steps are possible when they happen.  The conditions of `Op.ok` (detail/cache_get.h:55-59)
throughout. -/
def HOk (cfg : Cfg K) : HSt K V E → HHist K V E → Prop
  | _, [] => True
  | n, (env, e) :: h => e.ok cfg n ∧ ∀ n1 a, next cfg env n e = .ok n1 a → HOk cfg n1 h

end Hoard.Handlers
