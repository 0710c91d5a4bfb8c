import Verif.Cache
/-!
# Model: the refresh worker as a thread

`refresh_policy` starts a thread for every cache (refresh_policy.ii:80-82).  The thread holds the
lock of the table except while it waits on a condition variable (refresh_policy.ii:98-123).  It
waits without limit while nothing is to be refreshed, otherwise until the first entry of the
delay queue is due.  Operations of other threads take the lock, so they happen only while the
worker waits.

The waits follow the C++ standard.  `wait(lock, pred)` is `while (!pred()) wait(lock)`, and
`wait_until(lock, t, pred)` is `while (!pred()) if (wait_until(lock, t) == timeout) return pred()`,
where `t` is a *reference*: here to the member `refresh_tp` of an entry (refresh_policy.ii:111).

The state of the table and all operations are those of `Verif.Cache`.

Simplified: an operation of another thread is one step (`Verif.Threads` justifies that); so is one
iteration of the worker's inner loop, which holds the lock throughout.  Freed memory: an entry that
is not linked is gone (nobody else holds an entry of the delay queue).  The destructor's clearing of the
table (hashtable.ii:477-480) is one step, although it holds no lock.
-/
namespace Hoard.Worker
variable {K V E : Type}

/-- Where the worker is. -/
inductive Pc where
  /-- the thread was created and has not got the lock yet -/
  | start
  /-- in the wait of refresh_policy.ii:106-107 -/
  | untimed
  /-- in the wait of refresh_policy.ii:111-112; it refers to the entry `i`, and the call of
  `wait_until` that is going on read the time `tp` from it -/
  | timed (i : Nat) (tp : Option Int)
  /-- in the inner loop (refresh_policy.ii:116-121), holding the lock, with the time it read -/
  | loop (now : Int)
  /-- returned -/
  | done
deriving DecidableEq

/-- The cache with its worker.  refresh_policy.h:65-69. -/
structure G (K V E : Type) where
  s : St K V E := {}
  pc : Pc := .start
  /-- the member `stop` -/
  stop : Bool := false
  /-- the condition variable was notified since the worker began to wait -/
  notified : Bool := false
  /-- what was done to the table so far, in order (not part of the program) -/
  log : Hist K V E := []

/-- The worker waits on the condition variable: it does not hold the lock.
refresh_policy.ii:106-107, 111-112. -/
def Pc.waits : Pc → Bool
  | .untimed => true
  | .timed _ _ => true
  | _ => false

/-- The worker holds the lock.  refresh_policy.ii:100, 114-121. -/
def Pc.locked : Pc → Bool
  | .loop _ => true
  | _ => false

/-- What can happen next. -/
inductive Act (K V E : Type) where
  /-- another thread performs an operation on the cache or on a callback object -/
  | call (o : Op K V E)
  /-- the worker gets the lock for the first time -/
  | begin
  /-- the wait on the condition variable ends: notified, or for no reason -/
  | wake
  /-- the timed wait ends because its time has come -/
  | timeout
  /-- one iteration of the worker's inner loop, with what the resolver does in it -/
  | work (r : Res V E) (b : Beh V E)
  /-- `~hashtable` clears the table, without lock (hashtable.ii:477-480) -/
  | dtorClear
  /-- `destroy()` of the policy sets `stop` under the lock and notifies (refresh_policy.ii:86-91) -/
  | dtorStop

/-- What becomes of it.  `wait_until` and `join` may leave a thread blocked (refresh_policy.ii:93,
106-112). -/
inductive Outcome (K V E : Type) where
  | ok (g : G K V E) (out : Out K V E)
  /-- not possible now: blocked, or not a step of the program -/
  | blocked
  /-- undefined behaviour: freed memory is read, or a data race -/
  | ub

/-- `delay_queue_changed.notify_one()` is called by `on_assign_` whenever it appends to the delay queue
(refresh_policy.ii:54-55). -/
def notifies (s s' : St K V E) : Bool := s'.delayQ.any (fun i => !(s.delayQ.contains i))

/-- The top of the worker's loop, holding the lock (refresh_policy.ii:102-114): which wait it enters,
unless the predicate is already true. -/
def enterWait (g : G K V E) : Outcome K V E :=
  match g.s.delayQ with
  | [] => if g.stop then .ok { g with pc := .done } {} else .ok { g with pc := .untimed, notified := false } {}
  | i :: _ =>
    if g.stop then .ok { g with pc := .done } {} else
    match g.s.find i with
    | none => .ub
    | some e => .ok { g with pc := .timed i e.refTp, notified := false } {}

/-- A wait returns with the lock held (refresh_policy.ii:106-116): the predicate is tested.  The untimed
wait goes on if the predicate is false.  The timed wait calls `wait_until` again, and for that reads the
time through the reference. -/
def wakeUp (env : Env V) (g : G K V E) : Outcome K V E :=
  match g.pc with
  | .untimed =>
    if g.stop then .ok { g with pc := .done } {}
    else if g.s.delayQ.isEmpty then .ok { g with notified := false } {}
    else .ok { g with pc := .loop env.now } {}
  | .timed i _ =>
    if g.stop then .ok { g with pc := .done } {}
    else match g.s.find i with
      | none => .ub
      | some e => .ok { g with pc := .timed i e.refTp, notified := false } {}
  | _ => .blocked

/-- The timed wait times out (refresh_policy.ii:111-116). -/
def timeOut (env : Env V) (g : G K V E) : Outcome K V E :=
  match g.pc with
  | .timed _ tp =>
    if reached env.now tp then
      if g.stop then .ok { g with pc := .done } {} else .ok { g with pc := .loop env.now } {}
    else .blocked
  | _ => .blocked

/-- The inner loop (refresh_policy.ii:117-121): one refresh, or the end of the loop.  The refresh is `tick` of
`Verif.Cache`, which tests again that the entry is due (at a time that is not earlier, so that makes no difference). -/
def work (cfg : Cfg K) (env : Env V) (g : G K V E) (r : Res V E) (b : Beh V E) : Outcome K V E :=
  match g.pc with
  | .loop now =>
    match g.s.delayQ with
    | [] => enterWait g
    | i :: _ =>
      match g.s.find i with
      | none => .ub
      | some e =>
        if reached now e.refTp then
          .ok { g with s := (step cfg env g.s (.tick r b)).1, log := g.log ++ [(env, .tick r b)] } (step cfg env g.s (.tick r b)).2
        else enterWait g
  | _ => .blocked

/-- An operation of another thread: with the lock, that is while the worker does not hold it.
cache.h:39, 51, 58, 65, 72, 79, 86. -/
def call (cfg : Cfg K) (env : Env V) (g : G K V E) (o : Op K V E) : Outcome K V E :=
  if g.pc.locked then .blocked
  else .ok { g with
      s := (step cfg env g.s o).1
      notified := g.notified || notifies g.s (step cfg env g.s o).1
      log := g.log ++ [(env, o)] } (step cfg env g.s o).2

/-- One step.  Dispatch only; see the functions it calls for refresh_policy.ii:78-123. -/
def next (cfg : Cfg K) (env : Env V) (g : G K V E) : Act K V E → Outcome K V E
  | .call o => call cfg env g o
  | .begin => match g.pc with
    | .start => enterWait g
    | _ => .blocked
  | .wake => wakeUp env g
  | .timeout => timeOut env g
  | .work r b => work cfg env g r b
  | .dtorClear =>
    -- the table is accessed by both threads, one of them without lock
    if g.pc.locked then .ub
    else .ok { g with s := (step cfg env g.s .destroy).1, log := g.log ++ [(env, .destroy)] } (step cfg env g.s .destroy).2
  | .dtorStop =>
    if g.pc.locked || !g.s.destroyed then .blocked
    else .ok { g with stop := true, notified := true } {}

/-- Steps the program can take: operations of the cache as long as it exists (`Op.ok`), the refreshing only by the worker, the
destructor once, in its order.  refresh_policy.ii:78-123. -/
def Act.ok (cfg : Cfg K) (g : G K V E) : Act K V E → Prop
  | .call o => o.ok cfg g.s ∧ o ≠ .destroy ∧ ∀ r b, o ≠ .tick r b
  | .dtorClear => g.s.destroyed = false
  | .dtorStop => g.s.destroyed = true ∧ g.stop = false
  | _ => True

/-- A schedule is carried out: `blocked` steps are not allowed in it.  Any interleaving of the
worker (refresh_policy.ii:96-123) with calls of cache.h:35-89. -/
def exec (cfg : Cfg K) : G K V E → List (Env V × Act K V E) → Outcome K V E
  | g, [] => .ok g {}
  | g, (env, a) :: as => match next cfg env g a with
    | .ok g' _ => exec cfg g' as
    | .blocked => .blocked
    | .ub => .ub

/-- All steps of the schedule are possible ones.  The conditions of `Act.ok`
(refresh_policy.ii:78-123) throughout. -/
def Sched (cfg : Cfg K) : G K V E → List (Env V × Act K V E) → Prop
  | _, [] => True
  | g, (env, a) :: as => a.ok cfg g ∧ ∀ g' out, next cfg env g a = .ok g' out → Sched cfg g' as

end Hoard.Worker
