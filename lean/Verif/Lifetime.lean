import Verif.Threads
/-!
# Model: who keeps the table alive, with several threads

Cache objects are owners of the table (`std::shared_ptr`, cache.h:92).  A handle of a
lookup has a `std::weak_ptr` to it; a delivery becomes an owner for as long as it
takes (`weak_self.lock()`, detail/async_resolver_callback.h:33, 49, 65), or, if the table
has no owner any more, cancels the lookup on its own, without the lock
(detail/async_resolver_callback.h:40, 56, 69).  The thread that gives up the last
ownership runs the destructor: `~hashtable` cancels every lookup, without the lock
(detail/hashtable.ii:478-480, 945-953), and then `~hashtable_policy_container` joins the
refresh worker (detail/hashtable.ii:212-214, refresh_policy.ii:86-94).

Threads interleave.  Simplified:
* A call is `async_get` on a given lookup, whatever its key, and happens in one piece while the thread has the lock.
* A handle is used once (two threads using one handle are in `Verif.Race`).
* Clearing the list of callbacks of a lookup without the lock takes two steps, between
  which other threads may act: it destroys the callbacks it has seen and then leaves
  the list empty (`std::vector::clear`, detail/pending.ii:67-70).  If another thread starts
  on the same list meanwhile that is a data race, which is recorded.
* The refresh worker is one of the threads; it has the lock only while it delivers (in
  the code it also has it before, refresh_policy.ii:100-121); it begins nothing when the table is being
  destroyed (what it may do then is in `Verif.Worker`).
-/
namespace Hoard.Lifetime
open Threads (set)

/-- A `std::shared_ptr` to the table.  `impl_` (cache.h:92), and `self` in
async_resolver_callback.h:33, 49, 65. -/
inductive Owner where
  /-- in a cache object of thread `t` -/
  | obj (t : Nat)
  /-- in a delivery under way in thread `t` -/
  | temp (t : Nat)
deriving DecidableEq, Repr

/-- What a thread may do next.  cache.h:30-33, resolver_policy.ii:123-148,
async_resolver_callback.h:25-73. -/
inductive Job where
  /-- `async_get` through a cache object: callback `w` for lookup `i`, which is begun if it does not exist -/
  | call (i w : Nat)
  /-- copy a cache object, for thread `t` -/
  | copy (t : Nat)
  /-- destroy a cache object -/
  | letGo
  /-- `assign`, `assign_error` or `cancel` on the handle of lookup `i`, or its destructor -/
  | deliver (i : Nat)
deriving DecidableEq, Repr

/-- Where a thread is. -/
inductive Pc where
  | idle
  /-- waits for the lock (resolver_policy.ii:106, 132) -/
  | wantCall (i w : Nat)
  | inCall (i w : Nat)
  /-- has become an owner, waits for the lock (detail/async_resolver_callback.h:34, 50, 66) -/
  | want (i : Nat)
  | inside (i : Nat)
  /-- the lock is released, still an owner -/
  | leaving
  /-- found no table (detail/async_resolver_callback.h:40, 56, 69) -/
  | orphan (i : Nat)
  /-- is clearing the callbacks `ws` of lookup `i` -/
  | orphanEnd (i : Nat) (ws : List Nat)
  /-- `~hashtable`, lookups still to be cancelled -/
  | dtor (is : List Nat)
  | dtorEnd (i : Nat) (ws is : List Nat)
  /-- `worker.join()` (refresh_policy.ii:93) -/
  | joining
deriving DecidableEq, Repr

/-- Whether the table exists (cache.h:32, hashtable.ii:477-480). -/
inductive Phase where
  | alive | dying | gone
deriving DecidableEq, Repr

/-- A lookup: whether it is in flight, and its callbacks.  The variant (mapped_type.h:29) and `cbq_`
(pending.h:38). -/
structure Look where
  pending : Bool := true
  waiters : List Nat := []
deriving DecidableEq, Repr

/-- The owners of the table (cache.h:92), its lookups (mapped_type.h:29), the handles
(async_resolver_callback.h:76-78), the mutex (thread_safe_policy.h:29) and where the threads are. -/
structure St where
  owners : List Owner
  /-- the lookups of the table, the newest first -/
  ids : List Nat := []
  looks : Nat → Look := fun _ => {}
  /-- handles not used so far -/
  handles : List Nat := []
  phase : Phase := .alive
  mutex : Option Nat := none
  pc : Nat → Pc := fun _ => .idle
  /-- callbacks that `async_get` was called with -/
  asked : List Nat := []
  /-- callbacks that were invoked or destroyed -/
  settled : List Nat := []
  /-- how often the destructor was begun -/
  deaths : Nat := 0
  race : Bool := false
  /-- the program was ended by `std::terminate` -/
  terminated : Bool := false

/-- The thread is in the middle of clearing the callbacks of lookup `i`.  In pending.ii:68, called
from async_resolver_callback.h:40, 56, 69 or hashtable.ii:947. -/
def Pc.clearing (i : Nat) : Pc → Bool
  | .orphanEnd j _ => i = j
  | .dtorEnd j _ _ => i = j
  | _ => false

/-- Give up an ownership; the last one runs the destructor.  `~shared_ptr` of cache.h:92 or
async_resolver_callback.h:33; the destructor is hashtable.ii:477-480. -/
def drop (s : St) (t : Nat) (o : Owner) : St :=
  let owners := s.owners.erase o
  if owners = [] then { s with owners := owners, phase := .dying, deaths := s.deaths + 1, pc := set s.pc t (.dtor s.ids) }
  else { s with owners := owners, pc := set s.pc t .idle }

/-- `pending::cancel` on lookup `i`, the first half; `next` is where the thread is then.
`others`: the threads there are.  pending.ii:66-70. -/
def clear (threads : List Nat) (s : St) (t i : Nat) (next : List Nat → Pc) : St :=
  { s with
    race := s.race || threads.any (fun u => u ≠ t && (s.pc u).clearing i)
    pc := set s.pc t (next (if (s.looks i).pending then (s.looks i).waiters else [])) }

/-- One step of thread `t`, which does `j` if it is idle; `none` if it is blocked or cannot do that. -/
def step (threads : List Nat) (worker : Option Nat) (s : St) (t : Nat) (j : Job) : Option St :=
  if s.terminated || !threads.contains t then none else
  match s.pc t with
  | .idle =>
    if worker = some t && s.phase != .alive then none else
    match j with
    | .call i w => if s.owners.contains (.obj t) then some { s with pc := set s.pc t (.wantCall i w) } else none
    | .copy u => if s.owners.contains (.obj t) then some { s with owners := .obj u :: s.owners } else none
    | .letGo => if s.owners.contains (.obj t) then some (drop s t (.obj t)) else none
    | .deliver i =>
      if s.handles.contains i then
        -- `weak_self.lock()`
        if s.owners = [] then some { s with handles := s.handles.erase i, pc := set s.pc t (.orphan i) }
        else some { s with handles := s.handles.erase i, owners := .temp t :: s.owners, pc := set s.pc t (.want i) }
      else none
  | .wantCall i w =>
    match s.mutex with
    | none => some { s with mutex := some t, pc := set s.pc t (.inCall i w) }
    | some _ => none
  | .inCall i w =>
    -- hashtable.ii:597-642
    if s.ids.contains i then
      if (s.looks i).pending then
        some { s with looks := set s.looks i { (s.looks i) with waiters := (s.looks i).waiters ++ [w] }, asked := s.asked ++ [w], mutex := none, pc := set s.pc t .idle }
      else some { s with asked := s.asked ++ [w], settled := s.settled ++ [w], mutex := none, pc := set s.pc t .idle }
    else
      some { s with
        ids := i :: s.ids, looks := set s.looks i { waiters := [w] }, asked := s.asked ++ [w], handles := i :: s.handles, mutex := none, pc := set s.pc t .idle }
  | .want i =>
    match s.mutex with
    | none => some { s with mutex := some t, pc := set s.pc t (.inside i) }
    | some _ => none
  | .inside i =>
    -- detail/async_resolver_callback.h:35-37, 51-53, 67
    some { s with
      looks := set s.looks i { pending := false, waiters := [] }
      settled := s.settled ++ (if (s.looks i).pending then (s.looks i).waiters else [])
      mutex := none, pc := set s.pc t .leaving }
  | .leaving => some (drop s t (.temp t))
  | .orphan i => some (clear threads s t i (.orphanEnd i))
  | .orphanEnd i ws =>
    some { s with looks := set s.looks i { pending := false, waiters := [] }, settled := s.settled ++ ws, pc := set s.pc t .idle }
  | .dtor [] => some { s with pc := set s.pc t .joining }
  | .dtor (i :: is) => some (clear threads s t i (.dtorEnd i · is))
  | .dtorEnd i ws is =>
    some { s with looks := set s.looks i { pending := false, waiters := [] }, settled := s.settled ++ ws, pc := set s.pc t (.dtor is) }
  | .joining =>
    match worker with
    | none => some { s with phase := .gone, pc := set s.pc t .idle }
    | some u =>
      -- joining oneself throws `std::system_error` in a destructor
      if u = t then some { s with terminated := true }
      else if s.pc u = .idle then some { s with phase := .gone, pc := set s.pc t .idle }
      else none

/-- A schedule.  Any interleaving of the threads; between the steps the lock is as in
thread_safe_policy.ii:10-20. -/
def exec (threads : List Nat) (worker : Option Nat) : St → List (Nat × Job) → Option St
  | s, [] => some s
  | s, (t, j) :: ts =>
    match step threads worker s t j with
    | some s' => exec threads worker s' ts
    | none => none

/-- The cache was just built, by thread `t`.  After cache.h:30-33. -/
def init (t : Nat) : St := { owners := [.obj t] }

end Hoard.Lifetime
