import Verif.QueueCheck
/-!
# Moving the recency queue

`basic_queue` has a move constructor (queue.h:44, defaulted).  Here queues are objects that live somewhere,
so the head of a list is at any address.  Links of entries are at the address of the entry.  Functions return
`none` on undefined behaviour: a null dereference, or an access to `hot_` of a list head.

The class `queue` (queue.h:93-120) declares a destructor and so has no move constructor of its own: no cache
is moved this way.  What is modelled is the constructor that classes derived from `basic_queue` are offered.
Simplifications: the `strengthen` callback is left out, and destructors do nothing (queue.h:47, linked_list.h:18).
-/
namespace Hoard.QMove
open DL

/-- All objects: the links (linked_list.h:29-30), the members `hot_` of entries (queue.h:36) and the addresses
of the heads of lists (linked_list.h:60). -/
structure Mem where
  links : Heap
  hot : Nat → Bool
  heads : List Nat

/-- Data members of one `basic_queue` (queue.h:77-79): the address of the head of `q_`, the iterator
`midpoint_`, and `odd_sized_`. -/
structure Q where
  head : Nat
  mid : Nat
  odd : Bool

/-- The default constructor, for a queue at `h` (queue.h:42, 77-79; linked_list.ii:36-38). -/
def new (M : Mem) (h : Nat) : Mem × Q :=
  ({ M with links := ctor M.links h, heads := h :: M.heads }, { head := h, mid := h, odd := false })

/-- The move constructor, making a queue at `to` (queue.h:44): members one by one.  The list is moved
(linked_list.ii:40-44), the iterator and the flag are copied and stay as they are in `q`.  Returns the new queue;
the data members of the old one are still those of `q`. -/
def moveCtor (M : Mem) (q : Q) (to : Nat) : Option (Mem × Q) := do
  let H ← DL.moveCtor M.links to q.head
  some ({ M with links := H, heads := to :: M.heads }, { head := to, mid := q.mid, odd := q.odd })

/-- Assignment `iter->hot_ = b` through an iterator (queue.ii:14, 33, 47, 55). -/
def setHotAt (M : Mem) (a : Nat) (b : Bool) : Option Mem :=
  if a ∈ M.heads then none else some { M with hot := setHot M.hot a b }

/-- `on_create_` (queue.ii:11-22). -/
def onCreate (M : Mem) (q : Q) (e : Nat) : Option (Mem × Q) :=
  let M := { M with hot := setHot M.hot e false }
  if q.odd then do
    let M1 ← setHotAt M q.mid true
    let H ← linkAfter M1.links q.mid e
    some ({ M1 with links := H }, { q with mid := e, odd := false })
  else do
    let H ← linkBefore M.links q.mid e
    some ({ M with links := H }, { q with mid := e, odd := true })

/-- The first statement of `on_hit_` and `on_unlink_` (queue.ii:25-28, 40-43). -/
def cutOut (M : Mem) (q : Q) (e : Nat) : Option (Mem × Q) := do
  let r ← unlink M.links e
  some ({ M with links := r.1 }, { q with mid := if q.mid = e then r.2 else q.mid })

/-- `(--midpoint_)->hot_ = false` (queue.ii:33, 55). -/
def midBack (M : Mem) (q : Q) : Option (Mem × Q) := do
  let m ← M.links.pred q.mid
  let M1 ← setHotAt M m false
  some (M1, { q with mid := m })

/-- `on_hit_` (queue.ii:24-37). -/
def onHit (M : Mem) (q : Q) (e : Nat) : Option (Mem × Q) := do
  let r ← cutOut M q e
  let H ← linkFront r.1.links q.head e
  let M2 := { r.1 with links := H }
  if M2.hot e then some (M2, r.2)
  else midBack { M2 with hot := setHot M2.hot e true } r.2

/-- `on_unlink_` (queue.ii:39-60). -/
def onUnlink (M : Mem) (q : Q) (e : Nat) : Option (Mem × Q) := do
  let r ← cutOut M q e
  let r2 ← if r.1.hot e then
      if r.2.odd then do
        let M3 ← setHotAt r.1 r.2.mid true
        let m ← M3.links.succ r.2.mid
        some (M3, { r.2 with mid := m })
      else some r
    else
      if r.2.odd then some r
      else midBack r.1 r.2
  some (r2.1, { r2.2 with odd := !r2.2.odd })

/-- Read of `hot_` through an iterator (queue.ii:70, 75). -/
def hotAt (M : Mem) (a : Nat) : Option Bool := if a ∈ M.heads then none else some (M.hot a)

/-- `std::all_of` with the test of queue.ii:68-71, over the links met. -/
def allHot (M : Mem) : List Nat → Option Bool
  | [] => some true
  | a :: r => do
    let x ← hotAt M a
    if x then allHot M r else some false

/-- `std::none_of` with the test of queue.ii:73-76, over the links met. -/
def noneHot (M : Mem) : List Nat → Option Bool
  | [] => some true
  | a :: r => do
    let x ← hotAt M a
    if x then some false else noneHot M r

/-- `invariant()` (queue.ii:62-83).  `fuel` bounds the rounds of each loop. -/
def invariant (M : Mem) (q : Q) (fuel : Nat) : Option Bool := do
  let b ← begin_ M.links q.head
  let hots ← forward M.links fuel b q.mid
  let colds ← forward M.links fuel q.mid (end_ q.head)
  let count := hots.length + colds.length
  let inv1 ← allHot M hots
  let inv2 ← noneHot M colds
  some (inv1 && inv2 && ((count % 2 == 1) == q.odd) && (hots.length == count / 2))

/-- What is done with a queue: an event (queue.ii:11-60) or a move (queue.h:44). -/
inductive Call where
  | event (e : PQ.Event)
  | move (to : Nat)

/-- One call.  After a move the new queue is used (queue.h:44; queue.ii:11-60). -/
def call (M : Mem) (q : Q) : Call → Option (Mem × Q)
  | .event (.create e) => onCreate M q e
  | .event (.hit e) => onHit M q e
  | .event (.unlink e) => onUnlink M q e
  | .move to => moveCtor M q to

/-- Calls in sequence (queue.h:44; queue.ii:11-60). -/
def calls (M : Mem) (q : Q) : List Call → Option (Mem × Q)
  | [] => some (M, q)
  | c :: cs => (call M q c).bind (fun r => calls r.1 r.2 cs)

end Hoard.QMove
