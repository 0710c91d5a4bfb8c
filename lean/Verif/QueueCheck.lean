import Verif.PQueue
/-!
# Iterators of the linked list, and the self-check of the recency queue

Models the iterators of `/repo/include/libhoard/detail/linked_list.ii` and
`basic_queue::invariant()` of `/repo/include/libhoard/detail/queue.ii`.

An iterator is the address it holds.  Loops take a bound on the number of
rounds and return `none` when it is used up, or when a null pointer is followed;
that a bound as large as the list suffices is proved.

Simplification: `iterator` and `const_iterator` (also those of the typed list,
linked_list.ii:311-462) hold the same pointer and are modelled once.
-/
namespace Hoard.DL

/-- `begin()`, linked_list.ii:90-92, 98-100, 106-108. -/
def begin_ (H : Heap) (h : Nat) : Option Nat := H.succ h

/-- `end()`, linked_list.ii:94-96, 102-104, 110-112. -/
def end_ (h : Nat) : Nat := h

/-- `operator++()`, linked_list.ii:125-128, 186-189. -/
def inc (H : Heap) (a : Nat) : Option Nat := H.succ a

/-- `operator--()`, linked_list.ii:136-139, 197-200. -/
def dec (H : Heap) (a : Nat) : Option Nat := H.pred a

/-- `operator++(int)`, linked_list.ii:130-134, 191-195: the result and the new
value of the iterator. -/
def postInc (H : Heap) (a : Nat) : Option (Nat × Nat) := do
  let copy := a
  let a' ← inc H a
  some (copy, a')

/-- `operator--(int)`, linked_list.ii:141-145, 202-206. -/
def postDec (H : Heap) (a : Nat) : Option (Nat × Nat) := do
  let copy := a
  let a' ← dec H a
  some (copy, a')

/-- The links met by `for (; a != b; ++a)`, as in `std::distance`, `std::all_of`
and `std::none_of` (used at queue.ii:63-64, 68, 73); comparison of iterators is
linked_list.ii:159-173, 220-234. -/
def forward (H : Heap) : Nat → Nat → Nat → Option (List Nat)
  | fuel, a, b =>
    if a = b then some [] else
    match fuel with
    | 0 => none
    | fuel + 1 => do
      let a' ← inc H a
      let r ← forward H fuel a' b
      some (a :: r)

/-- The links met by `while (a != b) visit(*--a)`, the loop of queue.ii:96-109. -/
def backward (H : Heap) : Nat → Nat → Nat → Option (List Nat)
  | fuel, a, b =>
    if a = b then some [] else
    match fuel with
    | 0 => none
    | fuel + 1 => do
      let a' ← dec H a
      let r ← backward H fuel a' b
      some (a' :: r)

/-- The links met by `while (a != b) visit(*a++)`, linked_list.ii:130-134. -/
def forwardPost (H : Heap) : Nat → Nat → Nat → Option (List Nat)
  | fuel, a, b =>
    if a = b then some [] else
    match fuel with
    | 0 => none
    | fuel + 1 => do
      let x ← postInc H a
      let r ← forwardPost H fuel x.2 b
      some (x.1 :: r)

/-- Copy or move construction of a link at `e`: linked_list.ii:10-14.  The source
is not read, and the members start as null (linked_list.h:29-30). -/
def linkCopyCtor (H : Heap) (e : Nat) : Heap := (H.setSucc e none).setPred e none

/-- Copy or move assignment to a link: linked_list.ii:18-24. -/
def linkAssign (H : Heap) (_e _y : Nat) : Heap := H

end Hoard.DL

namespace Hoard.PQ

/-- Read of `hot_` through an iterator; undefined at the list head. queue.ii:70, 75. -/
def hotAt (p : PQ) : Nat → Option Bool
  | 0 => none
  | i + 1 => some (p.hot i)

/-- `std::all_of` with the test of queue.ii:68-71, over the links met. -/
def allHot (p : PQ) : List Nat → Option Bool
  | [] => some true
  | a :: r => do
    let x ← p.hotAt a
    if x then allHot p r else some false

/-- `std::none_of` with the test of queue.ii:73-76, over the links met. -/
def noneHot (p : PQ) : List Nat → Option Bool
  | [] => some true
  | a :: r => do
    let x ← p.hotAt a
    if x then some false else noneHot p r

/-- `basic_queue::invariant()` (queue.ii:62-83).  `fuel` bounds the rounds of each
loop. -/
def invariant (p : PQ) (fuel : Nat) : Option Bool := do
  let b ← DL.begin_ p.heap 0
  let hots ← DL.forward p.heap fuel b p.mid
  let colds ← DL.forward p.heap fuel p.mid (DL.end_ 0)
  let hotCount := hots.length
  let coldCount := colds.length
  let count := hotCount + coldCount
  let inv1 ← p.allHot hots
  let inv2 ← p.noneHot colds
  let inv3 := (count % 2 == 1) == p.odd
  let inv4 := hotCount == count / 2
  some (inv1 && inv2 && inv3 && inv4)

/-- The events a cache sends to its queue: queue.ii:11-22, 24-37, 39-60. -/
inductive Event where
  | create (i : Nat)
  | hit (i : Nat)
  | unlink (i : Nat)

/-- One event, queue.ii:11-60. -/
def event (p : PQ) : Event → Option PQ
  | .create i => (p.onCreate i).map (·.1)
  | .hit i => p.onHit i
  | .unlink i => p.onUnlink i

/-- Events in sequence, queue.ii:11-60. -/
def events (p : PQ) : List Event → Option PQ
  | [] => some p
  | e :: es => (p.event e).bind (fun p' => events p' es)

end Hoard.PQ
