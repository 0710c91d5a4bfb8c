import Verif.DList
import Verif.Queue
/-!
# The recency queue, pointer level

Models `/repo/include/libhoard/detail/queue.ii` on the links of
`linked_list.ii` (`Verif.DList`).  The list head `q_` is at address 0 and the
links of entry `i` are at address `i + 1`.  Functions return `none` on undefined
behaviour: a null dereference, or an access to `hot_` of the list head.

Simplification: the `strengthen` callback is reported as the entry it is applied
to instead of being applied here.
-/
namespace Hoard

/-- Address of an iterator: `none` is `end()`.  linked_list.ii:94-96: `end()` is the head of the
list. -/
def addr : Option Nat → Nat
  | none => 0
  | some i => i + 1

/-- Data members of `basic_queue` and its elements (queue.h:28-79): links,
`midpoint_`, `hot_` and `odd_sized_`. -/
structure PQ where
  heap : DL.Heap
  mid : Nat
  hot : Nat → Bool
  odd : Bool

namespace PQ

/-- Constructor (queue.h:77-79 with linked_list.ii:36-38).  The `hot_` members
of entries have no initial value. -/
def init (hot : Nat → Bool) : PQ :=
  { heap := DL.ctor ⟨fun _ => none, fun _ => none⟩ 0, mid := 0, hot, odd := false }

/-- Assignment `iter->hot_ = b` through an iterator.  queue.ii:14, 33, 47, 55. -/
def setHotAt (p : PQ) (a : Nat) (b : Bool) : Option PQ :=
  match a with
  | 0 => none
  | m + 1 => some { p with hot := setHot p.hot m b }

/-- `basic_queue::on_create_` (queue.ii:11-22); also the entry strengthened. -/
def onCreate (p : PQ) (i : Nat) : Option (PQ × Option Nat) :=
  let p := { p with hot := setHot p.hot i false }
  if p.odd then do
    let p1 ← p.setHotAt p.mid true
    let H ← DL.linkAfter p1.heap p.mid (i + 1)
    some ({ p1 with heap := H, mid := i + 1, odd := false }, some (p.mid - 1))
  else do
    let H ← DL.linkBefore p.heap p.mid (i + 1)
    some ({ p with heap := H, mid := i + 1, odd := true }, none)

/-- The first statement of `on_hit_` and `on_unlink_` (queue.ii:25-28, 40-43). -/
def cutOut (p : PQ) (i : Nat) : Option PQ := do
  let r ← DL.unlink p.heap (i + 1)
  some { p with heap := r.1, mid := if p.mid = i + 1 then r.2 else p.mid }

/-- `--midpoint_` followed by `->hot_ = false` (queue.ii:33, 55). -/
def midBack (p : PQ) : Option PQ := do
  let m ← p.heap.pred p.mid
  PQ.setHotAt { p with mid := m } m false

/-- `basic_queue::on_hit_` (queue.ii:24-37); strengthens `i`. -/
def onHit (p : PQ) (i : Nat) : Option PQ := do
  let p1 ← p.cutOut i
  let H ← DL.linkFront p1.heap 0 (i + 1)
  let p2 := { p1 with heap := H }
  if p2.hot i then some p2
  else midBack { p2 with hot := setHot p2.hot i true }

/-- `basic_queue::on_unlink_` (queue.ii:39-60). -/
def onUnlink (p : PQ) (i : Nat) : Option PQ := do
  let p1 ← p.cutOut i
  let p2 ← if p1.hot i then
      if p1.odd then do
        let p3 ← p1.setHotAt p1.mid true
        let m ← p3.heap.succ p3.mid
        some { p3 with mid := m }
      else some p1
    else
      if p1.odd then some p1
      else p1.midBack
  some { p2 with odd := !p2.odd }

/-- The loop of `lru_expire_` (queue.ii:96-109): the entries it weakens or marks,
in order.  `a` is the iterator; `fuel` bounds the iterations, and running out of
it is proved not to happen. -/
def lruLoop (p : PQ) : Nat → Nat → Nat → Option (List Nat)
  | _, _, 0 => some []
  | fuel, a, c + 1 => do
    let b ← p.heap.succ 0
    if a = b then some [] else
    match fuel with
    | 0 => none
    | fuel + 1 =>
      let a' ← p.heap.pred a
      match a' with
      | 0 => none
      | x + 1 =>
        if p.hot x then some []
        else do
          let r ← lruLoop p fuel (x + 1) c
          some (x :: r)

/-- `lru_expire_(count)` (queue.ii:95-110), starting at `q_.end()`. -/
def victims (p : PQ) (fuel count : Nat) : Option (List Nat) := lruLoop p fuel 0 count

end PQ
end Hoard
