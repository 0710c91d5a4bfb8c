/-!
# The hot/cold recency queue

Models `/repo/include/libhoard/detail/queue.ii`.  The intrusive list `q_` is
represented by the list of ids of its elements (module `Verif.DList` proves
that the pointer operations act on that list exactly as `insBefore`,
`insAfter`, `erase`, `nextOf`, `prevOf` below).  A position (`iterator`) is an
`Option Nat`: `some id` for an element and `none` for `end()`.  Dereferencing
`end()` is undefined behaviour in C++; here it sets the sticky flag `ub`.
-/

namespace Hoard

/-- Insert `v` before the element `m`.
`/repo/include/libhoard/detail/linked_list.ii:61-64` (`link_before`) with an
element position.  If `m` does not occur the C++ behaviour is undefined; the
model appends (never used on such input, see `BQ.Inv`). -/
def insBefore (m v : Nat) : List Nat → List Nat
  | [] => [v]
  | x :: xs => if x = m then v :: x :: xs else x :: insBefore m v xs

/-- `link_before(pos, v)` for an arbitrary position
(`/repo/include/libhoard/detail/linked_list.ii:61-64`): before `end()` means at
the back. -/
def insBeforePos : Option Nat → Nat → List Nat → List Nat
  | none, v, q => q ++ [v]
  | some m, v, q => insBefore m v q

/-- Insert `v` after the element `m`.
`/repo/include/libhoard/detail/linked_list.ii:56-59` (`link_after`). -/
def insAfter (m v : Nat) : List Nat → List Nat
  | [] => [v]
  | x :: xs => if x = m then x :: v :: xs else x :: insAfter m v xs

/-- The position following element `v`; `none` is `end()`.
`/repo/include/libhoard/detail/linked_list.ii:66-76` (the iterator returned by
`unlink`) and `124-127` (`operator++`). -/
def nextOf (v : Nat) : List Nat → Option Nat
  | [] => none
  | x :: xs => if x = v then xs.head? else nextOf v xs

/-- The element preceding element `m`, `none` if `m` is the first element (in
C++ that yields the sentinel, i.e. `end()`).
`/repo/include/libhoard/detail/linked_list.ii:135-138` (`operator--`). -/
def prevOfElem (m : Nat) : List Nat → Option Nat
  | [] => none
  | [_] => none
  | x :: y :: ys => if y = m then some x else prevOfElem m (y :: ys)

/-- `--pos` for an arbitrary position: the last element if `pos` is `end()`.
linked_list.ii:136-139, used in queue.ii:33, 55, 98. -/
def prevOf : Option Nat → List Nat → Option Nat
  | none, q => q.getLast?
  | some m, q => prevOfElem m q

/-- State of `basic_queue`: `q_`, `midpoint_`, the `hot_` flags of the
elements, `odd_sized_` (`/repo/include/libhoard/detail/queue.h:28-79`) and a
sticky flag for undefined behaviour. -/
structure BQ where
  q : List Nat := []
  mid : Option Nat := none
  hot : Nat → Bool := fun _ => false
  odd : Bool := false
  ub : Bool := false

/-- Write one `hot_` flag.  queue.h:36; queue.ii:12, 14, 32-33, 47, 55. -/
def setHot (h : Nat → Bool) (v : Nat) (b : Bool) : Nat → Bool :=
  fun x => if x = v then b else h x

namespace BQ

/-- The empty queue; `midpoint_` starts at `q_.begin()`, which is `end()` for
an empty list (`/repo/include/libhoard/detail/queue.h:78`). -/
def init : BQ := {}

/-- `basic_queue::on_create_`, `/repo/include/libhoard/detail/queue.ii:11-22`.
The second component is the element passed to the `strengthen` callback. -/
def onCreate (s : BQ) (v : Nat) : BQ × Option Nat :=
  let hot0 := setHot s.hot v false
  if s.odd then
    match s.mid with
    | none => ({ s with ub := true }, none)
    | some m =>
      ({ s with q := insAfter m v s.q, mid := some v, hot := setHot hot0 m true, odd := false },
        some m)
  else
    ({ s with q := insBeforePos s.mid v s.q, mid := some v, hot := hot0, odd := true }, none)

/-- `basic_queue::on_hit_`, `/repo/include/libhoard/detail/queue.ii:24-37`.
The `strengthen` callback is always invoked on `v`. -/
def onHit (s : BQ) (v : Nat) : BQ :=
  let mid' := if s.mid = some v then nextOf v s.q else s.mid
  let q' := v :: s.q.erase v
  if s.hot v then
    { s with q := q', mid := mid' }
  else
    match prevOf mid' q' with
    | none => { s with ub := true }
    | some m => { s with q := q', mid := some m, hot := setHot (setHot s.hot v true) m false }

/-- `basic_queue::on_unlink_`, `/repo/include/libhoard/detail/queue.ii:39-60`. -/
def onUnlink (s : BQ) (v : Nat) : BQ :=
  let mid' := if s.mid = some v then nextOf v s.q else s.mid
  let q' := s.q.erase v
  if s.hot v then
    if s.odd then
      match mid' with
      | none => { s with ub := true }
      | some m => { s with q := q', mid := nextOf m q', hot := setHot s.hot m true, odd := false }
    else
      { s with q := q', mid := mid', odd := true }
  else
    if s.odd then
      { s with q := q', mid := mid', odd := false }
    else
      match prevOf mid' q' with
      | none => { s with ub := true }
      | some m => { s with q := q', mid := some m, hot := setHot s.hot m false, odd := true }

/-- The loop of `queue::lru_expire_`,
`/repo/include/libhoard/detail/queue.ii:95-110`, over the elements from the
tail: stop at a hot element or when the count is used up. -/
def lruGo (hot : Nat → Bool) : List Nat → Nat → List Nat
  | [], _ => []
  | _ :: _, 0 => []
  | x :: xs, c + 1 => if hot x then [] else x :: lruGo hot xs c

/-- The elements that `lru_expire_(count)` weakens or marks expired, in the
order it does so (from the tail).  queue.ii:94-110. -/
def victims (s : BQ) (count : Nat) : List Nat := lruGo s.hot s.q.reverse count

end BQ
end Hoard
