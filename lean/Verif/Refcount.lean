/-!
# Counted pointers

Models `refcount_ptr` and the counter of the objects it points to
(`/repo/include/libhoard/detail/refcount.ii`), and the disposer of the table, which gives
up the reference that `hashtable::link` took out of a `refcount_ptr` with `release`
(`/repo/include/libhoard/detail/hashtable.ii:713-719, 944-953`).

Pointer variables and objects are named by numbers.  Operations return `none` on undefined
behaviour: touching the counter of an object that was destroyed, destroying an object twice,
using a pointer variable that does not exist.

Simplifications: no exceptions from allocators (see `Verif.RefAlloc` for those) and destructors; destroying an object does
not itself run operations on counted pointers; the counter does not overflow.
-/
namespace Hoard.Refcount

/-- The pointer variables that exist with their `ptr_`, the references held as plain
pointers (after `release`), the counters `n_` (refcount.h:39), which objects exist, and the
objects destroyed so far, in order. -/
structure St where
  vars : List (Nat × Option Nat) := []
  raw : List Nat := []
  cnt : Nat → Nat := fun _ => 0
  alive : Nat → Bool := fun _ => false
  next : Nat := 0
  killed : List Nat := []

namespace St

/-- The value of a pointer variable; `none` if there is no such variable.  `ptr_` (refcount.h:113).
-/
def get (s : St) (x : Nat) : Option (Option Nat) := (s.vars.find? (fun p => p.1 == x)).map (·.2)

/-- Assign `ptr_` of a variable.  `ptr_` (refcount.h:113). -/
def set (s : St) (x : Nat) (p : Option Nat) : St := { s with vars := s.vars.map (fun v => if v.1 = x then (x, p) else v) }

/-- A new variable.  refcount.ii:53-87. -/
def decl (s : St) (x : Nat) (p : Option Nat) : St := { s with vars := (x, p) :: s.vars }

/-- A variable goes out of scope.  refcount.ii:89-92, the part after `reset()`. -/
def undecl (s : St) (x : Nat) : St := { s with vars := s.vars.filter (fun v => v.1 ≠ x) }

/-- `refcount_inc` (refcount.ii:6-8), on a pointer that may be null as at refcount.ii:80. -/
def inc (s : St) : Option Nat → Option St
  | none => some s
  | some o => if s.alive o then some { s with cnt := fun a => if a = o then s.cnt o + 1 else s.cnt a } else none

/-- `destroy` and `deallocate` (refcount.ii:204-205). -/
def kill (s : St) (o : Nat) : Option St :=
  if s.alive o then some { s with alive := fun a => if a = o then false else s.alive a, killed := s.killed ++ [o] } else none

/-- `refcount_dec` (refcount.ii:10-12): the new state and whether the counter was 1. -/
def dec (s : St) (o : Nat) : Option (St × Bool) :=
  if s.alive o then some ({ s with cnt := fun a => if a = o then s.cnt o - 1 else s.cnt a }, s.cnt o == 1) else none

/-- Give up a reference: `if (ptr && dec(ptr)) destroy` (refcount.ii:195-207, for a pointer that
is gone afterwards; hashtable.ii:949-952). -/
def unref (s : St) : Option Nat → Option St
  | none => some s
  | some o => do
    let (s1, last) ← s.dec o
    if last then s1.kill o else some s1

end St

/-- Operations. -/
inductive Op where
  /-- `allocate_refcount` into a new variable (refcount.ii:14-37) -/
  | alloc (x : Nat)
  /-- copy constructor -/
  | copy (x y : Nat)
  /-- move constructor -/
  | move (x y : Nat)
  /-- destructor -/
  | dtor (x : Nat)
  | copyAssign (x y : Nat)
  | moveAssign (x y : Nat)
  /-- `adopt` of a reference that was released -/
  | adopt (x o : Nat)
  | release (x : Nat)
  /-- `reset()` and `= nullptr` -/
  | reset (x : Nat)
  /-- `reset(ptr)` -/
  | resetPtr (x : Nat) (p : Option Nat)
  /-- the table's disposer gives up a released reference -/
  | dispose (o : Nat)

/-- One operation. -/
def step (s : St) : Op → Option St
  -- refcount.ii:14-37: the new object gets count 1
  | .alloc x =>
    some { (s.decl x (some s.next)) with
      cnt := fun a => if a = s.next then 1 else s.cnt a
      alive := fun a => if a = s.next then true else s.alive a
      next := s.next + 1 }
  -- refcount.ii:75-81, 94-101
  | .copy x y => do
    let p ← s.get y
    (s.decl x p).inc p
  -- refcount.ii:83-87, 103-108
  | .move x y => do
    let p ← s.get y
    some ((s.set y none).decl x p)
  -- refcount.ii:89-92: `reset()`; the variable is gone afterwards
  | .dtor x => do
    let p ← s.get x
    (s.undecl x).unref p
  -- refcount.ii:110-127: the old pointer is moved to a local variable that is destroyed last
  | .copyAssign x y => do
    let orig ← s.get x
    let p ← s.get y
    if x = y then some s else
    let s1 ← (s.set x p).inc p
    s1.unref orig
  -- refcount.ii:129-145
  | .moveAssign x y => do
    let orig ← s.get x
    let p ← s.get y
    if x = y then some s else
    ((s.set x p).set y none).unref orig
  -- refcount.ii:153-168
  | .adopt x o => do
    let orig ← s.get x
    ({ s.set x (some o) with raw := s.raw.erase o }).unref orig
  -- refcount.ii:190-193
  | .release x => do
    let p ← s.get x
    match p with
    | none => some s
    | some o => some { s.set x none with raw := o :: s.raw }
  -- refcount.ii:195-207: the pointer is only cleared when the counter reached zero
  | .reset x => do
    let p ← s.get x
    match p with
    | none => some s
    | some o => do
      let (s1, last) ← s.dec o
      if last then (s1.set x none).kill o else some s1
  -- refcount.ii:209-216: the old object is destroyed without looking at its counter
  | .resetPtr x p => do
    let old ← s.get x
    let s1 ← s.inc p
    let s2 := s1.set x p
    match old with
    | none => some s2
    | some o => s2.kill o
  -- hashtable.ii:944-953
  | .dispose o => ({ s with raw := s.raw.erase o }).unref (some o)

/-- Run a program.  Statements using refcount.ii:53-216, one after the other. -/
def run (s : St) : List Op → Option St
  | [] => some s
  | o :: os => do (← step s o) |> (run · os)

end Hoard.Refcount
