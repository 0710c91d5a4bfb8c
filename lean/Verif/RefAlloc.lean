import Verif.Refcount
/-!
# Counted pointers whose allocators differ and fail

Models the `alloc_` that every `refcount_ptr` keeps beside its pointer (`/repo/include/libhoard/detail/refcount.ii`,
`refcount.h:112`), which memory is given back through which allocator, and the places of the
operations at which an allocator or the constructor of the object may throw.  The pointers, counters and objects themselves
are those of `Verif.Refcount`.

Allocators are named by numbers; a copy of an allocator is the same number.  Giving memory back through
another allocator than the one it came from is undefined behaviour: the operation returns `none`.

Simplifications: an allocator whose assignment throws is left as it was; moving an allocator
leaves it as it was (both are required of allocators or customary); `deallocate` does not throw; a destructor of an object
throws only in `reset`, since elsewhere it runs in a function that is `noexcept` and ends the program (refcount.ii:90, 148); a
throwing allocator copy in `adopt`, which is `noexcept` (refcount.ii:154), ends the program and is not modelled.
-/
namespace Hoard.RefAlloc
open Hoard.Refcount

/-- The pointers and objects, the `alloc_` of every pointer variable (refcount.h:112), and the memory in use: each
object's block with the allocator that it was taken from.  `leaked` are the blocks of objects whose destructor threw, which nothing
refers to any more (refcount.ii:198-205). -/
structure A where
  s : St := {}
  alloc : Nat → Nat := fun _ => 0
  blocks : List (Nat × Nat) := []
  leaked : List (Nat × Nat) := []

/-- Where `allocate_refcount` fails (refcount.ii:18, 20, 25). -/
inductive MakeFail where
  | copy
  | allocate
  | construct

/-- Where an assignment fails: at the local pointer (refcount.ii:116, 135) or at the assignment of the
allocator (refcount.ii:120, 139). -/
inductive AssignFail where
  | orig
  | assign

/-- Operations, with the place where they fail if they do.  refcount.ii:14-216, hashtable.ii:944-953. -/
inductive AOp where
  /-- `allocate_refcount` with allocator `a` into a new variable -/
  | make (x a : Nat) (f : Option MakeFail)
  /-- a new null pointer with allocator `a` -/
  | null (x a : Nat)
  | copy (x y : Nat) (fail : Bool)
  | move (x y : Nat) (fail : Bool)
  | dtor (x : Nat)
  | copyAssign (x y : Nat) (f : Option AssignFail)
  | moveAssign (x y : Nat) (f : Option AssignFail)
  | adopt (x o : Nat)
  | release (x : Nat)
  /-- `thr`: a destructor that it runs throws -/
  | reset (x : Nat) (thr : Bool)
  | resetPtr (x : Nat) (p : Option Nat) (thr : Bool)
  /-- the disposer of a table whose allocator is `a` -/
  | dispose (o a : Nat)

/-- `deallocate` (refcount.ii:29, 205, 214; hashtable.ii:951). -/
def giveBack (b : List (Nat × Nat)) (o a : Nat) : Option (List (Nat × Nat)) := if (o, a) ∈ b then some (b.erase (o, a)) else none

/-- Write one `alloc_` (refcount.h:112). -/
def upd (f : Nat → Nat) (x a : Nat) : Nat → Nat := fun z => if z = x then a else f z

/-- The end of an operation: the memory of the objects that it destroyed goes back through allocator `a`
(refcount.ii:204-205, 213-214; hashtable.ii:950-951).  Simplified: the memory goes back after the operation and not in it. -/
def fin (t : A) (s' : St) (a : Nat) (al : Nat → Nat) : Option A := do
  let b ← (s'.killed.drop t.s.killed.length).foldlM (fun b o => giveBack b o a) t.blocks
  some { t with s := s', alloc := al, blocks := b }

/-- The end of an operation in which `destroy` throws: the memory of the object does not go back
(refcount.ii:202-205, 212-214). -/
def finThrow (t : A) (s' : St) : Option A :=
  let gone := s'.killed.drop t.s.killed.length
  some { t with
    s := s'
    blocks := t.blocks.filter (fun v => v.1 ∉ gone)
    leaked := t.leaked ++ t.blocks.filter (fun v => v.1 ∈ gone) }

/-- An assignment whose allocator assignment throws (refcount.ii:116-120, 135-139): `ptr_` is already null, and
the local pointer gives up the old object with the old allocator while the exception leaves. -/
def lost (t : A) (x : Nat) : Option A := do
  let orig ← t.s.get x
  let s' ← (t.s.set x none).unref orig
  fin t s' (t.alloc x) t.alloc

/-- One operation. -/
def astep (t : A) : AOp → Option A
  -- refcount.ii:18, 20: nothing happened yet
  | .make _ _ (some .copy) => some t
  | .make _ _ (some .allocate) => some t
  -- refcount.ii:28-31
  | .make _ a (some .construct) => do
    let b ← giveBack ((t.s.next, a) :: t.blocks) t.s.next a
    some { t with blocks := b }
  -- refcount.ii:14-37
  | .make x a none => do
    let s' ← step t.s (.alloc x)
    some { t with s := s', alloc := upd t.alloc x a, blocks := (t.s.next, a) :: t.blocks }
  -- refcount.ii:65-73
  | .null x a => some { t with s := t.s.decl x none, alloc := upd t.alloc x a }
  -- refcount.ii:75-81: the allocator is copied first
  | .copy x y fail => if fail then some t else do
    let s' ← step t.s (.copy x y)
    fin t s' (t.alloc y) (upd t.alloc x (t.alloc y))
  -- refcount.ii:83-87: the other pointer is cleared after the allocator was copied
  | .move x y fail => if fail then some t else do
    let s' ← step t.s (.move x y)
    fin t s' (t.alloc y) (upd t.alloc x (t.alloc y))
  -- refcount.ii:89-92, 195-207
  | .dtor x => do
    let s' ← step t.s (.dtor x)
    fin t s' (t.alloc x) t.alloc
  -- refcount.ii:110-127: the old object goes back with the old allocator, which `orig` kept
  | .copyAssign x y f => if x = y then some t else match f with
    | some .orig => some t
    | some .assign => lost t x
    | none => do
      let s' ← step t.s (.copyAssign x y)
      fin t s' (t.alloc x) (upd t.alloc x (t.alloc y))
  -- refcount.ii:129-145
  | .moveAssign x y f => if x = y then some t else match f with
    | some .orig => some t
    | some .assign => lost t x
    | none => do
      let s' ← step t.s (.moveAssign x y)
      fin t s' (t.alloc x) (upd t.alloc x (t.alloc y))
  -- refcount.ii:153-168: the allocator stays
  | .adopt x o => do
    let s' ← step t.s (.adopt x o)
    fin t s' (t.alloc x) t.alloc
  -- refcount.ii:190-193
  | .release x => do
    let s' ← step t.s (.release x)
    fin t s' (t.alloc x) t.alloc
  -- refcount.ii:195-207
  | .reset x thr => do
    let s' ← step t.s (.reset x)
    if thr then finThrow t s' else fin t s' (t.alloc x) t.alloc
  -- refcount.ii:209-216: the allocator stays
  | .resetPtr x p thr => do
    let s' ← step t.s (.resetPtr x p)
    if thr then finThrow t s' else fin t s' (t.alloc x) t.alloc
  -- hashtable.ii:944-953: with the table's allocator
  | .dispose o a => do
    let s' ← step t.s (.dispose o)
    fin t s' a t.alloc

/-- Run a program.  Statements using refcount.ii:14-216, one after the other; the exceptions are caught. -/
def arun (t : A) : List AOp → Option A
  | [] => some t
  | o :: os => do (← astep t o) |> (arun · os)

end Hoard.RefAlloc
