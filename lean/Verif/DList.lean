/-!
# The intrusive doubly linked list, pointer level

Models `/repo/include/libhoard/detail/linked_list.ii`.  Links (elements and
list heads alike) live at addresses of type `Nat`; a null pointer is `none`.
An operation that dereferences a null pointer (undefined behaviour) returns
`none`.
-/
namespace Hoard.DL

/-- Contents of all `link` objects: `pred_` and `succ_`
(`/repo/include/libhoard/detail/linked_list.h:22-31`). -/
structure Heap where
  pred : Nat → Option Nat
  succ : Nat → Option Nat

/-- Assignment `a->pred_ = v`.  linked_list.h:30; linked_list.ii:72-73, 115, 117. -/
def Heap.setPred (H : Heap) (a : Nat) (v : Option Nat) : Heap :=
  { H with pred := fun x => if x = a then v else H.pred x }

/-- Assignment `a->succ_ = v`.  linked_list.h:29; linked_list.ii:71, 73, 116-117. -/
def Heap.setSucc (H : Heap) (a : Nat) (v : Option Nat) : Heap :=
  { H with succ := fun x => if x = a then v else H.succ x }

/-- Default constructor of a list with head at `h`: `linked_list.ii:36-38`. -/
def ctor (H : Heap) (h : Nat) : Heap := (H.setSucc h (some h)).setPred h (some h)

/-- `link_`, `linked_list.ii:114-118`, assignments in the order of the code. -/
def link (H : Heap) (p e s : Nat) : Heap :=
  (((H.setPred e (some p)).setSucc e (some s)).setPred s (some e)).setSucc p (some e)

/-- `link_front`, `linked_list.ii:46-49`. -/
def linkFront (H : Heap) (h e : Nat) : Option Heap := (H.succ h).map (fun s => link H h e s)

/-- `link_back`, `linked_list.ii:51-54`. -/
def linkBack (H : Heap) (h e : Nat) : Option Heap := (H.pred h).map (fun p => link H p e h)

/-- `link_after`, `linked_list.ii:56-59`; `pos` is the address the iterator
holds (the head for `end()`). -/
def linkAfter (H : Heap) (pos e : Nat) : Option Heap := (H.succ pos).map (fun s => link H pos e s)

/-- `link_before`, `linked_list.ii:61-64`. -/
def linkBefore (H : Heap) (pos e : Nat) : Option Heap := (H.pred pos).map (fun p => link H p e pos)

/-- `unlink`, `linked_list.ii:66-76`; also returns the iterator to the successor. -/
def unlink (H : Heap) (e : Nat) : Option (Heap × Nat) :=
  match H.pred e, H.succ e with
  | some p, some s =>
    some ((((H.setSucc p (some s)).setPred s (some p)).setSucc e none).setPred e none, s)
  | _, _ => none

/-- `is_linked`, `linked_list.ii:31-33`. -/
def isLinked (H : Heap) (e : Nat) : Bool := (H.succ e).isSome

/-- `empty`, `linked_list.ii:78-80`. -/
def empty (H : Heap) (h : Nat) : Bool := H.succ h == some h

/-- Move constructor into a new head at `h'` from the list at `h`,
`linked_list.ii:40-44`: member initialisers, then
`head_.pred_->succ_ = head_.succ_->pred_ = &head_`. -/
def moveCtor (H : Heap) (h' h : Nat) : Option Heap :=
  let p := H.pred h
  let s := H.succ h
  let H1 := (((H.setPred h (some h)).setSucc h (some h)).setPred h' p).setSucc h' s
  match s, p with
  | some s, some p => some ((H1.setPred s (some h')).setSucc p (some h'))
  | _, _ => none

end Hoard.DL
