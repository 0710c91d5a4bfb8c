import Verif.DList
/-!
# What it means that a pointer structure represents a sequence

`Represents H h l`: starting at the head `h`, following `succ_` visits the
elements of `l` in order and returns to `h`; `pred_` is the exact inverse; and
no address occurs twice.
-/
namespace Hoard.DL

/-- Both link directions are consistent along `a, l, b`. -/
def Seg (H : Heap) : Nat → List Nat → Nat → Prop
  | a, [], b => H.succ a = some b ∧ H.pred b = some a
  | a, x :: xs, b => H.succ a = some x ∧ H.pred x = some a ∧ Seg H x xs b

/-- The list with head `h` represents the sequence `l`. -/
def Represents (H : Heap) (h : Nat) (l : List Nat) : Prop := Seg H h l h ∧ (h :: l).Nodup

end Hoard.DL

namespace Hoard.DL

/-- Calls a user of the list class can make; `h` names the list. -/
inductive LOp where
  | front (h e : Nat)
  | back (h e : Nat)
  /-- insert `e` after the element `pos` of list `h` -/
  | after (h pos e : Nat)
  /-- insert `e` before the element `pos` of list `h` -/
  | before (h pos e : Nat)
  | unlink (h e : Nat)

/-- Abstract state: the sequence held by each list. -/
abbrev Seqs := Nat → List Nat

/-- Replace the sequence of one list. -/
def Seqs.set (A : Seqs) (h : Nat) (l : List Nat) : Seqs := fun x => if x = h then l else A x

/-- Position of an element in a sequence, splitting it. -/
def insertAt (l : List Nat) (i : Nat) (e : Nat) : List Nat := l.take i ++ e :: l.drop i

/-- Effect of a call on the sequences. -/
def LOp.apply (A : Seqs) : LOp → Seqs
  | .front h e => A.set h (e :: A h)
  | .back h e => A.set h (A h ++ [e])
  | .after h pos e => A.set h (insertAt (A h) ((A h).idxOf pos + 1) e)
  | .before h pos e => A.set h (insertAt (A h) ((A h).idxOf pos) e)
  | .unlink h e => A.set h ((A h).erase e)

/-- `e` is neither a list head nor in any list. -/
def Free (hs : List Nat) (A : Seqs) (e : Nat) : Prop := e ∉ hs ∧ ∀ h ∈ hs, e ∉ A h

/-- Documented preconditions: lists exist, inserted elements are not linked,
positions and removed elements are in the list. -/
def LOp.ok (hs : List Nat) (A : Seqs) : LOp → Prop
  | .front h e => h ∈ hs ∧ Free hs A e
  | .back h e => h ∈ hs ∧ Free hs A e
  | .after h pos e => h ∈ hs ∧ Free hs A e ∧ pos ∈ A h
  | .before h pos e => h ∈ hs ∧ Free hs A e ∧ pos ∈ A h
  | .unlink h e => h ∈ hs ∧ e ∈ A h

/-- All calls of the sequence are legal when made. -/
def LOk (hs : List Nat) : Seqs → List LOp → Prop
  | _, [] => True
  | A, o :: os => o.ok hs A ∧ LOk hs (o.apply A) os

end Hoard.DL
