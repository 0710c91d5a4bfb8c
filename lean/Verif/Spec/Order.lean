import Verif.Order
/-! # Specification: what happens before what

As in the C++ standard ([intro.races]), for executions of `Verif.Order`. -/
namespace Hoard.Spec
open Order

/-- Positions `i` and `j` of an execution are directly ordered: actions of the same thread, in turn; an `unlock` and a later `lock`; and, if decrements
acquire, two decrements.  (They always release.  Every change of the counter is a read-modify-write, so a decrement that acquires synchronises with
all decrements before.) -/
def Edge (acq : Bool) (tr : List Ev) (i j : Nat) : Prop :=
  i < j ∧ ∃ a b, tr[i]? = some a ∧ tr[j]? = some b ∧
    (a.thr = b.thr ∨ (a.act = .unlock ∧ b.act = .lock) ∨ (acq = true ∧ a.act = .dec ∧ b.act = .dec))

/-- `i` happens before `j`. -/
inductive HB (acq : Bool) (tr : List Ev) : Nat → Nat → Prop where
  | one {i j : Nat} : Edge acq tr i j → HB acq tr i j
  | more {i j k : Nat} : HB acq tr i j → Edge acq tr j k → HB acq tr i k

/-- The action at position `i` is made by the owner of the lock. -/
def LockedAt (tr : List Ev) (i : Nat) : Prop := ∃ s e, exec start (tr.take i) = some s ∧ tr[i]? = some e ∧ s.owner = some e.thr

/-- The action at position `d` destroys the object: it is the destruction of a pointer, the object is there before it and is not after it. -/
def DestroysAt (tr : List Ev) (d : Nat) : Prop := ∃ s s' t, exec start (tr.take d) = some s ∧ s.dead = false ∧ tr[d]? = some ⟨t, .dec⟩ ∧
  next s ⟨t, .dec⟩ = some s' ∧ s'.dead = true

/-- The action at position `i` reads or writes the object. -/
def UsesAt (tr : List Ev) (i : Nat) : Prop := ∃ t, tr[i]? = some ⟨t, .use⟩

end Hoard.Spec
