/-!
# Specification of the recency order

Independent of the model.  The recency order is a plain list, most recently
used first.  A new entry enters in the middle, a hit moves to the front,
removal removes.  An entry is *hot* when it is in the first half (rounded
down).  Evicting `n` entries takes them from the back and never touches a hot
one.
-/
namespace Hoard.Spec

/-- Events the recency order reacts to. -/
inductive QOp where
  | create (v : Nat)
  | hit (v : Nat)
  | unlink (v : Nat)

/-- The events that can happen: only new entries are created, only present
ones hit or removed. -/
def QOp.ok (l : List Nat) : QOp → Prop
  | .create v => v ∉ l
  | .hit v => v ∈ l
  | .unlink v => v ∈ l

/-- Effect on the recency order. -/
def recency (l : List Nat) : QOp → List Nat
  | .create v => l.take ((l.length + 1) / 2) ++ v :: l.drop ((l.length + 1) / 2)
  | .hit v => v :: l.erase v
  | .unlink v => l.erase v

/-- Every event of the sequence is possible when it happens. -/
def QOk : List Nat → List QOp → Prop
  | _, [] => True
  | l, o :: os => o.ok l ∧ QOk (recency l o) os

/-- First half, rounded down. -/
def hotPart (l : List Nat) : List Nat := l.take (l.length / 2)

/-- The entries to evict when asked for `n`: from the back, sparing the hot part. -/
def evict (l : List Nat) (n : Nat) : List Nat := (l.drop (l.length / 2)).reverse.take n

end Hoard.Spec
