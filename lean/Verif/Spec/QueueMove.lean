import Verif.QueueMove
import Verif.Spec.QueueOrder
/-!
# What a queue that is moved around is meant to hold

Moving changes where the queue is and nothing else.
-/
namespace Hoard.QMove

/-- The sequence after one call. -/
def Call.apply (l : List Nat) : Call → List Nat
  | .event e => e.apply l
  | .move _ => l

/-- The places where queues are or have been, after one call. -/
def Call.places (hs : List Nat) : Call → List Nat
  | .event _ => hs
  | .move to => to :: hs

/-- A call is legal: events are (see `PQ.Event.ok`) and a new entry is not where a queue is; a queue is moved to
a place where there is neither a queue nor one of its entries. -/
def Call.ok (hs l : List Nat) : Call → Prop
  | .event (.create i) => i ∉ l ∧ i ∉ hs
  | .event e => e.ok l
  | .move to => to ∉ hs ∧ to ∉ l

/-- Each call is legal when it is made, and no empty queue is moved. -/
def CallsOk : List Nat → List Nat → List Call → Prop
  | _, _, [] => True
  | hs, l, c :: cs => c.ok hs l ∧ (∀ to, c = .move to → l ≠ []) ∧ CallsOk (c.places hs) (c.apply l) cs

/-- The sequence after all calls. -/
def order (cs : List Call) : List Nat := cs.foldl Call.apply []

end Hoard.QMove
