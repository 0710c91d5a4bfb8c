import Verif.QueueCheck
/-!
# What the recency queue is meant to hold

The queue is a sequence of entries.  A new entry goes to the middle, an entry
that is hit goes to the front.  The first half (rounded down) is hot.
-/
namespace Hoard.PQ

/-- The sequence after one event. -/
def Event.apply (l : List Nat) : Event → List Nat
  | .create i => l.take ((l.length + 1) / 2) ++ i :: l.drop ((l.length + 1) / 2)
  | .hit i => i :: l.erase i
  | .unlink i => l.erase i

/-- Only entries that are not in the queue are added, and only entries that are in
the queue are hit or removed. -/
def Event.ok (l : List Nat) : Event → Prop
  | .create i => i ∉ l
  | .hit i => i ∈ l
  | .unlink i => i ∈ l

/-- Each event is legal when it is sent. -/
def EventsOk : List Nat → List Event → Prop
  | _, [] => True
  | l, e :: es => e.ok l ∧ EventsOk (e.apply l) es

/-- The sequence after all events. -/
def order (es : List Event) : List Nat := es.foldl Event.apply []

end Hoard.PQ
