import Verif.Events
/-!
# Specification for C113 to C115

What a policy can note from the calls alone.
-/
namespace Hoard.Events

/-- What a policy has noted: the entries that were ever created, those that were not unlinked yet, those that were assigned, those of them that got a value, and the last call. -/
structure Book where
  ever : List Nat := []
  there : List Nat := []
  given : List Nat := []
  valued : List Nat := []
  last : Option Ev := none

/-- Does the call make sense to it?  An entry is created once.  It is assigned at most once, hit and unlinked only while it is there.  An assignment that
does not come from a callback follows at once on the creation. -/
def Book.sensible (b : Book) : Ev → Prop
  | .create i => i ∉ b.ever
  | .assign i _ callback => i ∈ b.there ∧ i ∉ b.given ∧ (callback = false → b.last = some (.create i))
  | .hit i => i ∈ b.there
  | .miss => True
  | .unlink i => i ∈ b.there

/-- The policy notes a call. -/
def Book.note (b : Book) (e : Ev) : Book :=
  match e with
  | .create i => { b with ever := i :: b.ever, there := i :: b.there, last := some e }
  | .assign i value _ => { b with given := i :: b.given, valued := if value then i :: b.valued else b.valued, last := some e }
  | .hit _ => { b with last := some e }
  | .miss => { b with last := some e }
  | .unlink i => { b with there := b.there.erase i, last := some e }

/-- It notes all calls. -/
def Book.notes (b : Book) (es : List Ev) : Book := es.foldl Book.note b

/-- All calls make sense when they are made. -/
def Book.accepts : Book → List Ev → Prop
  | _, [] => True
  | b, e :: es => b.sensible e ∧ (b.note e).accepts es

/-- Calls that report a lookup. -/
def Ev.isLookup : Ev → Bool
  | .hit _ | .miss => true
  | _ => false

end Hoard.Events

namespace Hoard.Events
variable {K V E : Type}

/-- What the recency queue (`Verif.Queue`, a model of its own of queue.ii) does when it is told of a call. -/
def follow (q : BQ) : Ev → BQ
  | .create i => (q.onCreate i).1
  | .hit i => q.onHit i
  | .unlink i => q.onUnlink i
  | _ => q

/-- The recency queue of a policy that follows all calls. -/
def recency (q : BQ) (es : List Ev) : BQ := es.foldl follow q

/-- What the queue of the refresh policy does when it is told of a call: entries that get values go to its end, unlinked ones leave it. -/
def due (q : List Nat) : Ev → List Nat
  | .assign i true _ => q ++ [i]
  | .unlink i => q.erase i
  | _ => q

/-- The queue of a refresh policy that follows all calls. -/
def dues (q : List Nat) (es : List Ev) : List Nat := es.foldl due q

/-- The refresh worker takes the first entry off that queue, if it is due. -/
def popped (env : Env V) (s : St K V E) : Op K V E → St K V E
  | .tick _ _ =>
    match s.delayQ with
    | [] => s
    | i :: q =>
      match s.find i with
      | none => s
      | some e => if reached env.now e.refTp then { s with delayQ := q } else s
  | _ => s

end Hoard.Events

namespace Hoard.Events

/-- The weaker demand of C114: an entry may also be assigned a value when it is no longer there, but it was created, and is assigned at most once; an assignment
of an error still finds it there, and one that does not come from a callback still follows at once on the creation. -/
def Book.bearable (b : Book) : Ev → Prop
  | .assign i value callback => i ∈ b.ever ∧ (value = false → i ∈ b.there) ∧ i ∉ b.given ∧ (callback = false → b.last = some (.create i))
  | e => b.sensible e

/-- All calls meet the weaker demand when they are made. -/
def Book.bears : Book → List Ev → Prop
  | _, [] => True
  | b, e :: es => b.bearable e ∧ (b.note e).bears es

/-- Policies were told that the entry got a value, and never that it got none. -/
def Announced (evs : List Ev) (i : Nat) : Prop := (∃ callback, .assign i true callback ∈ evs) ∧ ∀ callback, .assign i false callback ∉ evs

/-- The result that an operation may bring into the cache, and whether a callback object brings it: the value given, the answer of a synchronous resolver, the result
that an asynchronous one has at once, the result of a completion. -/
def brings {K V E : Type} (async : Bool) : Op K V E → Option (Res V E × Bool)
  | .emplace _ v _ | .getOrEmplace _ v _ => some (.ok v, false)
  | .get _ r => some (r, false)
  | .asyncGet _ _ (.now r) | .complete _ r => some (r, true)
  | .tick r b => if async then (match b with
    | .now r => some (r, true)
    | _ => none) else some (r, false)
  | _ => none

/-- The flags of an assignment fit a result: the first says whether it is a value, the second whether a callback object brought it. -/
def Fits {V E : Type} (value callback : Bool) (x : Res V E × Bool) : Prop := (value = true ↔ ∃ v, x.1 = .ok v) ∧ callback = x.2

end Hoard.Events
