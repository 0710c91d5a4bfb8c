import Verif.Executors
import Verif.Spec.Waiters
/-! # Specification: the operations among events of executors, and what is queued -/
namespace Hoard.Spec
open Executors
variable {K V E X : Type}

/-- The operations among the events. -/
def opsOf : List (XEv K V E X) → Hist K V E
  | [] => []
  | .op _ env o :: es => (env, o) :: opsOf es
  | .run _ :: es => opsOf es

def asHandler : Job K V E → Option (Nat × Res V E)
  | .handler w r => some (w, r)
  | .call _ _ => none

def asCall : Job K V E → Option (K × Nat)
  | .call k t => some (k, t)
  | .handler _ _ => none

/-- The handlers in a queue, with their results. -/
def handlersIn (q : List (Job K V E)) : List (Nat × Res V E) := q.filterMap asHandler

/-- The calls of the resolver in a queue. -/
def callsIn (q : List (Job K V E)) : List (K × Nat) := q.filterMap asCall

end Hoard.Spec
