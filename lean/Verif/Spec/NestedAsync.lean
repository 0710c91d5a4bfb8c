import Verif.NestedAsync
import Verif.Spec.Waiters
/-! # Specification: asynchronous resolvers that use the cache

What a history of nested calls amounts to if the functors returned at once and everything they do were done just afterwards: a history of plain
operations (`Verif.Cache`). -/
namespace Hoard.NestedAsync
open Spec
variable {K V E : Type}

/-- The operation a step counts as.  A call of `async_get` counts where it begins. -/
def flatOf : Env V × Ev K V E → Hist K V E
  | (env, .op o) => [(env, o)]
  | (env, .get k w) => [(env, .asyncGet k w .later)]
  | _ => []

/-- The plain history that a history of nested calls counts as. -/
def flat (h : NHist K V E) : Hist K V E := h.flatMap flatOf

/-- What the callers and the functor see of an operation, apart from callbacks: what is returned, the calls of the functor, and whether a value was made from the
arguments. -/
structure Seen (K V E : Type) where
  ret : Ret V E
  calls : List (K × Nat)
  made : Bool

/-- What is seen of a plain operation. -/
def seen (o : Out K V E) : Seen K V E := ⟨o.ret, o.calls, o.made⟩

/-- What is seen of a step; the end of a functor is not seen. -/
def seenOf : Ev K V E → Ans K V E → List (Seen K V E)
  | .op _, .out o => [seen o]
  | .get _ _, .out o => [seen o]
  | .get _ _, .called k tok => [⟨.unit, [(k, tok)], false⟩]
  | _, _ => []

/-- What is seen of a history of nested calls. -/
def seenN : NHist K V E → List (Ans K V E) → List (Seen K V E)
  | (_, e) :: h, a :: as => seenOf e a ++ seenN h as
  | _, _ => []

/-- The callbacks passed to `async_get`. -/
def askedN (h : NHist K V E) : List Nat := h.flatMap (fun
  | (_, .get _ w) => [w]
  | _ => [])

/-- The callbacks invoked, with what they are invoked, in order. -/
def answeredN (as : List (Ans K V E)) : List (Nat × Res V E) := as.flatMap (fun
  | .out o => o.fired
  | _ => [])

/-- The callbacks destroyed without being invoked. -/
def brokenN (as : List (Ans K V E)) : List Nat := as.flatMap (fun
  | .out o => o.broken
  | _ => [])

/-- The state after a history of nested calls on a new cache. -/
def endN (cfg : Cfg K) (h : NHist K V E) : NSt K V E := (runN cfg {} h).1

/-- The answer to a step after a history of nested calls on a new cache. -/
def ansAt (cfg : Cfg K) (h : NHist K V E) (env : Env V) (e : Ev K V E) : Ans K V E := (next cfg env (endN cfg h) e).2

/-- Some step of the history completed the lookup `tok` with `r` (and was not ignored). -/
def CompletedBy (cfg : Cfg K) (h : NHist K V E) (tok : Nat) (r : Res V E) : Prop :=
  ∃ h1 env h2 o, h = h1 ++ (env, .op (.complete tok r)) :: h2 ∧ ansAt cfg h1 env (.op (.complete tok r)) = .out o ∧ o.ret = .bool true

/-- The callback `w` waits for the lookup `tok`: some step of the history asked with it, and either called the functor for the lookup `tok`, or found
that lookup in flight for its key. -/
def WaitsFor (cfg : Cfg K) (h : NHist K V E) (w tok : Nat) : Prop :=
  ∃ h1 env k h2, h = h1 ++ (env, .get k w) :: h2 ∧
    (ansAt cfg h1 env (.get k w) = .called k tok ∨
     (ansAt cfg h1 env (.get k w) = .out {} ∧ (ledgerAfter cfg (flat h1)).valid k = some tok))

end Hoard.NestedAsync
