import Verif.Spec.Reach
/-! # Specification: who asked, and who was answered

Read off the operations and their visible results. -/
namespace Hoard.Spec
variable {K V E : Type}

/-- The callbacks (numbered by the caller) passed to asynchronous gets. -/
def asked : Hist K V E → List Nat
  | [] => []
  | (_, .asyncGet _ w _) :: h => w :: asked h
  | _ :: h => asked h

/-- The callbacks invoked, in order. -/
def answeredW (outs : List (Out K V E)) : List Nat := (outs.flatMap (·.fired)).map (·.1)

/-- The callbacks dropped without being invoked (their futures report a broken promise), in order. -/
def brokenW (outs : List (Out K V E)) : List Nat := outs.flatMap (·.broken)

end Hoard.Spec

namespace Hoard
open Spec
variable {K V E : Type}

/-- What the operations of a history showed. -/
def outsOf (cfg : Cfg K) (h : Hist K V E) : List (Out K V E) := (run cfg St.init h).2

/-- The callback `w` was registered by a get of `k` that did not get an answer
right away: it waits for the lookup `tok`, which this get started, or which was the lookup in flight of `k`. -/
def Registers (cfg : Cfg K) (w : Nat) (tok : Nat) (h : Hist K V E) (env : Env V) (o : Op K V E) : Prop :=
  ∃ k b, o = .asyncGet k w b ∧ (outAt cfg h env o).fired = [] ∧
    ((outAt cfg h env o).calls = [(k, tok)] ∨ (outAt cfg h env o).calls = [] ∧ (ledgerAfter cfg h).valid k = some tok)

/-- The handle of lookup `tok` was given to the resolver in the history. -/
def Given (cfg : Cfg K) (tok : Nat) (h : Hist K V E) : Prop := ∃ out ∈ outsOf cfg h, ∃ k, (k, tok) ∈ out.calls

end Hoard
