import Verif.Objects
/-!
# Specification: what one cache, of several, went through
-/
namespace Hoard.Spec
open Hoard.Objects Hoard.Construct
variable {K V E τ α : Type}

/-- What happened on table `t`. -/
def historyOf (w : World K V E) (t : Nat) : Hist K V E := (w.log.filter (fun e => e.table = t)).map (fun e => (e.env, e.op))

/-- How it turned out. -/
def outcomesOf (w : World K V E) (t : Nat) : List (Out K V E) := (w.log.filter (fun e => e.table = t)).map (·.out)

/-- The command gives the variable `x` another meaning. -/
def Touches (x : Nat) : Cmd K V E τ α → Prop
  | .build y _ => y = x
  | .make how y z => y = x ∨ (how = .move ∧ z = x)
  | .assign y _ => y = x
  | .moveAssign y z => y = x ∨ z = x
  | .destroy y => y = x
  | .call _ _ => False
  | .other _ _ => False

end Hoard.Spec
