import Verif.Spec.Waiters
/-! # Specification: the errors with which resolvers answer in a history -/
namespace Hoard.Spec
variable {K V E : Type}

def resErrs : Res V E → List E
  | .ok _ => []
  | .err e => [e]

def behErrs : Beh V E → List E
  | .now r => resErrs r
  | _ => []

/-- The errors that the resolver throws, or that are delivered on a handle, in an operation. -/
def opErrs : Op K V E → List E
  | .get _ r => resErrs r
  | .asyncGet _ _ b => behErrs b
  | .complete _ r => resErrs r
  | .tick r b => resErrs r ++ behErrs b
  | _ => []

/-- All of them, in a history. -/
def errorsIn (h : Hist K V E) : List E := h.flatMap (fun p => opErrs p.2)

end Hoard.Spec
