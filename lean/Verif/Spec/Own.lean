import Verif.Spec.Reach
/-! Specification for C52: how many objects the cache keeps alive itself. -/
namespace Hoard.Spec
variable {K V E : Type}

/-- The number of entries through which the cache is an owner of an object. -/
def ownedCount (s : St K V E) : Nat :=
  (s.ents.filter (fun e => match e.mapped with | .value _ => true | _ => false)).length

end Hoard.Spec
