import Verif.Spec.Lru
/-! # Specification: calls that only fill the cache -/
namespace Hoard.Spec
variable {K V E : Type}

/-- The call removes nothing, and if it has to ask the resolver then the resolver succeeds. -/
def fills : MapOp K V E → Bool
  | .emplace _ _ | .getOrEmplace _ _ | .getIfExists _ | .get _ (.ok _) => true
  | .get _ (.err _) | .erase _ | .clear => false

/-- The key for which there is a value after the call, were there no limits; `memo`: there is a resolver. -/
def stores (memo : Bool) : MapOp K V E → Option K
  | .emplace k _ | .getOrEmplace k _ => some k
  | .get k _ => if memo then some k else none
  | .getIfExists _ | .erase _ | .clear => none

end Hoard.Spec
