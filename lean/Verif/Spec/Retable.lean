import Verif.Spec.Waiters
/-! # Specification: another hash table for the same cache -/
namespace Hoard.Spec
variable {K V E : Type}

/-- The same cache with another hash function, another load factor and another maximal number of buckets. -/
def _root_.Hoard.Cfg.retable (cfg : Cfg K) (hash : K → Nat) (over : Nat → Nat → Bool) (maxBuckets : Nat) : Cfg K :=
  { cfg with hash := hash, over := over, maxBuckets := maxBuckets }

/-- The allocation of a new bucket array fails, if the call happens to need one. -/
def growFails : Op K V E → Bool
  | .emplace _ _ .grow | .getOrEmplace _ _ .grow => true
  | _ => false

/-- It is a round of the refresh worker. -/
def isTick : Op K V E → Bool
  | .tick _ _ => true
  | _ => false

/-- Two outputs tell the same, except that callbacks may be dropped in another order. -/
structure SameOut (a b : Out K V E) : Prop where
  ret : a.ret = b.ret
  fired : a.fired = b.fired
  broken : a.broken.Perm b.broken
  calls : a.calls = b.calls
  made : a.made = b.made

/-- The same for all outputs of a history. -/
def SameOuts : List (Out K V E) → List (Out K V E) → Prop
  | [], [] => True
  | a :: as, b :: bs => SameOut a b ∧ SameOuts as bs
  | _, _ => False

/-- Evicted entries are not kept as weak pointers. -/
def _root_.Hoard.Cfg.NoWeak (cfg : Cfg K) : Prop := cfg.weaken = false ∨ cfg.ptr = false ∨ cfg.maxSize = none

end Hoard.Spec
