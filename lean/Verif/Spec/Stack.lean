import Verif.Spec.Linear
import Verif.Spec.Reference
import Verif.Machine
/-! # Specification: the cache with pointers and threads, and the small cache -/
namespace Hoard.Spec
open Threads
variable {K V E : Type}

/-- The calls of a program that fits the configuration: no blocking `get` with an asynchronous resolver, and the reverse; no destructor; no
worker; no bucket array is missing. -/
def Call (cfg : Cfg K) : Op K V E → Prop
  | .get _ _ => cfg.resolver ≠ .async
  | .asyncGet _ _ _ => cfg.resolver = .async
  | .tick _ _ | .destroy => False
  | .emplace _ _ f | .getOrEmplace _ _ f => f ≠ .grow
  | _ => True

/-- The cache with pointers, one call after the other.  `none`: something undefined has happened. -/
def pointerSeq (cfg : Cfg K) (env : Env V) (p : Option (PSt K V E)) (o : {o : Op K V E // Call cfg o}) : Option (PSt K V E) × Option (Out K V E) :=
  match p.bind (fun p => p.step cfg env o.1) with
  | some (p', out) => (some p', some out)
  | none => (none, none)

/-- The small cache, one call after the other. -/
def smallSeq (cfg : Cfg K) (env : Env V) (R : Ref K V) (o : {o : Op K V E // Call cfg o}) : Ref K V × Option (Out K V E) :=
  ((refStep cfg env.now R o.1).1, some (refStep cfg env.now R o.1).2)

end Hoard.Spec
