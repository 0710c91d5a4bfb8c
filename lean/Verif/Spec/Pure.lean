import Verif.Spec.Waiters
/-! # Specification: a resolver that computes a function

The resolver, and everything else that supplies values, agrees with a function `f` from keys to values or errors. -/
namespace Hoard
open Spec
variable {K V E : Type}

/-- What this operation, performed after the history, puts into the cache for a key is what `f` says about that key:
the resolver, whenever it is called, gives the answer of `f` (at once, or when the lookup is completed later), and
the user stores no other value than that of `f`. -/
def ComputesAt (f : K → Res V E) (cfg : Cfg K) (h : Hist K V E) (env : Env V) (o : Op K V E) : Prop :=
  match o with
  | .get _ r => ∀ p ∈ (outAt cfg h env o).calls, r = f p.1
  | .asyncGet _ _ b => ∀ p ∈ (outAt cfg h env o).calls, ∀ r, b = .now r → r = f p.1
  | .tick r b => ∀ p ∈ (outAt cfg h env o).calls,
    (cfg.resolver = .sync → r = f p.1) ∧ (cfg.resolver = .async → ∀ r', b = .now r' → r' = f p.1)
  | .complete tok r => ∀ out ∈ outsOf cfg h, ∀ p ∈ out.calls, p.2 = tok → r = f p.1
  | .emplace k v _ => f k = .ok v
  | .getOrEmplace k v _ => f k = .ok v
  | _ => True

/-- Every operation of the history keeps to `f`. -/
def Computes (f : K → Res V E) (cfg : Cfg K) (h : Hist K V E) : Prop :=
  ∀ h1 env o h2, h = h1 ++ (env, o) :: h2 → ComputesAt f cfg h1 env o

/-- The callback `w` was passed to a get of `k`. -/
def AskedFor (w : Nat) (k : K) (h : Hist K V E) : Prop := ∃ env b, (env, Op.asyncGet k w b) ∈ h

/-- The keys asked for with `get`, in order. -/
def getKeys : Hist K V E → List K
  | [] => []
  | (_, .get k _) :: h => k :: getKeys h
  | _ :: h => getKeys h

/-- What the calls of `get` returned or threw, in order, given what each operation of the history showed. -/
def getRets : Hist K V E → List (Out K V E) → List (Ret V E)
  | (_, .get _ _) :: h, out :: outs => out.ret :: getRets h outs
  | _ :: h, _ :: outs => getRets h outs
  | _, _ => []

/-- The keys are looked up one after the other with `get`; the resolver computes `f`. -/
def getAll (f : K → Res V E) (ks : List (Env V × K)) : Hist K V E := ks.map (fun p => (p.1, .get p.2 (f p.2)))

/-- The keys for which the resolver is called when the keys `ks` are looked up one after the other, and `seen` were looked up before: a key is
computed again unless it was looked up before and had a value (errors are not kept). -/
def callsFor (eqv : K → K → Bool) (f : K → Res V E) (seen : List K) : List K → List (List K)
  | [] => []
  | k :: ks => (match f k with
    | .ok _ => if seen.any (fun a => eqv k a) then [] else [k]
    | .err _ => [k]) :: callsFor eqv f (seen ++ [k]) ks

end Hoard
