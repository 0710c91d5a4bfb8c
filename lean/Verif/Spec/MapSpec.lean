import Verif.Cache
/-!
# Specification: a plain map, optionally filled by a function

What a cache without limits should be: a finite map from keys to values.  With a
synchronous resolver it is a memo table: a missing value is computed and kept,
an error is handed to the caller and forgotten.
-/
namespace Hoard.Spec
variable {K V E : Type}

/-- Calls on the map.  `r` is what the resolver would return for the key now. -/
inductive MapOp (K V E : Type) where
  | emplace (k : K) (v : V)
  | get (k : K) (r : Res V E)
  | getIfExists (k : K)
  | getOrEmplace (k : K) (v : V)
  | erase (k : K)
  | clear

/-- The map with one key changed. -/
def setAt (eqv : K → K → Bool) (m : K → Option V) (k : K) (v : Option V) : K → Option V :=
  fun a => if eqv a k then v else m a

/-- Return value for an optional value. -/
def found : Option V → Ret V E
  | some v => .val v
  | none => .miss

/-- One call on the map; `memo`: there is a resolver. -/
def mapStep (eqv : K → K → Bool) (memo : Bool) (m : K → Option V) : MapOp K V E → (K → Option V) × Ret V E
  | .emplace k v => (setAt eqv m k (some v), .unit)
  | .getIfExists k => (m, found (m k))
  | .get k r =>
    match m k, memo, r with
    | some v, _, _ => (m, .val v)
    | none, false, _ => (m, .miss)
    | none, true, .ok v => (setAt eqv m k (some v), .val v)
    | none, true, .err e => (m, .err e)
  | .getOrEmplace k v =>
    match m k with
    | some u => (m, .val u)
    | none => (setAt eqv m k (some v), .val v)
  | .erase k => (setAt eqv m k none, .unit)
  | .clear => (fun _ => none, .unit)

/-- The return values of a sequence of calls. -/
def mapRun (eqv : K → K → Bool) (memo : Bool) : (K → Option V) → List (MapOp K V E) → List (Ret V E)
  | _, [] => []
  | m, o :: os => (mapStep eqv memo m o).2 :: mapRun eqv memo (mapStep eqv memo m o).1 os

/-- The same call on the cache. -/
def MapOp.toOp : MapOp K V E → Op K V E
  | .emplace k v => .emplace k v .none
  | .get k r => .get k r
  | .getIfExists k => .getIfExists k
  | .getOrEmplace k v => .getOrEmplace k v .none
  | .erase k => .erase k
  | .clear => .clear

/-- What is visible of a call, except for the token of a lookup. -/
def visible (o : Out K V E) : Ret V E × Bool × List K := (o.ret, o.made, o.calls.map (·.1))

/-- The call names a key equal to `a`, or removes everything. -/
def about (eqv : K → K → Bool) (a : K) : MapOp K V E → Bool
  | .emplace k _ | .get k _ | .getIfExists k | .getOrEmplace k _ | .erase k => eqv a k
  | .clear => true

/-- The outputs of the calls about `a`. -/
def outsAbout (eqv : K → K → Bool) (a : K) (os : List (Env V × MapOp K V E)) (outs : List (Out K V E)) : List (Ret V E × Bool × List K) :=
  ((os.zip outs).filter (fun p => about eqv a p.1.2)).map (fun p => visible p.2)

end Hoard.Spec
