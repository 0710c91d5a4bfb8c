import Verif.Spec.Retable
/-!
# Specification: a small cache

What a cache with an age limit and a resolver should be, without hash table, queues and deferred
removal: a list that has, for every key, a value with the time it was written, or the lookup in
flight; and the lookups that are not completed yet, with those who wait for them.
-/
namespace Hoard.Spec
variable {K V E : Type}

/-- What is known of a key. -/
inductive Slot (V : Type) where
  | value (v : V) (written : Time)
  | lookup (tok : Nat)

/-- The small cache. -/
structure Ref (K V : Type) where
  /-- at most one for each key -/
  slots : List (K × Slot V) := []
  /-- the lookups that can still be completed, with those who wait, in order -/
  opens : List (Nat × List Nat) := []
  /-- those whose resolver dropped the lookup while it was being called -/
  strays : List Nat := []
  /-- number of the next lookup or value -/
  next : Nat := 0
  destroyed : Bool := false

namespace Ref

/-- The slot of a key. -/
def find (eqv : K → K → Bool) (R : Ref K V) (k : K) : Option (Slot V) := (R.slots.find? (fun p => eqv p.1 k)).map (·.2)

/-- The key is removed. -/
def remove (eqv : K → K → Bool) (R : Ref K V) (k : K) : Ref K V := { R with slots := R.slots.filter (fun p => !eqv p.1 k) }

/-- The slot of the key is replaced. -/
def put (eqv : K → K → Bool) (R : Ref K V) (k : K) (x : Slot V) : Ref K V := { R with slots := (k, x) :: (R.remove eqv k).slots }

/-- The result of a lookup or of a computation: a value is stored, an error is not. -/
def store (eqv : K → K → Bool) (now : Time) (R : Ref K V) (k : K) : Res V E → Ref K V
  | .ok v => R.put eqv k (.value v now)
  | .err _ => R.remove eqv k

/-- The lookup is over; if it is still the one of a key, that key gets the value, or is removed. -/
def settle (R : Ref K V) (tok : Nat) (x : Option (Slot V)) : Ref K V :=
  { R with
    slots := R.slots.filterMap (fun p => match p.2 with
      | .lookup t => if t = tok then x.map (fun y => (p.1, y)) else some p
      | _ => some p)
    opens := R.opens.filter (fun p => p.1 != tok) }

/-- Somebody waits for a lookup. -/
def join (R : Ref K V) (tok : Nat) (w : Nat) : Ref K V :=
  { R with opens := R.opens.map (fun p => if p.1 = tok then (p.1, p.2 ++ [w]) else p) }

/-- Those who wait for a lookup, if it can still be completed. -/
def waiting (R : Ref K V) (tok : Nat) : Option (List Nat) := (R.opens.find? (fun p => p.1 == tok)).map (·.2)

end Ref

/-- The value is not too old. -/
def isYoung (cfg : Cfg K) (now written : Time) : Bool :=
  match cfg.maxAge with
  | none => true
  | some a => decide (now.steady < written.steady + a) && (!cfg.wall || decide (now.wall < written.wall + a))

/-- What a `get` finds. -/
inductive Found (V : Type) where
  | value (v : V)
  | lookup (tok : Nat)
  | nothing

/-- A slot counts unless it has a value that is too old. -/
def Slot.found (cfg : Cfg K) (now : Time) : Option (Slot V) → Found V
  | some (.value v t) => if isYoung cfg now t then .value v else .nothing
  | some (.lookup t) => .lookup t
  | none => .nothing

def Found.isSome : Found V → Bool
  | .nothing => false
  | _ => true

/-- One call on the small cache.  Only the configured age limit, its clock, equality of keys and the
kind of resolver matter.  Not for caches that refresh. -/
def refStep (cfg : Cfg K) (now : Time) (R : Ref K V) : Op K V E → Ref K V × Out K V E
  | .getIfExists k => match Slot.found cfg now (R.find cfg.eqv k) with
    | .value v => (R, { ret := .val v })
    | _ => (R, { ret := .miss })
  | .get k r => match Slot.found cfg now (R.find cfg.eqv k) with
    | .value v => (R, { ret := .val v })
    | _ =>
      if cfg.resolver = .sync then
        ({ R.store cfg.eqv now k r with next := R.next + 1 }, { ret := resRet r, calls := [(k, R.next)] })
      else (R, { ret := .miss })
  | .asyncGet k w b => match Slot.found cfg now (R.find cfg.eqv k) with
    | .value v => (R, { fired := [(w, .ok v)] })
    | .lookup tok => (R.join tok w, {})
    | .nothing => match b with
      | .later => ({ R.put cfg.eqv k (.lookup R.next) with opens := R.opens ++ [(R.next, [w])], next := R.next + 1 }, { calls := [(k, R.next)] })
      | .now r => ({ R.store cfg.eqv now k r with next := R.next + 1 }, { fired := [(w, r)], calls := [(k, R.next)] })
      | .drop => ({ R.remove cfg.eqv k with strays := R.strays ++ [w], next := R.next + 1 }, { calls := [(k, R.next)] })
  | .emplace k v f =>
    if f matches .none then ({ R.put cfg.eqv k (.value v now) with next := R.next + 1 }, { made := true })
    else (R.remove cfg.eqv k, { ret := .throws })
  | .getOrEmplace k v f => match Slot.found cfg now (R.find cfg.eqv k) with
    | .value u => (R, { ret := .val u })
    | .lookup _ => (R, { ret := .throws })
    | .nothing =>
      if f matches .none then ({ R.put cfg.eqv k (.value v now) with next := R.next + 1 }, { ret := .val v, made := true })
      else (R, { ret := .throws })
  | .erase k => (R.remove cfg.eqv k, {})
  | .clear => ({ R with slots := [] }, {})
  | .count => (R, { ret := .num (R.slots.filter (fun p => (Slot.found cfg now (some p.2)).isSome)).length })
  | .complete tok r => match R.waiting tok with
    | none => (R, { ret := .bool false })
    | some ws =>
      if R.destroyed then (R.settle tok none, { ret := .bool false })
      else (R.settle tok ((value? r).map (fun v => .value v now)), { ret := .bool true, fired := ws.map (fun w => (w, r)) })
  | .drop tok => match R.waiting tok with
    | none => (R, { ret := .bool false })
    | some ws => (R.settle tok none, { ret := .bool true, broken := ws })
  | .tick _ _ => (R, {})
  | .destroy =>
    ({ R with slots := [], opens := R.opens.map (fun p => (p.1, [])), strays := [], destroyed := true },
      { broken := R.opens.flatMap (·.2) ++ R.strays })

/-- What is seen of a history on the small cache. -/
def refOuts (cfg : Cfg K) : Ref K V → Hist K V E → List (Out K V E)
  | _, [] => []
  | R, (env, o) :: h => (refStep cfg env.now R o).2 :: refOuts cfg (refStep cfg env.now R o).1 h

end Hoard.Spec
