import Verif.Cache
/-!
# Specification: what has been written

Independent of how the cache stores anything.  A ledger is kept by looking only
at the operations performed, at the clock, and at the visible results.  For
every key it records the value written last (if it was not removed since), when
it was written and last used, and the lookup in flight whose result will count
as a write when it arrives.
-/
namespace Hoard.Spec
variable {K V E : Type}

/-- The ledger. -/
structure Ledger (K V : Type) where
  /-- the value of a key according to the writes and removals so far -/
  cur : K → Option V := fun _ => none
  /-- when the key was last written, on both clocks -/
  time : K → Time := fun _ => ⟨0, 0⟩
  /-- when the key was last written or read by the user (refreshes do not count) -/
  used : K → Int := fun _ => 0
  /-- since its last write, the key was asked for in vain -/
  gone : K → Bool := fun _ => false
  /-- the lookup in flight of a key, unless the key was written or removed since
  it was started -/
  valid : K → Option Nat := fun _ => none
  /-- who waits for a lookup, in order -/
  wait : Nat → List Nat := fun _ => []
  /-- the lookup is a refresh of a stored value -/
  refr : Nat → Bool := fun _ => false
  /-- since its last write, a refresh of the key was started -/
  tried : K → Bool := fun _ => false

/-- The value a resolver result stands for. -/
def value? : Res V E → Option V
  | .ok v => some v
  | .err _ => none

/-- What a caller gets when the resolver produced this: the value, or the error. -/
def resRet : Res V E → Ret V E
  | .ok v => .val v
  | .err e => .err e

namespace Ledger

/-- A write (`some v`) or a removal (`none`) of a key.  A lookup in flight no
longer counts.  A refresh (`keep`) does not count as a use. -/
def put (eqv : K → K → Bool) (now : Time) (keep : Bool) (L : Ledger K V) (k : K) (v : Option V) : Ledger K V :=
  { L with
    cur := fun a => if eqv a k then v else L.cur a
    time := fun a => if eqv a k then now else L.time a
    used := fun a => if eqv a k then (if keep then min (L.used a) now else now) else L.used a
    gone := fun a => if eqv a k then false else L.gone a
    valid := fun a => if eqv a k then none else L.valid a
    tried := fun a => if eqv a k then false else L.tried a }

/-- A write or a removal by the user. -/
def write (eqv : K → K → Bool) (now : Time) (L : Ledger K V) (k : K) (v : Option V) : Ledger K V :=
  L.put eqv now false k v

/-- The user reads a stored value. -/
def touch (eqv : K → K → Bool) (now : Time) (L : Ledger K V) (k : K) : Ledger K V :=
  { L with used := fun a => if eqv a k then now else L.used a }

/-- The user asks in vain. -/
def missed (eqv : K → K → Bool) (L : Ledger K V) (k : K) : Ledger K V :=
  { L with gone := fun a => if eqv a k then true else L.gone a }

/-- A lookup is started; `rf`: it is a refresh. -/
def begin (eqv : K → K → Bool) (L : Ledger K V) (k : K) (tok : Nat) (rf : Bool) : Ledger K V :=
  { L with
    valid := fun a => if eqv a k then some tok else L.valid a
    refr := fun t => if t = tok then rf else L.refr t
    tried := fun a => if eqv a k && rf then true else L.tried a }

/-- A lookup delivers: it counts as a write if it is still valid. -/
def finish (now : Time) (L : Ledger K V) (tok : Nat) (v : Option V) : Ledger K V :=
  { L with
    cur := fun a => if L.valid a = some tok then v else L.cur a
    time := fun a => if L.valid a = some tok then now else L.time a
    used := fun a => if L.valid a = some tok then (if L.refr tok then min (L.used a) now else now) else L.used a
    gone := fun a => if L.valid a = some tok then false else L.gone a
    valid := fun a => if L.valid a = some tok then none else L.valid a
    tried := fun a => if L.valid a = some tok then false else L.tried a }

/-- A lookup is given up. -/
def abandon (L : Ledger K V) (tok : Nat) : Ledger K V :=
  { L with valid := fun a => if L.valid a = some tok then none else L.valid a }

/-- A lookup was started and given up at once. -/
def forget (eqv : K → K → Bool) (L : Ledger K V) (k : K) (rf : Bool) : Ledger K V :=
  { L with
    valid := fun a => if eqv a k then none else L.valid a
    tried := fun a => if eqv a k && rf then true else L.tried a }

/-- Somebody waits for a lookup. -/
def join (L : Ledger K V) (tok : Nat) (w : Nat) : Ledger K V :=
  { L with wait := fun t => if t = tok then L.wait t ++ [w] else L.wait t }

/-- A lookup was started and the resolver did `b` with it right away. -/
def lookup (eqv : K → K → Bool) (now : Time) (rf : Bool) (L : Ledger K V) (k : K) (tok : Nat) : Beh V E → Ledger K V
  | .later => L.begin eqv k tok rf
  | .now r => L.put eqv now rf k (value? r)
  | .drop => L.forget eqv k rf

/-- Everything is removed. -/
def wipe (L : Ledger K V) : Ledger K V :=
  { L with cur := fun _ => none, valid := fun _ => none, gone := fun _ => false }

/-- The user got a stored value, or asked in vain. -/
def read (eqv : K → K → Bool) (now : Time) (L : Ledger K V) (k : K) : Ret V E → Ledger K V
  | .val _ => L.touch eqv now k
  | .miss => L.missed eqv k
  | _ => L

/-- The ledger after an operation at time `now` with the given visible outcome. -/
def after (eqv : K → K → Bool) (kind : Kind) (now : Time) (L : Ledger K V) (o : Op K V E) (out : Out K V E) : Ledger K V :=
  match o with
  | .getIfExists k => match out.ret with
    | .miss => L.missed eqv k
    | _ => L
  | .get k r => match out.calls with
    | [] => L.read eqv now k out.ret
    | _ :: _ => L.write eqv now k (value? r)
  | .asyncGet k w b =>
    match out.calls with
    | [] => match out.fired with
      | [] => match L.valid k with
        | some tok => L.join tok w
        | none => L
      | _ :: _ => L.touch eqv now k
    | (_, tok) :: _ => match out.fired with
      | [] => (L.lookup eqv now false k tok b).join tok w
      | _ :: _ => L.lookup eqv now false k tok b
  | .emplace k v _ => L.write eqv now k (if out.made then some v else none)
  | .getOrEmplace k v _ =>
    if out.made then L.write eqv now k (some v)
    else match out.ret with
      | .val _ => L.touch eqv now k
      | _ => L
  | .erase k => L.write eqv now k none
  | .clear => L.wipe
  | .count => L
  | .complete tok r => match out.ret with
    | .bool true => L.finish now tok (value? r)
    | _ => L
  | .drop tok => match out.ret with
    | .bool true => L.abandon tok
    | _ => L
  | .tick r b => match out.calls with
    | [] => L
    | (k, tok) :: _ => if kind = .async then L.lookup eqv now true k tok b else L.put eqv now true k (value? r)
  | .destroy => L.wipe

/-- The ledger after a history of operations with the given visible outcomes. -/
def history (eqv : K → K → Bool) (kind : Kind) : Ledger K V → Hist K V E → List (Out K V E) → Ledger K V
  | L, (env, o) :: h, out :: outs => history eqv kind (L.after eqv kind env.now o out) h outs
  | L, _, _ => L

/-- When the age limit ends the life of a key's value: on the steady clock and, if the limit is
measured on another clock too (`wall`), on that clock. -/
def ageLimit (maxAge : Option Int) (wall : Bool) (L : Ledger K V) (k : K) : Option (Int × Option Int) :=
  maxAge.map (fun a => ((L.time k).steady + a, if wall then some ((L.time k).wall + a) else none))

/-- When the idle timer of the refresh policy ends the life of a key's value
(an idle timer of 0 means there is none). -/
def idleLimit (refresh : Option (Int × Int)) (L : Ledger K V) (k : K) : Option Int :=
  match refresh with
  | none => none
  | some (_, idle) => if idle = 0 then none else some (L.used k + idle)

/-- When the value of a key is due to be refreshed. -/
def dueAt (refresh : Option (Int × Int)) (L : Ledger K V) (k : K) : Option Int :=
  refresh.map (fun p => L.time k + p.1)

/-- The operation is about the key `k`: it names an equal key, or it completes or
drops the lookup in flight of `k`, or it refreshes `k`, or it removes everything. -/
def Concerns (eqv : K → K → Bool) (L : Ledger K V) (k : K) (o : Op K V E) (out : Out K V E) : Prop :=
  match o with
  | .getIfExists k' | .get k' _ | .asyncGet k' _ _ | .emplace k' _ _ | .getOrEmplace k' _ _ | .erase k' => eqv k k' = true
  | .clear | .destroy => True
  | .count => False
  | .complete tok _ | .drop tok => L.valid k = some tok
  | .tick _ _ => ∃ p ∈ out.calls, eqv k p.1 = true

/-- The operation wrote or removed the key `k` (this includes a failed lookup,
which counts as a removal). -/
def Changes (eqv : K → K → Bool) (kind : Kind) (L : Ledger K V) (k : K) (o : Op K V E) (out : Out K V E) : Prop :=
  match o with
  | .getIfExists _ | .count | .drop _ => False
  | .get k' _ => eqv k k' = true ∧ out.calls ≠ []
  | .asyncGet k' _ b => eqv k k' = true ∧ out.calls ≠ [] ∧ ∃ r, b = .now r
  | .emplace k' _ _ | .erase k' => eqv k k' = true
  | .getOrEmplace k' _ _ => eqv k k' = true ∧ out.made = true
  | .clear | .destroy => True
  | .complete tok _ => L.valid k = some tok ∧ out.ret = .bool true
  | .tick _ b => (∃ p, out.calls.head? = some p ∧ eqv k p.1 = true) ∧ (kind = .async → ∃ r, b = .now r)

/-- The operation wrote the value `v` to the key `k`. -/
def Writes (eqv : K → K → Bool) (kind : Kind) (L : Ledger K V) (k : K) (v : V) (o : Op K V E) (out : Out K V E) : Prop :=
  match o with
  | .emplace k' v' _ | .getOrEmplace k' v' _ => eqv k k' = true ∧ out.made = true ∧ v' = v
  | .get k' r => eqv k k' = true ∧ out.calls ≠ [] ∧ r = .ok v
  | .asyncGet k' _ b => eqv k k' = true ∧ out.calls ≠ [] ∧ b = .now (.ok v)
  | .complete tok r => L.valid k = some tok ∧ out.ret = .bool true ∧ r = .ok v
  | .tick r b => (∃ p, out.calls.head? = some p ∧ eqv k p.1 = true) ∧ (if kind = .async then b = .now (.ok v) else r = .ok v)
  | _ => False

/-- The user used the key `k` with this operation: stored a value, got the stored value or
the result of a lookup.  Looking with `get_if_exists` is no use, nor are refreshes by the
cache itself. -/
def Uses (eqv : K → K → Bool) (L : Ledger K V) (k : K) (o : Op K V E) (out : Out K V E) : Prop :=
  match o with
  | .get k' _ => eqv k k' = true ∧ (out.calls ≠ [] ∨ ∃ v, out.ret = .val v)
  | .asyncGet k' _ _ => eqv k k' = true ∧ out.fired ≠ []
  | .emplace k' _ _ => eqv k k' = true
  | .getOrEmplace k' _ _ => eqv k k' = true ∧ (out.made = true ∨ ∃ v, out.ret = .val v)
  | .complete tok _ => L.valid k = some tok ∧ out.ret = .bool true ∧ L.refr tok = false
  | _ => False

/-- This operation called the resolver for the key `k`, and the resolver kept the
lookup `tok` for later. -/
def Starts (eqv : K → K → Bool) (kind : Kind) (k : K) (tok : Nat) (o : Op K V E) (out : Out K V E) : Prop :=
  match o with
  | .asyncGet k' _ .later => eqv k k' = true ∧ ∃ p, out.calls.head? = some p ∧ p.2 = tok
  | .tick _ .later => kind = .async ∧ ∃ p, out.calls.head? = some p ∧ p.2 = tok ∧ eqv k p.1 = true
  | _ => False

end Ledger

/-- The answer a lookup operation gives to its caller at once: the key asked
for and the value returned. -/
def answered : Op K V E → Out K V E → Option (K × V)
  | .getIfExists k, ⟨.val v, _, _, _, _⟩ => some (k, v)
  | .get k _, ⟨.val v, _, _, _, _⟩ => some (k, v)
  | .getOrEmplace k _ _, ⟨.val v, _, _, _, _⟩ => some (k, v)
  | .asyncGet k _ _, ⟨_, [(_, .ok v)], _, _, _⟩ => some (k, v)
  | _, _ => none

end Hoard.Spec
