import Verif.Spec.MapSpec
/-!
# Specification: a list in recency order

What a cache with a size limit should be: one list of items, most recently used
first.  An item is a key with a value and the times on the clocks from which it is too old, or a key without value (the value
was evicted, or the resolver failed): such an item is dead and takes up space until it is swept away.
-/
namespace Hoard.Spec
variable {K V E : Type}

/-- A key, and its value with the time from which on it is too old: on the steady clock, and possibly on the other clock. -/
abbrev Item (K V : Type) := K × Option (V × Option (Int × Option Int))

/-- The item has a value that is not too old. -/
def Item.live (now : Time) (it : Item K V) : Bool :=
  match it.2 with
  | some (_, none) => true
  | some (_, some (t, none)) => decide (now.steady < t)
  | some (_, some (t, some w)) => decide (now.steady < t ∧ now.wall < w)
  | none => false

/-- The item answers a lookup of `k`. -/
def Item.answers (eqv : K → K → Bool) (now : Time) (k : K) (it : Item K V) : Bool := eqv it.1 k && it.live now

/-- What a lookup of `k` finds. -/
def look (eqv : K → K → Bool) (now : Time) (k : K) (l : List (Item K V)) : Option V :=
  ((l.find? (Item.answers eqv now k)).bind (·.2)).map (·.1)

/-- Some of the dead items are swept away. -/
def Swept (now : Time) (l l' : List (Item K V)) : Prop :=
  l'.Sublist l ∧ l'.filter (Item.live now) = l.filter (Item.live now)

/-- The items with other keys. -/
def without (eqv : K → K → Bool) (k : K) (l : List (Item K V)) : List (Item K V) := l.filter (fun it => !eqv it.1 k)

/-- The item found moves to the front. -/
def touch (eqv : K → K → Bool) (now : Time) (k : K) (l : List (Item K V)) : List (Item K V) :=
  match l.find? (Item.answers eqv now k) with
  | some it => it :: l.eraseP (Item.answers eqv now k)
  | none => l

/-- A new item enters in the middle. -/
def insertMid (it : Item K V) (l : List (Item K V)) : List (Item K V) :=
  l.take ((l.length + 1) / 2) ++ it :: l.drop ((l.length + 1) / 2)

/-- How many items are evicted from a list of `n` items with limit `N`: the excess, but none of the first half. -/
def excess (N n : Nat) : Nat := min (n - N) (n - n / 2)

/-- The last items lose their value. -/
def trim (N : Nat) (l : List (Item K V)) : List (Item K V) :=
  l.take (l.length - excess N l.length) ++ (l.drop (l.length - excess N l.length)).map (fun it => (it.1, none))

/-- A fresh item.  An age limit comes with whether it is measured on the other clock too. -/
def fresh (age : Option (Int × Bool)) (now : Time) (k : K) (v : V) : Item K V :=
  (k, some (v, age.map (fun a => (now.steady + a.1, if a.2 then some (now.wall + a.1) else none))))

/-- One call at time `now` on a list with limit `N` and age limit `age`; `memo`: there is a resolver.
Outputs: return value, whether a value was made from the arguments, the keys the resolver was asked for. -/
inductive LruStep (eqv : K → K → Bool) (N : Nat) (age : Option (Int × Bool)) (memo : Bool) (now : Time) :
    List (Item K V) → MapOp K V E → Ret V E × Bool × List K → List (Item K V) → Prop
  | peek {l k} : LruStep eqv N age memo now l (.getIfExists k) (found (look eqv now k l), false, []) l
  | emplace {l l1 k v} (hs : Swept now (without eqv k l) l1) :
      LruStep eqv N age memo now l (.emplace k v) (.unit, true, []) (trim N (insertMid (fresh age now k v) l1))
  | hit {l l1 k r v} (hl : look eqv now k l = some v) (hs : Swept now l l1) :
      LruStep eqv N age memo now l (.get k r) (.val v, false, []) (touch eqv now k l1)
  | miss {l l1 k r} (hl : look eqv now k l = none) (hm : memo = false) (hs : Swept now (without eqv k l) l1) :
      LruStep eqv N age memo now l (.get k r) (.miss, false, []) l1
  | resolve {l l1 k v} (hl : look eqv now k l = none) (hm : memo = true) (hs : Swept now (without eqv k l) l1) :
      LruStep eqv N age memo now l (.get k (.ok v)) (.val v, false, [k]) (insertMid (fresh age now k v) l1)
  | fail {l l1 k e} (hl : look eqv now k l = none) (hm : memo = true) (hs : Swept now (without eqv k l) l1) :
      LruStep eqv N age memo now l (.get k (.err e)) (.err e, false, [k]) (insertMid (k, none) l1)
  | have_ {l l1 k v u} (hl : look eqv now k l = some u) (hs : Swept now l l1) :
      LruStep eqv N age memo now l (.getOrEmplace k v) (.val u, false, []) (trim N (touch eqv now k l1))
  | make {l l1 k v} (hl : look eqv now k l = none) (hs : Swept now (without eqv k l) l1) :
      LruStep eqv N age memo now l (.getOrEmplace k v) (.val v, true, []) (trim N (insertMid (fresh age now k v) l1))
  | erase {l l1 k} (hs : Swept now (without eqv k l) l1) : LruStep eqv N age memo now l (.erase k) (.unit, false, []) l1
  | clear {l} : LruStep eqv N age memo now l .clear (.unit, false, []) []

/-- A sequence of calls. -/
inductive LruRun (eqv : K → K → Bool) (N : Nat) (age : Option (Int × Bool)) (memo : Bool) :
    List (Time × MapOp K V E) → List (Ret V E × Bool × List K) → List (Item K V) → Prop
  | nil : LruRun eqv N age memo [] [] []
  | snoc {os outs l now o out l'} (h : LruRun eqv N age memo os outs l) (hs : LruStep eqv N age memo now l o out l') :
      LruRun eqv N age memo (os ++ [(now, o)]) (outs ++ [out]) l'

/-- The call is a lookup that was answered with a value already there, which moves it to the front. -/
def usesOld : MapOp K V E → Ret V E × Bool × List K → Bool
  | .get _ _, (.val _, false, []) => true
  | .getOrEmplace _ _, (.val _, false, []) => true
  | _, _ => false

/-- How many of the calls moved a value to the front. -/
def uses : List (MapOp K V E) → List (Ret V E × Bool × List K) → Nat
  | o :: os, out :: outs => (if usesOld o out then 1 else 0) + uses os outs
  | _, _ => 0

end Hoard.Spec
