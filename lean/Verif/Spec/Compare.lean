import Verif.Compare
/-! # Which entries a call has to look at -/
namespace Hoard.Compare
variable {K V E : Type}

/-- The key given to the call, if any. -/
def given : Op K V E → Option K
  | .getIfExists k => some k
  | .get k _ => some k
  | .asyncGet k _ _ => some k
  | .emplace k _ _ => some k
  | .getOrEmplace k _ _ => some k
  | .erase k => some k
  | _ => none

/-- How often the hash code is computed: once, but `emplace(key, value)` does it twice. -/
def hashes : Op K V E → Nat
  | .emplace _ _ _ => 2
  | o => match given o with
    | some _ => 1
    | none => 0

/-- The comparisons of the given key with the keys of these entries, in this order. -/
def with_ (k : K) (es : List (Entry K V E)) : List (Use K) := es.map (fun e => .equal e.key k)

/-- The entry answers the call: it is for the key, it has not expired, and it has something to offer: a value or
an error, or, for calls that can wait, a lookup in flight. -/
def answers (cfg : Cfg K) (env : Env V) (k : K) (wait : Bool) (e : Entry K V E) : Bool :=
  cfg.eqv e.key k && !e.expired env &&
    match e.mapped.get env wait with
    | .none => false
    | _ => true

/-- Calls that look for an answer, and whether they can wait for one. -/
def looks : Op K V E → Option Bool
  | .getIfExists _ => some false
  | .get _ _ => some false
  | .asyncGet _ _ _ => some true
  | .getOrEmplace _ _ _ => some true
  | _ => none

/-- The list up to the first element with the property, which is included. -/
def upTo {A : Type} (p : A → Bool) : List A → List A
  | [] => []
  | a :: as => if p a then [a] else a :: upTo p as

end Hoard.Compare
