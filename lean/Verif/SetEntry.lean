import Verif.Dispatch
/-!
# Entries of sets

`value_type` has a version for sets, tables whose key type is `identity_t`: it stores no key, the value is the key
(`/repo/include/libhoard/detail/value_type.h:85-130`, `value_type.ii:178-265`).  It is compared here with the version for
maps (`value_type.h:17-83`, `value_type.ii:81-176`) in a table with the same policies.

Simplifications: single entries only.  `key()` of the version for sets (value_type.ii:259-265) binds a reference to a
temporary and does not compile when used, it is not modelled.  The functions that are not named here do the same in both
versions (value_type.ii:98-111, 126-164, 202-217, 224-257): they pass the call on to the variant.
-/
namespace Hoard.SetEntry
open Hoard.Meta (Pol)
variable {V E : Type}

/-- What can be done to the variant of an entry that holds a value, in both versions alike: `mark_expired`, `weaken`, `strengthen`,
`cancel` (value_type.ii:126-144, 224-242). -/
inductive Act where
  | markExpired | weaken | strengthen | cancel
deriving DecidableEq

/-- One of these calls; `ptr`: the values are pointers (`mapped_pointer`) (value_type.ii:126-144, 224-242). -/
def act (ptr : Bool) (env : Env V) (m : Mapped V E) : Act → Mapped V E
  | .markExpired => m.markExpired
  | .weaken => m.weaken ptr
  | .strengthen => m.strengthen env
  | .cancel => m.cancel

/-- Calls of value_type.ii:126-144 or 224-242 one after the other, each in its environment. -/
def acts (ptr : Bool) : Mapped V E → List (Env V × Act) → Mapped V E
  | m, [] => m
  | m, (env, a) :: as => acts ptr (act ptr env m a) as

/-- The constructors with a value: of a map (value_type.ii:45-52) and of a set (value_type.ii:178-190) alike. -/
def new (v : V) : Mapped V E := .value v

/-- `get_if_matching` of a set (value_type.ii:192-195), that is, of the variant (mapped_type.ii:121-133, 375-393). -/
def setGet (env : Env V) (m : Mapped V E) (f : V → Bool) : Look V E :=
  match m with
  | .value v => if f v then .val v else .none
  | .weak v => if env.alive v then (if f v then .val v else .none) else .none
  | _ => .none

/-- `matches` of a set (value_type.ii:197-200), that is, of the variant (mapped_type.ii:175-179, 443-454). -/
def setMatches (env : Env V) (m : Mapped V E) (f : V → Bool) : Bool :=
  match m with
  | .value v => f v
  | .weak v => if env.alive v then f v else false
  | _ => false

/-- `expired` of a set (value_type.ii:219-222): the bases are not asked, and errors do not count. -/
def setExpired (env : Env V) (m : Mapped V E) : Bool := m.expired env

/-- `get_if_matching` of a map, without pending lookups (value_type.ii:81-85). -/
def mapGet {K : Type} (env : Env V) (k : K) (m : Mapped V E) (f : K → Bool) : Look V E :=
  if f k then m.get env false else .none

/-- `matches` of a map (value_type.ii:93-96). -/
def mapMatches {K : Type} (k : K) (f : K → Bool) : Bool := f k

/-- What a lookup takes from one entry (hashtable.ii:489-493): what it holds, if it matches and is not expired. -/
def take (l : Look V E) (expired : Bool) : Option V :=
  match l with
  | .val v => if expired then none else some v
  | _ => none

/-- A lookup (hashtable.ii:489-493) in an entry of a set (value_type.ii:192-195, 219-222). -/
def setFinds (pe : Dispatch.PEnv V) (d : Dispatch.Data V E) (i : Nat) (f : V → Bool) : Option V :=
  take (setGet pe.env (d.mapped i) f) (setExpired pe.env (d.mapped i))

/-- A lookup (hashtable.ii:489-493) in an entry of a map (value_type.ii:81-85, 113-124) with the key `k` and the policies `user`. -/
def mapFinds {K : Type} (user : List Pol) (pe : Dispatch.PEnv V) (d : Dispatch.Data V E) (i : Nat) (k : K) (f : K → Bool) : Option V :=
  take (mapGet pe.env k (d.mapped i) f) (Dispatch.expired user pe d i)

end Hoard.SetEntry
