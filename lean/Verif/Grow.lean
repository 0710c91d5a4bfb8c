import Verif.Cache
/-!
# Number of buckets

The arithmetic of `basic_hashtable` (`/repo/include/libhoard/detail/basic_hashtable.ii`):
when the bucket array grows and how far.  Only the number of entries and the number of
buckets are kept; `Verif.Cache` has the entries.

Simplification: `float` is replaced by exact fractions, the load factor limit is `p / q`.
-/
namespace Hoard.Grow

/-- `size_` and `bucket_count_` (basic_hashtable.h:112-115), `max_load_factor_ = p / q`
(basic_hashtable.h:237), and `max_bucket_count()` (basic_hashtable.ii:343-348). -/
structure Tab where
  n : Nat
  b : Nat
  p : Nat
  q : Nat
  mx : Nat
deriving Repr, DecidableEq

/-- `float(n) / float(b) > max_load_factor()`; true for `b = 0 < n`, where the quotient is
infinite (basic_hashtable.ii:404). -/
def Tab.over (t : Tab) (n b : Nat) : Bool := decide (n * t.q > t.p * b)

/-- Constructor (basic_hashtable.ii:320-329). -/
def Tab.init (p q mx : Nat) : Tab := ⟨0, 0, p, q, mx⟩

/-- Number of entries after the part of `maybe_rehash_before_link_` before the final
decision (basic_hashtable.ii:403-409).  `dead` is the number of entries that the callback
`before_rehash` unlinks when it is called. -/
def Tab.left (t : Tab) (dead : Nat) : Nat := if t.over (t.n + 1) t.b then t.n - dead else t.n

/-- `link` (basic_hashtable.ii:378-382) with `maybe_rehash_before_link_`
(basic_hashtable.ii:402-415).  -/
def Tab.link (t : Tab) (dead : Nat) : Tab :=
  let n := t.left dead
  if t.b = 0 ∨ (t.over (n + 1) t.b = true ∧ t.b < t.mx) then
    { t with n := n + 1, b := if t.b = 0 then 4 else if t.b > t.mx / 2 then t.mx else 2 * t.b }
  else { t with n := n + 1 }

/-- `unlink` (basic_hashtable.ii:73-80, 223-233). -/
def Tab.unlink (t : Tab) : Tab := { t with n := t.n - 1 }

/-- `ceil(n / (p / q))`.  basic_hashtable.ii:362, 389, 396, with exact arithmetic. -/
def need (n p q : Nat) : Nat := (n * q + p - 1) / p

/-- `reserve` (basic_hashtable.ii:384-400); `dead` as in `link`.  The recomputation after
`before_rehash` gives the same number, since neither argument changed. -/
def Tab.reserve (t : Tab) (m dead : Nat) : Tab :=
  let r := min (need m t.p t.q) t.mx
  if r > t.b then { t with n := t.n - dead, b := r } else t

/-- `max_load_factor(float)` (basic_hashtable.ii:355-376).  The quotient is finite when the
new limit is not zero. -/
def Tab.setMax (t : Tab) (p q : Nat) : Tab :=
  let r := min (need t.n p q) t.mx
  if 0 < p ∧ r > t.b then { t with b := r, p := p, q := q } else { t with p := p, q := q }

/-- Operations on the table.  basic_hashtable.h:229-232. -/
inductive Op where
  | link (dead : Nat)
  | unlink
  | reserve (m dead : Nat)
  | setMax (p q : Nat)

/-- One operation.  basic_hashtable.ii:355-415. -/
def Tab.step (t : Tab) : Op → Tab
  | .link d => t.link d
  | .unlink => t.unlink
  | .reserve m d => t.reserve m d
  | .setMax p q => t.setMax p q

/-- All operations.  Calls of basic_hashtable.h:229-232 one after the other. -/
def Tab.run (t : Tab) (os : List Op) : Tab := os.foldl Tab.step t

end Hoard.Grow
