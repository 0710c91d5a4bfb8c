import Mathlib.Data.Int.Log
import Mathlib.Data.Rat.Floor
/-!
# Load factors as single precision numbers

The arithmetic of `basic_hashtable` (`/repo/include/libhoard/detail/basic_hashtable.ii`) once more, as in `Verif.Grow`, but with
`float` as it is: IEEE 754 binary32, rounding to nearest with ties to even.

Simplification: a zero has no sign, and a call of `reserve` or `max_load_factor` does not fail for want of memory.
-/
namespace Hoard.Flt

/-- A value of type `float` (basic_hashtable.h:59, 223-237). -/
inductive F where
  | nan
  | inf (neg : Bool)
  | fin (x : ℚ)
deriving DecidableEq

/-- The exponent of the last place of a number: 24 binary digits from the first one on, and not below `2 ^ (-149)`.  (The type `float`
of basic_hashtable.h:237.) -/
def place (x : ℚ) : ℤ := max (Int.log 2 |x| - 23) (-149)

/-- The nearest integer, the even one if there are two.  (Rounding in basic_hashtable.ii:48, 361, 389, 404.) -/
def halfEven (x : ℚ) : ℤ :=
  if Int.fract x < 1 / 2 then ⌊x⌋
  else if 1 / 2 < Int.fract x then ⌊x⌋ + 1
  else if ⌊x⌋ % 2 = 0 then ⌊x⌋ else ⌊x⌋ + 1

/-- Rounding to 24 binary digits.  (basic_hashtable.ii:48, 361, 389, 404.) -/
def fl (x : ℚ) : ℚ := halfEven (x / 2 ^ place x) * 2 ^ place x

/-- Rounding to a `float`; what is too large becomes infinite.  (basic_hashtable.ii:48, 361, 389, 404.) -/
def rn (x : ℚ) : F := if |fl x| < 2 ^ 128 then .fin (fl x) else .inf (decide (x < 0))

/-- `float(n)` for a `size_type` (basic_hashtable.ii:48, 389, 404).  A `size_type` has at most 64 binary digits: it is never too large. -/
def ofNat (n : Nat) : F := .fin (fl n)

/-- Division (basic_hashtable.ii:48, 361, 389, 404). -/
def div : F → F → F
  | .fin x, .fin y => if y = 0 then (if x = 0 then .nan else .inf (decide (x < 0))) else rn (x / y)
  | .fin _, .inf _ => .fin 0
  | .inf s, .fin y => .inf (s != decide (y < 0))
  | _, _ => .nan

/-- `>` (basic_hashtable.ii:405, 411); false if one of the two is not a number. -/
def gt : F → F → Bool
  | .fin x, .fin y => decide (x > y)
  | .fin _, .inf s => s
  | .inf s, .fin _ => !s
  | .inf s, .inf t => !s && t
  | _, _ => false

/-- `std::ceil` (basic_hashtable.ii:361, 389). -/
def ceil : F → F
  | .fin x => .fin ⌈x⌉
  | a => a

/-- `static_cast<size_type>` (basic_hashtable.ii:363, 389): undefined if the number does not fit in 64 bits. -/
def toSize : F → Option Nat
  | .fin x => if -1 < x ∧ x < 2 ^ 64 then some ⌊x⌋.toNat else none
  | _ => none

/-- `load_factor()` (basic_hashtable.ii:47-49). -/
def loadFactor (n b : Nat) : F := if n = 0 then .fin 0 else div (ofNat n) (ofNat b)

/-- `float(n) / float(b) > max_load_factor()` (basic_hashtable.ii:404-405, 409-411). -/
def over (l : F) (n b : Nat) : Bool := gt (div (ofNat n) (ofNat b)) l

/-- `size_`, `bucket_count_` (basic_hashtable.h:112-115), `max_load_factor_` (basic_hashtable.h:237), and `max_bucket_count()`
(basic_hashtable.ii:343-348). -/
structure Tab where
  n : Nat
  b : Nat
  l : F
  mx : Nat
deriving DecidableEq

/-- Constructor (basic_hashtable.ii:320-329): no check of the limit. -/
def Tab.init (l : F) (mx : Nat) : Tab := ⟨0, 0, l, mx⟩

/-- Number of entries after the part of `maybe_rehash_before_link_` before the final decision (basic_hashtable.ii:403-409).  `dead` is
the number of entries that the callback `before_rehash` unlinks when it is called. -/
def Tab.left (t : Tab) (dead : Nat) : Nat := if over t.l (t.n + 1) t.b then t.n - dead else t.n

/-- `link` (basic_hashtable.ii:378-382) with `maybe_rehash_before_link_` (basic_hashtable.ii:402-415). -/
def Tab.link (t : Tab) (dead : Nat) : Tab :=
  let n := t.left dead
  if t.b = 0 ∨ (over t.l (n + 1) t.b = true ∧ t.b < t.mx) then
    { t with n := n + 1, b := if t.b = 0 then 4 else if t.b > t.mx / 2 then t.mx else 2 * t.b }
  else { t with n := n + 1 }

/-- `unlink` (basic_hashtable.ii:73-80, 223-233). -/
def Tab.unlink (t : Tab) : Tab := { t with n := t.n - 1 }

/-- `ceil(float(n) / l)` as a number of buckets (basic_hashtable.ii:361-363, 389, 396). -/
def need (n : Nat) (l : F) : Option Nat := toSize (ceil (div (ofNat n) l))

/-- `reserve` (basic_hashtable.ii:384-400); `dead` as in `link`.  The number is cast before the minimum is taken.  The recomputation after
`before_rehash` gives the same number, since neither argument changed. -/
def Tab.reserve (t : Tab) (m dead : Nat) : Option Tab :=
  (need m t.l).map fun r => if min r t.mx > t.b then { t with n := t.n - dead, b := min r t.mx } else t

/-- `std::isfinite` (basic_hashtable.ii:362). -/
def finite : F → Bool
  | .fin _ => true
  | _ => false

/-- `max_load_factor(float)` (basic_hashtable.ii:355-376). -/
def Tab.setMax (t : Tab) (l : F) : Option Tab :=
  if finite (ceil (div (ofNat t.n) l)) then
    (need t.n l).map fun r => if min r t.mx > t.b then { t with b := min r t.mx, l := l } else { t with l := l }
  else some { t with l := l }

/-- Insertions and removals.  basic_hashtable.h:229-232. -/
inductive Op where
  | link (dead : Nat)
  | unlink

/-- One operation.  basic_hashtable.ii:73-80, 378-415. -/
def Tab.step (t : Tab) : Op → Tab
  | .link d => t.link d
  | .unlink => t.unlink

/-- All operations, one after the other.  basic_hashtable.ii:73-80, 378-415. -/
def Tab.run (t : Tab) (os : List Op) : Tab := os.foldl Tab.step t

end Hoard.Flt
