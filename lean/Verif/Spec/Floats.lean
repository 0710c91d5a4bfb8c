import Mathlib.Data.Rat.Floor
/-! # Specification of single precision numbers -/
namespace Hoard.Spec

/-- A finite number that a `float` can hold: 24 binary digits, exponents from -149 to 104. -/
def IsFloat (x : ℚ) : Prop := ∃ k e : ℤ, |k| < 2 ^ 24 ∧ -149 ≤ e ∧ e ≤ 104 ∧ x = k * 2 ^ e

/-- `y` is a nearest `float` of `x`. -/
def Nearest (x y : ℚ) : Prop := IsFloat y ∧ ∀ z, IsFloat z → |x - y| ≤ |x - z|

end Hoard.Spec
