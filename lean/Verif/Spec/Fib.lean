/-! # Specification: the Fibonacci numbers -/
namespace Hoard.Spec

/-- The Fibonacci numbers 0, 1, 1, 2, 3, 5, 8, ... -/
def fibN : Nat → Nat
  | 0 => 0
  | 1 => 1
  | n + 2 => fibN n + fibN (n + 1)

end Hoard.Spec
