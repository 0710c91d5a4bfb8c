import Verif.MachineTime
/-! # Specification: times of 64 bits -/
namespace Hoard.MachineTime
variable {K V E : Type}

/-- The number can be represented. -/
def Fits (x : Int) : Prop := -(2 ^ 63) ≤ x ∧ x < 2 ^ 63

/-- The cache with these limits, when times are unbounded: age limits in units of the clock. -/
def Limits.cfg (lim : Limits) (base : Cfg K) : Cfg K :=
  { base with maxAge := lim.maxAge.map (· * lim.ticks), errAge := lim.errAge.map (· * lim.ticks), refresh := lim.refresh }

/-- An age limit can be added to the time. -/
def AgeInRange (ticks : Int) (wall : Bool) (now : Time) (ms : Int) : Prop :=
  Fits (ms * ticks) ∧ Fits (now.steady + ms * ticks) ∧ (wall = true → Fits (now.wall + ms * ticks))

/-- All that may have to be added to the time gives a time that can be represented. -/
structure InRange (lim : Limits) (wall : Bool) (now : Time) : Prop where
  age : ∀ ms, lim.maxAge = some ms → AgeInRange lim.ticks wall now ms
  err : ∀ ms, lim.errAge = some ms → AgeInRange lim.ticks wall now ms
  delay : ∀ d i, lim.refresh = some (d, i) → Fits (now.steady + d)
  idle : ∀ d i, lim.refresh = some (d, i) → i ≠ 0 → Fits (now.steady + i)

/-- What has to be added when a value is stored gives times that can be represented. -/
structure ValueInRange (lim : Limits) (wall : Bool) (now : Time) : Prop where
  age : ∀ ms, lim.maxAge = some ms → AgeInRange lim.ticks wall now ms
  delay : ∀ d i, lim.refresh = some (d, i) → Fits (now.steady + d)
  idle : ∀ d i, lim.refresh = some (d, i) → i ≠ 0 → Fits (now.steady + i)

/-- What hardware of 64 bits, and most compilers, make of a number that cannot be represented. -/
def wrap (x : Int) : Int := (x + 2 ^ 63) % 2 ^ 64 - 2 ^ 63

end Hoard.MachineTime
