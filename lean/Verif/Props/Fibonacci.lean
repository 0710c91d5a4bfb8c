import Verif.FibLemmas
import Verif.Props.Pure
/-! # The example program

The Fibonacci numbers are those of `Verif/Spec/Fib.lean`; `M` is the number of values of the program's integer type. -/
namespace Hoard.Props
open Hoard Spec Demo
open Hoard.Fibonacci (fast slow lookups mainArgs)

/-! ## C92 -/

/-- C92: the resolver of the example returns the Fibonacci number, if it fits into the integer type, and otherwise throws an error that names the
argument.  It never returns a number that has overflown. -/
theorem C92_resolver_computes_fibonacci (M : Nat) (hM : 2 ≤ M) (v : Nat) :
    fast M v = if fibN (v + 1) < M then .ok (fibN (v + 1)) else .err v := by
  have := Fibonacci.fastLoop_spec (M := M) (v := v) v 0 (by simp [fibN]; omega)
  simp only [Nat.zero_add] at this
  exact this

/-- C92: the recursive algorithm returns the same values and fails for the same arguments.  Its error, however, names the first argument
for which the number is too large, and not the one asked for. -/
theorem C92_recursion_agrees (M : Nat) (hM : 2 ≤ M) (v : Nat) :
    (∀ x, slow M v = .ok x ↔ fast M v = .ok x) ∧
    (∀ x, slow M v = .err x ↔ fast M v = .err v ∧ M ≤ fibN (x + 1) ∧ ∀ u < x, fibN (u + 1) < M) := by
  rw [C92_resolver_computes_fibonacci M hM]
  obtain ⟨h1, h2⟩ := Fibonacci.slow_spec hM v
  by_cases hlt : fibN (v + 1) < M
  · rw [h1 hlt, if_pos hlt]
    exact ⟨fun x => Iff.rfl, fun x => ⟨fun h => (nomatch h), fun h => (nomatch h.1)⟩⟩
  · obtain ⟨y, hy, _, hge, hfit⟩ := h2 (by omega)
    rw [hy, if_neg hlt]
    refine ⟨fun x => ⟨fun h => (nomatch h), fun h => (nomatch h)⟩, fun x => ⟨fun h => ?_, fun ⟨_, hx, hu⟩ => ?_⟩⟩
    · cases h
      exact ⟨rfl, hge, fun u hu => Nat.lt_of_le_of_lt (Fibonacci.fib_le (show u + 1 ≤ y by omega)) hfit⟩
    · have : y = x := by
        rcases Nat.lt_trichotomy y x with h | h | h
        · have := hu y h; omega
        · exact h
        · have := Fibonacci.fib_le (show x + 1 ≤ y by omega); omega
      rw [this]

/-- C92: whatever numbers are looked up, in whatever order and at whatever times, every line the example prints is right: the
Fibonacci number if it fits, otherwise the error for the number asked for.  The number is computed by the resolver only the first time,
an error every time. -/
theorem C92_every_line_is_right (M : Nat) (hM : 2 ≤ M) (hash : Nat → Nat) (vs : List (Env Nat × Nat)) :
    (outsOf (Fibonacci.cfg hash) (lookups (fast M) vs)).map (·.ret) =
      vs.map (fun p => if fibN (p.2 + 1) < M then .val (fibN (p.2 + 1)) else .err p.2) ∧
    (outsOf (Fibonacci.cfg hash) (lookups (fast M) vs)).map (fun out => out.calls.map (·.1)) =
      callsFor (fun a b => a == b) (fast M) [] (vs.map (·.2)) := by
  have hc : (Fibonacci.cfg hash).Ok := nat_ok rfl (by intro d i h; cases h)
  obtain ⟨a, b⟩ := C91_each_value_is_computed_once hc rfl rfl rfl rfl (fast M) (by intro a b h; simp [Fibonacci.cfg] at h; rw [h]) vs
  refine ⟨Eq.trans a ?_, b⟩
  congr 1; funext p
  rw [C92_resolver_computes_fibonacci M hM]
  split <;> rfl

/-- C92: `main`.  With 64-bit numbers the first 91 lines of each half are the Fibonacci numbers, the other 21 are errors; in the first half the resolver
is called for every line, in the second half only for the errors. -/
theorem C92_main (hash : Nat → Nat) (vs : List (Env Nat × Nat)) (hv : vs.map (·.2) = mainArgs) :
    (outsOf (Fibonacci.cfg hash) (lookups (fast (2 ^ 64)) vs)).map (·.ret) = mainArgs.map (fun v => if v ≤ 90 then .val (fibN (v + 1)) else .err v) ∧
    (outsOf (Fibonacci.cfg hash) (lookups (fast (2 ^ 64)) vs)).map (fun out => out.calls.map (·.1)) =
      (List.range 91 ++ (List.range 21).map (· + 100)).map (fun v => [v]) ++
        ((List.range 91).map (fun _ => []) ++ (List.range 21).map (fun v => [v + 100])) := by
  obtain ⟨a, b⟩ := C92_every_line_is_right (2 ^ 64) (by decide) hash vs
  have lo : fibN 91 < 2 ^ 64 := by
    have h := C92_resolver_computes_fibonacci (2 ^ 64) (by decide) 90
    rw [show fast (2 ^ 64) 90 = .ok 4660046610375530309 by decide +kernel] at h
    split at h
    · assumption
    · cases h
  have hi : 2 ^ 64 ≤ fibN 101 := by
    have h := C92_resolver_computes_fibonacci (2 ^ 64) (by decide) 100
    rw [show fast (2 ^ 64) 100 = .err 100 by decide +kernel] at h
    split at h
    · cases h
    · exact Nat.le_of_not_lt ‹_›
  have key : ∀ v ∈ mainArgs, (fibN (v + 1) < 2 ^ 64 ↔ v ≤ 90) := by
    intro v hv
    have : v ≤ 90 ∨ 100 ≤ v := by
      simp only [mainArgs, List.mem_append, List.mem_range, List.mem_map] at hv
      rcases hv with (h | ⟨_, _, h⟩) | (h | ⟨_, _, h⟩) <;> omega
    rcases this with h | h
    · have := Fibonacci.fib_le (show v + 1 ≤ 91 by omega); omega
    · have := Fibonacci.fib_le (show 101 ≤ v + 1 by omega); omega
  constructor
  · rw [a, ← hv, List.map_map]
    refine List.map_congr_left fun p hp => ?_
    have := key p.2 (by rw [← hv]; exact List.mem_map_of_mem hp)
    simp only [Function.comp_apply, this]
  · rw [b, hv]
    decide +kernel

/-- The numbers `main` asks for, at some times. -/
example : (mainArgs.map (fun v => (at_ 7, v))).map (·.2) = mainArgs := by decide +kernel
example := C92_main (fun v => v) (mainArgs.map (fun v => (at_ 7, v))) (by decide +kernel)
/-- With numbers below 16 13 is the last that fits; the recursive algorithm names 7 when asked for 9. -/
example : [4, 6, 7, 9].map (fast 16) = [.ok 5, .ok 13, .err 7, .err 9] ∧ [4, 6, 7, 9].map (slow 16) = [.ok 5, .ok 13, .err 7, .err 7] := by decide +kernel

end Hoard.Props
