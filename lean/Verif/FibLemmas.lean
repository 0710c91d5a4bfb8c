import Verif.Fibonacci
import Verif.Spec.Fib
/-! Helper lemmas for `Props/Fibonacci.lean`. -/
namespace Hoard.Fibonacci
open Hoard Spec

theorem fib_mono (n : Nat) : fibN n ≤ fibN (n + 1) := by
  induction n using Nat.strongRecOn with
  | ind n ih =>
    match n with
    | 0 => decide
    | 1 => decide
    | n + 2 =>
      have := ih n (by omega)
      have := ih (n + 1) (by omega)
      show fibN n + fibN (n + 1) ≤ fibN (n + 1) + (fibN n + fibN (n + 1))
      omega

theorem fib_le {m n : Nat} (h : m ≤ n) : fibN m ≤ fibN n := by
  induction h with
  | refl => exact Nat.le_refl _
  | step _ ih => exact Nat.le_trans ih (fib_mono _)

theorem sum_mod {M a b : Nat} (ha : a < M) (hb : b < M) : ((a + b) % M < b ↔ M ≤ a + b) ∧ (a + b < M → (a + b) % M = a + b) := by
  refine ⟨⟨fun h => ?_, fun h => ?_⟩, fun h => Nat.mod_eq_of_lt h⟩
  · refine Nat.le_of_not_lt fun hlt => ?_
    rw [Nat.mod_eq_of_lt hlt] at h
    omega
  · rw [Nat.mod_eq_sub_mod h, Nat.mod_eq_of_lt (by omega)]
    omega

theorem fastLoop_spec {M v : Nat} : ∀ (n i : Nat), fibN (i + 1) < M →
    fastLoop M v n (fibN i) (fibN (i + 1)) = if fibN (i + n + 1) < M then .ok (fibN (i + n + 1)) else .err v
  | 0, i, h => by simp [fastLoop, h]
  | n + 1, i, h => by
    have hs := sum_mod (Nat.lt_of_le_of_lt (fib_mono i) h) h
    have e : fibN (i + 2) = fibN i + fibN (i + 1) := rfl
    simp only [fastLoop]
    by_cases hlt : fibN i + fibN (i + 1) < M
    · rw [hs.2 hlt, if_neg (by omega), ← e, fastLoop_spec n (i + 1) (by rw [show i + 1 + 1 = i + 2 from rfl, e]; exact hlt)]
      rw [show i + 1 + n + 1 = i + (n + 1) + 1 by omega]
    · rw [if_pos (hs.1.2 (by omega)), if_neg]
      have := fib_le (show i + 2 ≤ i + (n + 1) + 1 by omega)
      omega

theorem slow_spec {M : Nat} (hM : 2 ≤ M) : ∀ (v : Nat),
    (fibN (v + 1) < M → slow M v = .ok (fibN (v + 1))) ∧
    (M ≤ fibN (v + 1) → ∃ x, slow M v = .err x ∧ x ≤ v ∧ M ≤ fibN (x + 1) ∧ fibN x < M) := by
  intro v
  induction v using Nat.strongRecOn with
  | ind v ih =>
    match v with
    | 0 => exact ⟨fun _ => rfl, fun h => absurd h (by simp [fibN]; omega)⟩
    | 1 => exact ⟨fun _ => rfl, fun h => absurd h (by simp [fibN]; omega)⟩
    | v + 2 =>
      have e : fibN (v + 2 + 1) = fibN (v + 1) + fibN (v + 2) := rfl
      have m1 := fib_mono (v + 1)
      have e2 : fibN (v + 1 + 1) = fibN (v + 2) := rfl
      rw [e2] at m1
      obtain ⟨a1, a2⟩ := ih v (by omega)
      obtain ⟨b1, b2⟩ := ih (v + 1) (by omega)
      by_cases hA : fibN (v + 1) < M
      · by_cases hB : fibN (v + 2) < M
        · have hs := sum_mod hA hB
          simp only [slow, a1 hA, b1 hB, e2]
          constructor
          · intro h
            rw [hs.2 (by omega), if_neg (by omega), e]
          · intro h
            rw [if_pos (hs.1.2 (by omega))]
            exact ⟨_, rfl, Nat.le_refl _, h, hB⟩
        · obtain ⟨x, hx, h1, h2, h3⟩ := b2 (by rw [e2]; omega)
          simp only [slow, a1 hA, hx]
          exact ⟨fun h => by omega, fun _ => ⟨x, rfl, by omega, h2, h3⟩⟩
      · obtain ⟨x, hx, h1, h2, h3⟩ := a2 (by omega)
        simp only [slow, hx]
        exact ⟨fun h => by omega, fun _ => ⟨x, rfl, by omega, h2, h3⟩⟩

end Hoard.Fibonacci

