import Verif.Floats
import Verif.Spec.Floats
import Mathlib.Tactic.Linarith
import Mathlib.Tactic.Positivity
import Mathlib.Tactic.NormNum
import Mathlib.Tactic.FieldSimp
import Mathlib.Tactic.Ring
/-! # Lemmas about rounding -/
namespace Hoard.Flt
open Spec

/-- A number with 24 binary digits, however large. -/
def Rep (x : ℚ) : Prop := ∃ k e : ℤ, |k| < 2 ^ 24 ∧ -149 ≤ e ∧ x = k * 2 ^ e

theorem Rep.of_isFloat {x : ℚ} (h : IsFloat x) : Rep x := by
  obtain ⟨k, e, h1, h2, _, h4⟩ := h
  exact ⟨k, e, h1, h2, h4⟩

theorem halfEven_cases (t : ℚ) : (halfEven t = ⌊t⌋ ∧ Int.fract t ≤ 1 / 2) ∨ (halfEven t = ⌊t⌋ + 1 ∧ 1 / 2 ≤ Int.fract t) := by
  unfold halfEven
  split
  · rename_i h; exact .inl ⟨rfl, h.le⟩
  · rename_i h
    split
    · rename_i h2; exact .inr ⟨rfl, h2.le⟩
    · rename_i h2
      split
      · exact .inl ⟨rfl, not_lt.1 h2⟩
      · exact .inr ⟨rfl, not_lt.1 h⟩

theorem halfEven_err (t : ℚ) : |t - halfEven t| ≤ 1 / 2 := by
  have hf := Int.floor_add_fract t
  have h0 := Int.fract_nonneg t
  have h1 := (Int.fract_lt_one t).le
  rw [abs_le]
  rcases halfEven_cases t with ⟨h, h'⟩ | ⟨h, h'⟩ <;> rw [h] <;> push_cast <;> constructor <;> linarith

theorem halfEven_near (t : ℚ) (j : ℤ) : |t - halfEven t| ≤ |t - j| := by
  have hf := Int.floor_add_fract t
  have h0 := Int.fract_nonneg t
  have h1 := (Int.fract_lt_one t).le
  rcases le_or_gt j ⌊t⌋ with hj | hj
  · have hj' : (j : ℚ) ≤ ⌊t⌋ := by exact_mod_cast hj
    rw [abs_of_nonneg (by linarith : (0 : ℚ) ≤ t - j), abs_le]
    rcases halfEven_cases t with ⟨h, h'⟩ | ⟨h, h'⟩ <;> rw [h] <;> push_cast <;> constructor <;> linarith
  · have hj' : (⌊t⌋ : ℚ) + 1 ≤ j := by exact_mod_cast hj
    rw [abs_of_nonpos (by linarith : t - j ≤ (0 : ℚ)), abs_le]
    rcases halfEven_cases t with ⟨h, h'⟩ | ⟨h, h'⟩ <;> rw [h] <;> push_cast <;> constructor <;> linarith

theorem two_zpow_pos (e : ℤ) : (0 : ℚ) < 2 ^ e := zpow_pos (by norm_num) e

theorem place_ge (x : ℚ) : -149 ≤ place x := le_max_right _ _

/-- What the last place is. -/
theorem place_lt {x : ℚ} (hx : 0 ≤ x) : x < 2 ^ (place x + 24) := by
  have h := Int.lt_zpow_succ_log_self (b := 2) (by norm_num) |x|
  rw [abs_of_nonneg hx] at h
  refine lt_of_lt_of_le h ?_
  push_cast
  refine zpow_le_zpow_right₀ (by norm_num) ?_
  have : Int.log 2 |x| - 23 ≤ place x := le_max_left _ _
  rw [abs_of_nonneg hx] at this
  omega

theorem le_place {x : ℚ} (hx : 0 < x) : place x = -149 ∨ (2 : ℚ) ^ (place x + 23) ≤ x := by
  rcases le_total (Int.log 2 |x| - 23) (-149) with h | h
  · left; exact max_eq_right h
  · right
    have hp : place x = Int.log 2 |x| - 23 := max_eq_left h
    rw [hp, abs_of_pos hx]
    have := Int.zpow_log_le_self (b := 2) (by norm_num) hx
    simpa using this

/-- The last place is determined by the binade. -/
theorem place_eq {x : ℚ} (e : ℤ) (he : -149 ≤ e) (h1 : (2 : ℚ) ^ (e + 23) ≤ x) (h2 : x < 2 ^ (e + 24)) : place x = e := by
  have hx : 0 < x := lt_of_lt_of_le (two_zpow_pos _) h1
  have hl : Int.log 2 |x| = e + 23 := by
    rw [abs_of_pos hx]
    have a : e + 23 ≤ Int.log 2 x := (Int.zpow_le_iff_le_log (b := 2) (by norm_num) hx).1 (by exact_mod_cast h1)
    have b : Int.log 2 x < e + 24 := (Int.lt_zpow_iff_log_lt (b := 2) (by norm_num) hx).1 (by exact_mod_cast h2)
    omega
  unfold place
  rw [hl]
  omega

theorem fl_zero : fl 0 = 0 := by
  have : halfEven 0 = 0 := by simp [halfEven]
  simp [fl, this]

/-- A number with 24 digits is a multiple of the last place of every number not above its binade. -/
theorem rep_multiple {z : ℚ} (hz : Rep z) (e : ℤ) (h : e = -149 ∨ (2 : ℚ) ^ (e + 23) ≤ z) : ∃ j : ℤ, z = j * 2 ^ e := by
  obtain ⟨k, f, hk, hf, rfl⟩ := hz
  have hle : e ≤ f := by
    rcases h with h | h
    · omega
    · by_contra hc
      have hfe : f ≤ e - 1 := by omega
      have h1 : (k : ℚ) * 2 ^ f < 2 ^ (24 : ℤ) * 2 ^ f := by
        refine mul_lt_mul_of_pos_right ?_ (two_zpow_pos f)
        have := lt_of_le_of_lt (le_abs_self k) hk
        have : (k : ℚ) < ((2 ^ 24 : ℤ) : ℚ) := by exact_mod_cast this
        norm_num at this ⊢
        exact this
      rw [← zpow_add₀ (by norm_num)] at h1
      have h2 : (2 : ℚ) ^ (24 + f) ≤ 2 ^ (e + 23) := zpow_le_zpow_right₀ (by norm_num) (by omega)
      linarith
  obtain ⟨d, rfl⟩ := Int.le.dest hle
  refine ⟨k * 2 ^ d, ?_⟩
  rw [zpow_add₀ (by norm_num)]
  push_cast
  rw [zpow_natCast]
  ring

theorem fl_near {x z : ℚ} (hx : 0 ≤ x) (hz : Rep z) : |x - fl x| ≤ |x - z| := by
  rcases eq_or_lt_of_le hx with h0 | hx
  · rw [← h0, fl_zero]; simp
  have hu := two_zpow_pos (place x)
  have key : ∀ j : ℤ, |x - fl x| ≤ |x - j * 2 ^ place x| := by
    intro j
    have h := halfEven_near (x / 2 ^ place x) j
    have e1 : x - fl x = (x / 2 ^ place x - halfEven (x / 2 ^ place x)) * 2 ^ place x := by
      unfold fl; field_simp
    have e2 : x - j * 2 ^ place x = (x / 2 ^ place x - j) * 2 ^ place x := by field_simp
    rw [e1, e2, abs_mul, abs_mul]
    exact mul_le_mul_of_nonneg_right h (abs_nonneg _)
  rcases le_place hx with hp | hp
  · obtain ⟨j, rfl⟩ := rep_multiple hz (place x) (.inl hp)
    exact key j
  · rcases le_or_gt ((2 : ℚ) ^ (place x + 23)) z with h | h
    · obtain ⟨j, rfl⟩ := rep_multiple hz (place x) (.inr h)
      exact key j
    · have := key (2 ^ 23)
      have e : ((2 ^ 23 : ℤ) : ℚ) * 2 ^ place x = 2 ^ (place x + 23) := by
        rw [zpow_add₀ (by norm_num)]; push_cast; ring
      rw [e] at this
      refine this.trans ?_
      rw [abs_of_nonneg (by linarith), abs_of_nonneg (by linarith)]
      linarith

theorem rep_zero : Rep 0 := ⟨0, 0, by norm_num, by norm_num, by simp⟩

theorem rep_pow (e : ℤ) (he : -149 ≤ e) : Rep (2 ^ e) := ⟨1, e, by norm_num, he, by simp⟩

theorem fl_of_rep {x : ℚ} (hx : 0 ≤ x) (h : Rep x) : fl x = x := by
  have := fl_near hx h
  rw [sub_self, abs_zero] at this
  have := abs_eq_zero.1 (le_antisymm this (abs_nonneg _))
  linarith

theorem fl_nonneg {x : ℚ} (hx : 0 ≤ x) : 0 ≤ fl x := by
  have h := fl_near hx rep_zero
  rw [sub_zero, abs_of_nonneg hx] at h
  linarith [(abs_le.1 h).2]

theorem fl_rep {x : ℚ} (hx : 0 ≤ x) : Rep (fl x) := by
  rcases eq_or_lt_of_le hx with h0 | hx0
  · rw [← h0, fl_zero]; exact rep_zero
  have hu := two_zpow_pos (place x)
  have h1 : x / 2 ^ place x < 2 ^ 24 := by
    rw [div_lt_iff₀ hu]
    have := place_lt hx
    rw [zpow_add₀ (by norm_num)] at this
    calc x < _ := this
      _ = _ := by norm_num; ring
  have hk0 : 0 ≤ halfEven (x / 2 ^ place x) := by
    have : 0 ≤ fl x := fl_nonneg hx
    unfold fl at this
    by_contra hc
    have : (halfEven (x / 2 ^ place x) : ℚ) < 0 := by exact_mod_cast not_le.1 hc
    nlinarith
  have hk1 : halfEven (x / 2 ^ place x) ≤ 2 ^ 24 := by
    have hfl : ⌊x / 2 ^ place x⌋ < 2 ^ 24 := by
      rw [Int.floor_lt]; push_cast; exact h1
    rcases halfEven_cases (x / 2 ^ place x) with ⟨h, _⟩ | ⟨h, _⟩ <;> rw [h] <;> omega
  rcases eq_or_lt_of_le hk1 with h | h
  · refine ⟨2 ^ 23, place x + 1, by norm_num, by have := place_ge x; omega, ?_⟩
    unfold fl
    rw [h, zpow_add₀ (by norm_num)]; push_cast; ring
  · exact ⟨_, place x, by rw [abs_of_nonneg hk0]; exact h, place_ge x, rfl⟩

theorem fl_mono {x y : ℚ} (hx : 0 ≤ x) (h : x ≤ y) : fl x ≤ fl y := by
  rcases eq_or_lt_of_le h with rfl | hlt
  · exact le_rfl
  by_contra hc
  have hc := not_le.1 hc
  have hy := hx.trans h
  have h1 := fl_near hx (fl_rep hy)
  have h2 := fl_near hy (fl_rep hx)
  rcases abs_cases (x - fl x) with a | a <;> rcases abs_cases (x - fl y) with b | b <;> rcases abs_cases (y - fl y) with c | c <;>
    rcases abs_cases (y - fl x) with d | d <;> linarith

theorem fl_le {x y : ℚ} (hx : 0 ≤ x) (hy : Rep y) (h : x ≤ y) : fl x ≤ y := by
  have := fl_mono hx h
  rwa [fl_of_rep (hx.trans h) hy] at this

theorem le_fl {x y : ℚ} (hx : 0 ≤ x) (hx' : Rep x) (h : x ≤ y) : x ≤ fl y := by
  have := fl_mono hx h
  rwa [fl_of_rep hx hx'] at this

theorem fl_err {x : ℚ} (hx : 2 ^ (-126 : ℤ) ≤ x) : |x - fl x| ≤ x / 2 ^ 24 := by
  have hx0 : 0 < x := lt_of_lt_of_le (two_zpow_pos _) hx
  have hu := two_zpow_pos (place x)
  have h := halfEven_err (x / 2 ^ place x)
  have e1 : x - fl x = (x / 2 ^ place x - halfEven (x / 2 ^ place x)) * 2 ^ place x := by
    unfold fl; field_simp
  rw [e1, abs_mul, abs_of_pos hu]
  have hp : (2 : ℚ) ^ (place x + 23) ≤ x := by
    rcases le_place hx0 with h | h
    · rw [h]; exact hx
    · exact h
  rw [zpow_add₀ (by norm_num)] at hp
  have e23 : (2 : ℚ) ^ (23 : ℤ) = 2 ^ 23 := by norm_num
  rw [e23] at hp
  rw [le_div_iff₀ (by positivity)]
  nlinarith [mul_le_mul_of_nonneg_right h hu.le]

theorem fl_double {x : ℚ} (hx : 2 ^ (-126 : ℤ) ≤ x) : fl (2 * x) = 2 * fl x := by
  have hx0 : 0 < x := lt_of_lt_of_le (two_zpow_pos _) hx
  have hp : place (2 * x) = place x + 1 := by
    refine place_eq _ (by have := place_ge x; omega) ?_ ?_
    · have h : (2 : ℚ) ^ (place x + 23) ≤ x := by
        rcases le_place hx0 with h | h
        · rw [h]; exact hx
        · exact h
      have e : (2 : ℚ) ^ (place x + 1 + 23) = 2 * 2 ^ (place x + 23) := by
        rw [show place x + 1 + 23 = 1 + (place x + 23) by ring, zpow_add₀ (by norm_num)]; norm_num
      rw [e]; linarith
    · have h := place_lt hx0.le
      have e : (2 : ℚ) ^ (place x + 1 + 24) = 2 * 2 ^ (place x + 24) := by
        rw [show place x + 1 + 24 = 1 + (place x + 24) by ring, zpow_add₀ (by norm_num)]; norm_num
      rw [e]; linarith
  unfold fl
  rw [hp, zpow_add₀ (by norm_num)]
  have : 2 * x / (2 ^ place x * 2 ^ (1 : ℤ)) = x / 2 ^ place x := by
    have := two_zpow_pos (place x)
    field_simp
  rw [this]
  norm_num
  ring

theorem rep_nat {n : Nat} (h : n ≤ 2 ^ 24) : Rep n := by
  rcases eq_or_lt_of_le h with rfl | h
  · exact ⟨1, 24, by norm_num, by norm_num, by norm_num⟩
  · refine ⟨n, 0, ?_, by norm_num, by simp⟩
    rw [abs_of_nonneg (by omega)]
    exact_mod_cast h

theorem fl_nat {n : Nat} (h : n ≤ 2 ^ 24) : fl n = n := fl_of_rep (by positivity) (rep_nat h)

theorem rep_natpow (k : Nat) : Rep ((2 ^ k : Nat) : ℚ) := ⟨1, k, by norm_num, by omega, by simp⟩

theorem fl_natpow (k : Nat) : fl ((2 ^ k : Nat) : ℚ) = (2 ^ k : Nat) := fl_of_rep (by positivity) (rep_natpow k)

theorem rep_ceil {y : ℚ} (h0 : 0 ≤ y) (h : Rep y) : Rep ⌈y⌉ := by
  obtain ⟨k, e, hk, he, rfl⟩ := h
  rcases le_total 0 e with h | h
  · obtain ⟨d, rfl⟩ := Int.le.dest h
    have : (k : ℚ) * 2 ^ (0 + (d : ℤ)) = ((k * 2 ^ d : ℤ) : ℚ) := by push_cast; simp
    rw [this, Int.ceil_intCast, ← this]
    exact ⟨k, _, hk, he, rfl⟩
  · have hle : (k : ℚ) * 2 ^ e ≤ (2 ^ 24 : ℤ) := by
      have h1 : (2 : ℚ) ^ e ≤ 1 := zpow_le_one_of_nonpos₀ (by norm_num) h
      have h2 : (k : ℚ) ≤ (2 ^ 24 : ℤ) := by exact_mod_cast (le_abs_self k).trans hk.le
      have h3 := two_zpow_pos e
      push_cast at *
      nlinarith
    have hc := Int.ceil_le.2 hle
    have hc0 : 0 ≤ ⌈(k : ℚ) * 2 ^ e⌉ := Int.ceil_nonneg h0
    have := rep_nat (n := ⌈(k : ℚ) * 2 ^ e⌉.toNat) (by omega)
    have e1 : ((⌈(k : ℚ) * 2 ^ e⌉.toNat : Nat) : ℚ) = ⌈(k : ℚ) * 2 ^ e⌉ := by
      have : ((⌈(k : ℚ) * 2 ^ e⌉.toNat : Nat) : ℤ) = ⌈(k : ℚ) * 2 ^ e⌉ := Int.toNat_of_nonneg hc0
      exact_mod_cast this
    rwa [e1] at this

theorem one_small : (2 : ℚ) ^ (-126 : ℤ) ≤ 1 := zpow_le_one_of_nonpos₀ (by norm_num) (by norm_num)

theorem nat_small {n : Nat} (h : 0 < n) : (2 : ℚ) ^ (-126 : ℤ) ≤ n := one_small.trans (by exact_mod_cast h)

theorem fl_nat_pos {n : Nat} (h : 0 < n) : 0 < fl n := by
  have h1 : Rep 1 := by simpa using rep_natpow 0
  have : (1 : ℚ) ≤ fl n := le_fl (by norm_num) h1 (by exact_mod_cast h)
  linarith

theorem fl_nat_mono {n m : Nat} (h : n ≤ m) : fl n ≤ fl m := fl_mono (by positivity) (by exact_mod_cast h)

theorem fl_double_nat (n : Nat) : fl ((2 * n : Nat) : ℚ) = 2 * fl n := by
  rcases Nat.eq_zero_or_pos n with rfl | h
  · simp [fl_zero]
  · push_cast; exact fl_double (nat_small h)

/-- When a finite number is over a limit. -/
theorem gt_rn {x l : ℚ} (hx : 0 ≤ x) (hl : l < 2 ^ 128) : gt (rn x) (.fin l) = decide (l < fl x) := by
  unfold rn
  rw [abs_of_nonneg (fl_nonneg hx)]
  split
  · simp [gt]
  · rename_i h
    have : l < fl x := lt_of_lt_of_le hl (not_lt.1 h)
    simp [gt, this, not_lt.2 hx]

theorem over_fin {l : ℚ} (hl : l < 2 ^ 128) (n : Nat) {b : Nat} (hb : 0 < b) : over (.fin l) n b = decide (l < fl (fl n / fl b)) := by
  have h := fl_nat_pos hb
  unfold over ofNat div
  simp only [h.ne', if_false]
  exact gt_rn (div_nonneg (fl_nonneg (by positivity)) h.le) hl

theorem isFloat_lt {l : ℚ} (h : IsFloat l) : l < 2 ^ 128 := by
  obtain ⟨k, e, hk, _, he, rfl⟩ := h
  have h1 : (k : ℚ) < 2 ^ 24 := by
    have := lt_of_le_of_lt (le_abs_self k) hk
    have : (k : ℚ) < ((2 ^ 24 : ℤ) : ℚ) := by exact_mod_cast this
    norm_num at this ⊢
    exact this
  have h2 : (2 : ℚ) ^ e ≤ 2 ^ (104 : ℤ) := zpow_le_zpow_right₀ (by norm_num) he
  have h3 := two_zpow_pos e
  have e1 : (2 : ℚ) ^ (104 : ℤ) = 2 ^ 104 := by norm_cast
  rw [e1] at h2
  calc (k : ℚ) * 2 ^ e < 2 ^ 24 * 2 ^ e := mul_lt_mul_of_pos_right h1 h3
    _ ≤ 2 ^ 24 * 2 ^ 104 := by linarith
    _ = 2 ^ 128 := by norm_num

/-- What follows if a load factor is not over the limit. -/
theorem not_over {l : ℚ} (hl : l < 2 ^ 128) {n b : Nat} (hb : 0 < b) (hr : Rep l) (h : fl n ≤ l * fl b) : over (.fin l) n b = false := by
  rw [over_fin hl n hb]
  have hb' := fl_nat_pos hb
  simp only [decide_eq_false_iff_not, not_lt]
  exact fl_le (div_nonneg (fl_nonneg (by positivity)) hb'.le) hr (by rw [div_le_iff₀ hb']; exact h)

/-! ### Ties and overflow -/

theorem halfEven_tie {t : ℚ} {j : ℤ} (h : |t - j| = |t - halfEven t|) (hj : j ≠ halfEven t) :
    halfEven t % 2 = 0 ∧ |halfEven t - j| = 1 := by
  have hf := Int.floor_add_fract t
  have h0 := Int.fract_nonneg t
  have h1 := Int.fract_lt_one t
  have hjq : (j : ℚ) ≠ halfEven t := by exact_mod_cast hj
  have hsum : (j : ℚ) + halfEven t = 2 * t := by
    rcases abs_eq_abs.1 h with h | h
    · exact absurd (by linarith) hjq
    · linarith
  have hhalf : Int.fract t = 1 / 2 := by
    rcases halfEven_cases t with ⟨h, h'⟩ | ⟨h, h'⟩
    · rw [h] at hsum hj
      have a : ((j - ⌊t⌋ : ℤ) : ℚ) = 2 * Int.fract t := by push_cast; linarith
      have b : j - ⌊t⌋ ≤ 1 := by
        have : ((j - ⌊t⌋ : ℤ) : ℚ) ≤ 1 := by rw [a]; linarith
        exact_mod_cast this
      have c : 0 ≤ j - ⌊t⌋ := by
        have : (0 : ℚ) ≤ ((j - ⌊t⌋ : ℤ) : ℚ) := by rw [a]; linarith
        exact_mod_cast this
      have d : j - ⌊t⌋ = 1 := by omega
      rw [d] at a; push_cast at a; linarith
    · rw [h] at hsum hj
      have a : ((⌊t⌋ + 1 - j : ℤ) : ℚ) = 2 * (1 - Int.fract t) := by push_cast at hsum ⊢; linarith
      have b : ⌊t⌋ + 1 - j ≤ 1 := by
        have : ((⌊t⌋ + 1 - j : ℤ) : ℚ) ≤ 1 := by rw [a]; linarith
        exact_mod_cast this
      have c : 0 ≤ ⌊t⌋ + 1 - j := by
        have : (0 : ℚ) ≤ ((⌊t⌋ + 1 - j : ℤ) : ℚ) := by rw [a]; linarith
        exact_mod_cast this
      have d : ⌊t⌋ + 1 - j = 1 := by omega
      rw [d] at a; push_cast at a; linarith
  have hd : j + halfEven t = 2 * ⌊t⌋ + 1 := by
    have : ((j + halfEven t : ℤ) : ℚ) = ((2 * ⌊t⌋ + 1 : ℤ) : ℚ) := by push_cast; linarith
    exact_mod_cast this
  unfold halfEven at hd ⊢
  rw [hhalf] at hd ⊢
  simp only [lt_self_iff_false, if_false] at hd ⊢
  split <;> rename_i he <;> simp only [he, if_true, if_false] at hd
  · refine ⟨he, ?_⟩
    rw [abs_eq (by norm_num)]; omega
  · refine ⟨by omega, ?_⟩
    rw [abs_eq (by norm_num)]; omega

theorem fl_tie {x z : ℚ} (hx : 0 ≤ x) (hz : Rep z) (hne : z ≠ fl x) (h : |x - z| = |x - fl x|) : ∃ k : ℤ, fl x = 2 * k * |fl x - z| := by
  rcases eq_or_lt_of_le hx with h0 | hx0
  · exact ⟨0, by rw [← h0, fl_zero]; simp⟩
  have hu := two_zpow_pos (place x)
  have key : ∀ j : ℤ, z = j * 2 ^ place x → ∃ k : ℤ, fl x = 2 * k * |fl x - z| := by
    rintro j rfl
    have e1 : x - fl x = (x / 2 ^ place x - halfEven (x / 2 ^ place x)) * 2 ^ place x := by
      unfold fl; field_simp
    have e2 : x - j * 2 ^ place x = (x / 2 ^ place x - j) * 2 ^ place x := by field_simp
    rw [e1, e2, abs_mul, abs_mul] at h
    have h := mul_right_cancel₀ (abs_pos.2 hu.ne').ne' h
    have hj : j ≠ halfEven (x / 2 ^ place x) := by
      intro e; apply hne; rw [e]; rfl
    obtain ⟨a, b⟩ := halfEven_tie h hj
    have e3 : |fl x - j * 2 ^ place x| = 2 ^ place x := by
      unfold fl
      rw [← sub_mul, abs_mul, abs_of_pos hu]
      have : |((halfEven (x / 2 ^ place x) : ℤ) : ℚ) - j| = 1 := by exact_mod_cast b
      rw [this, one_mul]
    rw [e3]
    refine ⟨halfEven (x / 2 ^ place x) / 2, ?_⟩
    have : halfEven (x / 2 ^ place x) = 2 * (halfEven (x / 2 ^ place x) / 2) := by omega
    unfold fl
    have : ((halfEven (x / 2 ^ place x) : ℤ) : ℚ) = 2 * ((halfEven (x / 2 ^ place x) / 2 : ℤ) : ℚ) := by exact_mod_cast this
    rw [this]
  rcases le_place hx0 with hp | hp
  · obtain ⟨j, hj⟩ := rep_multiple hz (place x) (.inl hp)
    exact key j hj
  · rcases le_or_gt ((2 : ℚ) ^ (place x + 23)) z with h' | h'
    · obtain ⟨j, hj⟩ := rep_multiple hz (place x) (.inr h')
      exact key j hj
    · have := fl_near hx (rep_pow (place x + 23) (by have := place_ge x; omega))
      rw [← h, abs_of_nonneg (by linarith), abs_of_nonneg (by linarith)] at this
      linarith

theorem isFloat_of_rep {x : ℚ} (h0 : 0 ≤ x) (h : Rep x) (hx : x < 2 ^ 128) : IsFloat x := by
  obtain ⟨k, e, hk, he, rfl⟩ := h
  rcases le_total e 104 with h | h
  · exact ⟨k, e, hk, he, h, rfl⟩
  · obtain ⟨d, rfl⟩ := Int.le.dest h
    have e1 : (k : ℚ) * 2 ^ (104 + (d : ℤ)) = ((k * 2 ^ d : ℤ) : ℚ) * 2 ^ (104 : ℤ) := by
      rw [zpow_add₀ (by norm_num)]; push_cast; rw [zpow_natCast]; ring
    refine ⟨k * 2 ^ d, 104, ?_, by norm_num, le_rfl, e1⟩
    rw [e1] at h0 hx
    have e2 : (2 : ℚ) ^ (104 : ℤ) = 2 ^ 104 := by norm_cast
    rw [e2] at h0 hx
    have h1 : (0 : ℚ) ≤ ((k * 2 ^ d : ℤ) : ℚ) := by
      by_contra hc
      have := mul_neg_of_neg_of_pos (not_le.1 hc) (by norm_num : (0 : ℚ) < 2 ^ 104)
      linarith
    have h2 : ((k * 2 ^ d : ℤ) : ℚ) < ((2 ^ 24 : ℤ) : ℚ) := by
      by_contra hc
      have hc := not_lt.1 hc
      have := mul_le_mul_of_nonneg_right hc (by norm_num : (0 : ℚ) ≤ 2 ^ 104)
      norm_num at this hx
      linarith
    rw [abs_of_nonneg (by exact_mod_cast h1)]
    exact_mod_cast h2

theorem rep_below {y : ℚ} (h : Rep y) (hy : y < 2 ^ 128) : y ≤ 2 ^ 128 - 2 ^ 104 := by
  rcases le_or_gt ((2 : ℚ) ^ (104 + 23 : ℤ)) y with h' | h'
  · obtain ⟨j, rfl⟩ := rep_multiple h 104 (.inr h')
    have e2 : (2 : ℚ) ^ (104 : ℤ) = 2 ^ 104 := by norm_cast
    rw [e2] at hy ⊢
    have : j < 2 ^ 24 := by
      by_contra hc
      have hc : ((2 ^ 24 : ℤ) : ℚ) ≤ j := by exact_mod_cast not_lt.1 hc
      have := mul_le_mul_of_nonneg_right hc (by norm_num : (0 : ℚ) ≤ 2 ^ 104)
      norm_num at this hy
      linarith
    have : j ≤ 2 ^ 24 - 1 := by omega
    have : (j : ℚ) ≤ ((2 ^ 24 - 1 : ℤ) : ℚ) := by exact_mod_cast this
    have := mul_le_mul_of_nonneg_right this (by norm_num : (0 : ℚ) ≤ 2 ^ 104)
    norm_num at this ⊢
    linarith
  · have : (2 : ℚ) ^ (104 + 23 : ℤ) = 2 ^ 127 := by norm_cast
    rw [this] at h'
    norm_num at h' ⊢
    linarith

theorem fl_lt_iff {x : ℚ} (hx : 0 ≤ x) : fl x < 2 ^ 128 ↔ x < 2 ^ 128 - 2 ^ 103 := by
  have r1 : Rep (2 ^ 128) := by have := rep_natpow 128; push_cast at this; exact this
  have r2 : Rep (2 ^ 128 - 2 ^ 104) := ⟨2 ^ 24 - 1, 104, by norm_num, by norm_num, by norm_num⟩
  constructor
  · intro h
    have hm := rep_below (fl_rep hx) h
    have hn := fl_near hx r1
    by_contra hc
    have hc := not_lt.1 hc
    rcases lt_or_ge x (2 ^ 128) with h1 | h1
    · rw [abs_of_nonneg (by norm_num at *; linarith), abs_of_nonpos (by linarith)] at hn
      have hxe : x = 2 ^ 128 - 2 ^ 103 := by norm_num at *; linarith
      have hfe : fl x = 2 ^ 128 - 2 ^ 104 := by norm_num at *; linarith
      obtain ⟨k, hk⟩ := fl_tie hx r1 (by rw [hfe]; norm_num) (by rw [hfe, hxe]; norm_num [abs_of_nonneg, abs_of_nonpos])
      rw [hfe] at hk
      have e : |(2 : ℚ) ^ 128 - 2 ^ 104 - 2 ^ 128| = 2 ^ 104 := by norm_num [abs_of_nonpos]
      rw [e] at hk
      have : ((2 ^ 24 - 1 : ℤ) : ℚ) = ((2 * k : ℤ) : ℚ) := by
        norm_num at hk ⊢
        linarith
      have : (2 ^ 24 - 1 : ℤ) = 2 * k := by exact_mod_cast this
      omega
    · have := le_fl (by positivity) r1 h1
      linarith
  · intro h
    by_contra hc
    have hc := not_lt.1 hc
    have hn := fl_near hx r2
    rw [abs_of_nonpos (by norm_num at *; linarith)] at hn
    rcases abs_cases (x - (2 ^ 128 - 2 ^ 104)) with ⟨a, _⟩ | ⟨a, _⟩ <;> rw [a] at hn <;> norm_num at * <;> linarith

end Hoard.Flt
