import Verif.Cmath.Double
import Mathlib.Data.Int.Log
import Mathlib.Algebra.Order.Archimedean.Real.Basic
import Mathlib.Algebra.Order.Round

/-!
Consequences of `RoundsToNearest`: error bounds of a binary64 rounding, and the spacing of binary64 numbers.
-/
namespace Cest.Fp
open Cest Cest.Cmath

variable {ρ : ℝ → ℝ}

/-- The unit roundoff of binary64. -/
noncomputable def u : ℝ := 1 / 2 ^ 53

theorem u_pos : 0 < u := by unfold u; positivity

theorem zpow_cast (n : ℕ) : (2 : ℝ) ^ (n : ℤ) = 2 ^ n := zpow_natCast 2 n

/-- Every number in the normal range has a binary64 number within relative distance `u`. -/
theorem exists_near_pos {x : ℝ} (h1 : 1 / 2 ^ 1022 ≤ x) (h2 : x ≤ 2 ^ 1023) :
    ∃ d, IsDouble d ∧ |x - d| ≤ u * x := by
  have hx : 0 < x := lt_of_lt_of_le (by positivity) h1
  set e := Int.log 2 x with he
  have l1 : (2 : ℝ) ^ e ≤ x := by
    have := Int.zpow_log_le_self (b := 2) (R := ℝ) (by norm_num) hx
    simpa using this
  have l2 : x < (2 : ℝ) ^ (e + 1) := by
    have := Int.lt_zpow_succ_log_self (b := 2) (R := ℝ) (by norm_num) x
    simpa using this
  have e1 : -1022 ≤ e := by
    by_contra hc
    have : e + 1 ≤ -1022 := by omega
    have h3 : (2 : ℝ) ^ (e + 1) ≤ 2 ^ (-1022 : ℤ) := zpow_le_zpow_right₀ (by norm_num) this
    have h4 : (2 : ℝ) ^ (-1022 : ℤ) = 1 / 2 ^ 1022 := by rw [zpow_neg, one_div]; norm_cast
    rw [h4] at h3
    exact absurd (l2.trans_le (h3.trans h1)) (lt_irrefl x)
  have e2 : e ≤ 1023 := by
    by_contra hc
    have : (1024 : ℤ) ≤ e := by omega
    have h3 : (2 : ℝ) ^ (1024 : ℤ) ≤ 2 ^ e := zpow_le_zpow_right₀ (by norm_num) this
    have h4 : (2 : ℝ) ^ (1024 : ℤ) = 2 ^ 1023 * 2 := by
      rw [show (1024 : ℤ) = ((1024 : ℕ) : ℤ) by norm_num, zpow_natCast, ← pow_succ]
    have h5 : (0 : ℝ) < 2 ^ 1023 := by positivity
    rw [h4] at h3
    generalize (2 : ℝ) ^ 1023 = B at h2 h3 h5
    linarith
  set s : ℝ := 2 ^ (e - 52) with hs
  have s0 : 0 < s := by rw [hs]; positivity
  have se : (2 : ℝ) ^ e = s * 2 ^ 52 := by
    rw [hs, ← zpow_cast 52, ← zpow_add₀ (by norm_num)]; congr 1; ring
  have se1 : (2 : ℝ) ^ (e + 1) = s * 2 ^ 53 := by
    rw [hs, ← zpow_cast 53, ← zpow_add₀ (by norm_num)]; congr 1; ring
  set m := round (x / s) with hm
  have hr : |x / s - m| ≤ 1 / 2 := abs_sub_round (x / s)
  have q1 : (2 : ℝ) ^ 52 ≤ x / s := by rw [le_div_iff₀ s0]; linarith
  have q2 : x / s < 2 ^ 53 := by rw [div_lt_iff₀ s0]; linarith
  have herr : |x - m * s| ≤ u * x := by
    have : x - m * s = (x / s - m) * s := by field_simp
    rw [this, abs_mul, abs_of_pos s0]
    have : u * x = 1 / 2 * (x / (2 ^ 52)) := by unfold u; ring
    rw [this]
    have : s ≤ x / 2 ^ 52 := by rw [le_div_iff₀ (by positivity)]; linarith
    nlinarith [abs_nonneg (x / s - m)]
  rw [abs_le] at hr
  have m1 : (2 : ℤ) ^ 52 ≤ m := by
    have : (2 : ℝ) ^ 52 - 1 < m := by linarith
    have : ((2 ^ 52 - 1 : ℤ) : ℝ) < m := by push_cast; norm_num at this ⊢; exact this
    have := Int.cast_lt.mp this
    omega
  have m2 : m ≤ (2 : ℤ) ^ 53 := by
    have : (m : ℝ) < 2 ^ 53 + 1 := by linarith
    have : (m : ℝ) < ((2 ^ 53 + 1 : ℤ) : ℝ) := by push_cast; norm_num at this ⊢; exact this
    have := Int.cast_lt.mp this
    omega
  rcases m2.lt_or_eq with m3 | m3
  · refine ⟨m * s, ⟨m, e - 52, rfl, ?_, by omega, by omega⟩, herr⟩
    rw [abs_of_nonneg (by omega)]; exact m3
  · have e3 : e ≤ 1022 := by
      by_contra hc
      have : e = 1023 := by omega
      have hx2 : x = 2 ^ 1023 := by
        refine le_antisymm h2 ?_
        rw [this, show (1023 : ℤ) = ((1023 : ℕ) : ℤ) by norm_num, zpow_natCast] at l1
        exact l1
      have : x / s = 2 ^ 52 := by
        rw [div_eq_iff s0.ne', mul_comm, ← se, this, hx2,
          show (1023 : ℤ) = ((1023 : ℕ) : ℤ) by norm_num, zpow_natCast]
      rw [this] at hr
      rw [m3] at hr
      norm_num at hr
    refine ⟨m * s, ⟨2 ^ 52, e - 51, ?_, by norm_num, by omega, by omega⟩, herr⟩
    rw [m3, hs, show e - 51 = e - 52 + 1 by ring, zpow_add_one₀ (by norm_num)]
    push_cast; ring

theorem exists_near {x : ℝ} (h1 : 1 / 2 ^ 1022 ≤ |x|) (h2 : |x| ≤ 2 ^ 1023) :
    ∃ d, IsDouble d ∧ |x - d| ≤ u * |x| := by
  rcases le_total 0 x with h | h
  · rw [abs_of_nonneg h] at *; exact exists_near_pos h1 h2
  · rw [abs_of_nonpos h] at *
    obtain ⟨d, hd, he⟩ := exists_near_pos h1 h2
    refine ⟨-d, hd.neg, ?_⟩
    rw [show x - -d = -(-x - d) by ring, abs_neg]; exact he

/-- Relative error in the normal range. -/
theorem rel_err (hr : RoundsToNearest ρ) {x : ℝ} (h1 : 1 / 2 ^ 1022 ≤ |x|) (h2 : |x| ≤ 2 ^ 1023) :
    |ρ x - x| ≤ u * |x| := by
  obtain ⟨d, hd, he⟩ := exists_near h1 h2
  rw [abs_sub_comm]
  exact (hr.nearest x d hd).trans he

theorem isDouble_zero : IsDouble (0 : ℝ) := by
  simpa using isDouble_int (K := ℝ) (k := 0) (by norm_num)

/-- A rounding at most doubles. -/
theorem abs_le_two (hr : RoundsToNearest ρ) (x : ℝ) : |ρ x| ≤ 2 * |x| := by
  have h := hr.nearest x 0 isDouble_zero
  rw [sub_zero] at h
  have := abs_sub_abs_le_abs_sub (ρ x) x
  rw [abs_sub_comm] at this
  linarith

/-- Absolute error: for `|x| ≤ B` with `B` in the normal range it is at most `u * B`. -/
theorem abs_err (hr : RoundsToNearest ρ) {x B : ℝ} (h : |x| ≤ B) (h1 : 1 / 2 ^ 900 ≤ B) (h2 : B ≤ 2 ^ 1023) :
    |ρ x - x| ≤ u * B := by
  have hu := u_pos
  by_cases hx : 1 / 2 ^ 1022 ≤ |x|
  · refine (rel_err hr hx (h.trans h2)).trans ?_
    exact mul_le_mul_of_nonneg_left h hu.le
  · have h3 := hr.nearest x 0 isDouble_zero
    rw [sub_zero, abs_sub_comm] at h3
    refine h3.trans ((not_le.mp hx).le.trans ?_)
    have : u * (1 / 2 ^ 900) ≤ u * B := mul_le_mul_of_nonneg_left h1 hu.le
    refine le_trans ?_ this
    unfold u
    rw [div_mul_div_comm, one_mul, ← pow_add]
    exact one_div_le_one_div_of_le (by positivity) (pow_le_pow_right₀ (by norm_num) (by norm_num))

/-- The factor form of `rel_err`. -/
theorem rel_factor (hr : RoundsToNearest ρ) {x : ℝ} (h1 : 1 / 2 ^ 1022 ≤ |x|) (h2 : |x| ≤ 2 ^ 1023) :
    ∃ θ, ρ x = x * θ ∧ 1 - u ≤ θ ∧ θ ≤ 1 + u := by
  have hx : x ≠ 0 := by
    rintro rfl
    rw [abs_zero] at h1
    exact absurd (lt_of_lt_of_le (by positivity) h1) (lt_irrefl (0 : ℝ))
  have h := rel_err hr h1 h2
  have e : ρ x - x = x * (ρ x / x - 1) := by field_simp
  rw [e, abs_mul, mul_comm] at h
  have h3 := le_of_mul_le_mul_right h (abs_pos.mpr hx)
  rw [abs_le] at h3
  exact ⟨ρ x / x, by field_simp, by linarith, by linarith⟩

/-- For a positive number in the normal range. -/
theorem round_bounds (hr : RoundsToNearest ρ) {x : ℝ} (h1 : 1 / 2 ^ 1022 ≤ x) (h2 : x ≤ 2 ^ 1023) :
    x * (1 - u) ≤ ρ x ∧ ρ x ≤ x * (1 + u) := by
  have hx : 0 < x := lt_of_lt_of_le (by positivity) h1
  have h := rel_err hr (x := x) (by rwa [abs_of_pos hx]) (by rwa [abs_of_pos hx])
  rw [abs_of_pos hx, abs_le] at h
  constructor <;> linarith

/-- Spacing: binary64 numbers of magnitude at least `2^k` are multiples of `2^(k-52)`. -/
theorem grid {d : ℝ} (hd : IsDouble d) {k : ℤ} (h : (2 : ℝ) ^ k ≤ |d|) : ∃ n : ℤ, d = n * 2 ^ (k - 52) := by
  obtain ⟨m, e, rfl, hm, -, -⟩ := hd
  have he : k - 52 ≤ e := by
    by_contra hc
    have h1 : e ≤ k - 53 := by omega
    have hp : (0 : ℝ) < 2 ^ e := by positivity
    rw [abs_mul, abs_of_pos hp] at h
    have h2 : |(m : ℝ)| < 2 ^ 53 := by
      have : ((|m| : ℤ) : ℝ) < ((2 ^ 53 : ℤ) : ℝ) := Int.cast_lt.mpr hm
      push_cast at this; norm_num at this ⊢; exact this
    have h3 : (2 : ℝ) ^ e ≤ 2 ^ (k - 53) := zpow_le_zpow_right₀ (by norm_num) h1
    have h4 : (2 : ℝ) ^ k = 2 ^ 53 * 2 ^ (k - 53) := by
      rw [← zpow_cast 53, ← zpow_add₀ (by norm_num)]; congr 1; ring
    have h5 : (0 : ℝ) < 2 ^ (k - 53) := by positivity
    nlinarith
  refine ⟨m * 2 ^ (e - (k - 52)).toNat, ?_⟩
  push_cast
  rw [mul_assoc, ← zpow_natCast, ← zpow_add₀ (by norm_num)]
  congr 2
  omega

end Cest.Fp
