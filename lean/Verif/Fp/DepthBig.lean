import Verif.Fp.Depth
import Verif.Fp.Decimal

/-! The depth of `sqrt` for the largest numbers. -/
namespace Cest.Fp
open Cest Cest.Cmath

variable {ρ : ℝ → ℝ}

theorem isDouble_half {d : ℝ} (hd : IsDouble d) (h0 : 1 ≤ d) : IsDouble (d / 2) := by
  obtain ⟨m, e, rfl, hm, h1, h2⟩ := hd
  have he : -1074 < e := by
    by_contra hc
    have e1 : e = -1074 := by omega
    subst e1
    have h3 : (m : ℝ) < 2 ^ 53 := by exact_mod_cast (le_abs_self m).trans_lt hm
    have h4 : (m : ℝ) * 2 ^ (-1074 : ℤ) < 2 ^ 53 * 2 ^ (-1074 : ℤ) := mul_lt_mul_of_pos_right h3 (by positivity)
    have h5 : (2 : ℝ) ^ 53 * 2 ^ (-1074 : ℤ) ≤ 1 := by
      rw [← zpow_natCast, ← zpow_add₀ (by norm_num)]
      exact zpow_le_one_of_nonpos₀ (by norm_num) (by norm_num)
    linarith
  refine ⟨m, e - 1, ?_, hm, by omega, by omega⟩
  rw [zpow_sub₀ (by norm_num), zpow_one, mul_div_assoc]

/-- The halving step never loses more than half. -/
theorem half_step (hr : RoundsToNearest ρ) {g q : ℝ} (hg : IsDouble g) (g1 : 1 ≤ g) (q0 : 0 ≤ q) :
    g / 2 ≤ ρ (ρ (g + ρ q) / 2) := by
  have h1 : 0 ≤ ρ q := hr.ge_of_ge isDouble_zero q0
  have h2 : g ≤ ρ (g + ρ q) := hr.ge_of_ge hg (by linarith)
  exact hr.ge_of_ge (isDouble_half hg g1) (by linarith)

section
variable {r g : ℝ}

/-- Above the root by a hundredth or more, the test fails. -/
theorem test_fails (hr : RoundsToNearest ρ) (r1 : 1 ≤ r) (r2 : r ≤ 2 ^ 1000) (h : 101 / 100 * r ≤ g) :
    ¬ |ρ (g - ρ (r * r / g))| < ρ (tol ρ * g) := by
  have hu := u_pos
  have hu1 := u_lt
  norm_num at hu1
  have g0 : 0 < g := by linarith
  have ht : tol ρ ≤ 11 / 10000 := by have := (tol_bounds hr).2; linarith
  have key : ρ (r * r / g) ≤ 99 / 100 * g := by
    rcases le_or_gt (2 * r) g with h2 | h2
    · have h3 := (le_abs_self _).trans (abs_le_two hr (r * r / g))
      rw [abs_of_nonneg (by positivity)] at h3
      have h4 : r * r / g ≤ g / 4 := by rw [div_le_iff₀ g0]; nlinarith
      linarith
    · have h3 : r / 2 ≤ r * r / g := by rw [le_div_iff₀ g0]; nlinarith
      have h4 : r * r / g ≤ 100 / 101 * r := by rw [div_le_iff₀ g0]; nlinarith
      have h5 : (1 : ℝ) / 2 ^ 1022 ≤ 1 / 2 :=
        one_div_le_one_div_of_le (by norm_num) (by simpa using pow_le_pow_right₀ (show (1 : ℝ) ≤ 2 by norm_num) (show 1 ≤ 1022 by norm_num))
      have h6 : (2 : ℝ) ^ 1000 ≤ 2 ^ 1023 := pow_le_pow_right₀ (by norm_num) (by norm_num)
      have h8 := r2.trans h6
      have h9 : (1 : ℝ) / 2 ^ 1022 ≤ r * r / g := by
        generalize (1 : ℝ) / 2 ^ 1022 = c at *
        linarith only [h5, h3, r1]
      have h7 := (round_bounds hr h9 (le_trans (by linarith only [h4, r1]) h8)).2
      clear h5 h6 r2 h9
      generalize r * r / g = p at *
      nlinarith
  have m := round_mono hr (x := tol ρ * g) (y := g - ρ (r * r / g)) (by nlinarith)
  exact not_lt.mpr (m.trans (le_abs_self _))

/-- One step from `t r` leads to about `(t + 1/t)/2 r` or more. -/
theorem step_lower (hr : RoundsToNearest ρ) (r1 : 1 ≤ r) (r2 : r ≤ 2 ^ 1000) (hd : IsDouble g) {t : ℝ} (t1 : 1 ≤ t) (t2 : t ≤ 2)
    (h : t * r ≤ g) : (t + 1 / t) / 2 * (999 / 1000) * r ≤ ρ (ρ (g + ρ (r * r / g)) / 2) := by
  have hu := u_pos
  have hu1 := u_lt
  norm_num at hu1
  have t0 : 0 < t := by linarith
  have g1 : 1 ≤ g := by nlinarith
  have g0 : 0 < g := by linarith
  have it : 1 / t ≤ 1 := by rw [div_le_iff₀ t0]; linarith
  rcases le_or_gt (4 * r) g with h4 | h4
  · refine le_trans ?_ (half_step hr hd g1 (by positivity))
    have : (t + 1 / t) / 2 * (999 / 1000) ≤ 2 := by linarith
    nlinarith
  · have h3 : r / 4 ≤ r * r / g := by rw [le_div_iff₀ g0]; nlinarith
    have h5 : (1 : ℝ) / 2 ^ 1022 ≤ 1 / 4 :=
      one_div_le_one_div_of_le (by norm_num) (le_trans (by norm_num) (pow_le_pow_right₀ (show (1 : ℝ) ≤ 2 by norm_num) (show 2 ≤ 1022 by norm_num)))
    have h6 : (16 : ℝ) * 2 ^ 1000 ≤ 2 ^ 1023 := by
      rw [show (16 : ℝ) = 2 ^ 4 by norm_num, ← pow_add]
      exact pow_le_pow_right₀ (by norm_num) (by norm_num)
    have h8 : 16 * r ≤ 2 ^ 1023 := (mul_le_mul_of_nonneg_left r2 (by norm_num)).trans h6
    clear h6 r2
    have hq : r * r / g ≤ r := by rw [div_le_iff₀ g0]; nlinarith
    generalize hp : r * r / g = p at *
    -- the exact mean
    have mean : (t + 1 / t) * r ≤ g + p := by
      rw [← hp, ← sub_nonneg]
      have e : g + r * r / g - (t + 1 / t) * r = (g - t * r) * (g * t - r) / (g * t) := by field_simp; ring
      rw [e]
      have : 0 ≤ g * t - r := by nlinarith
      exact div_nonneg (mul_nonneg (by linarith) this) (by positivity)
    have lo : ∀ y : ℝ, 1 / 4 ≤ y → y ≤ 16 * r → y * (1 - u) ≤ ρ y ∧ ρ y ≤ y * (1 + u) := fun y y1 y2 =>
      round_bounds hr (h5.trans y1) (y2.trans h8)
    clear h5 h8
    obtain ⟨a1, a2⟩ := lo p (by linarith) (by linarith)
    have a3 : p * (1 + u) ≤ 2 * r := by nlinarith
    obtain ⟨b1, b2⟩ := lo (g + ρ p) (by nlinarith) (by linarith)
    have b3 : (g + p) * (1 - u) ≤ g + ρ p := by nlinarith
    have b4 : (g + p) * (1 - u) * (1 - u) ≤ ρ (g + ρ p) := le_trans (by nlinarith) b1
    have b5 : ρ (g + ρ p) ≤ 16 * r := by nlinarith
    have b6 : (g + p) * (9995 / 10000) ≤ ρ (g + ρ p) := by nlinarith
    obtain ⟨c1, c2⟩ := lo (ρ (g + ρ p) / 2) (by linarith) (by linarith)
    nlinarith

/-- From `2 r` at least three calls are needed, from `1.2 r` at least two. -/
theorem sqrtHelper_near (hr : RoundsToNearest ρ) (r1 : 1 ≤ r) (r2 : r ≤ 2 ^ 1000) (hd : IsDouble g) (h : 12 / 10 * r ≤ g) {fuel : Nat}
    (hf : fuel ≤ 2) : sqrtHelper ρ fuel (r * r) g () = .timeout := by
  cases fuel with
  | zero => rfl
  | succ n =>
    rw [sqrtHelper_next (by linarith : (0 : ℝ) < g).ne' (test_fails hr r1 r2 (by linarith))]
    cases n with
    | zero => rfl
    | succ m =>
      have m0 : m = 0 := by omega
      subst m0
      have := step_lower hr r1 r2 hd (t := 12 / 10) (by norm_num) (by norm_num) h
      norm_num at this
      generalize ρ (ρ (g + ρ (r * r / g)) / 2) = g' at *
      rw [sqrtHelper_next (by linarith : (0 : ℝ) < g').ne' (test_fails hr r1 r2 (by linarith))]
      rfl

theorem sqrtHelper_slow_big (hr : RoundsToNearest ρ) (h1 : 2 ^ 510 ≤ r) (r2 : r ≤ 2 ^ 1000) :
    ∀ (fuel k : Nat) (g : ℝ), fuel + k ≤ 512 → k ≤ 509 → IsDouble g → r * r / 2 ^ k ≤ g →
      sqrtHelper ρ fuel (r * r) g () = .timeout := by
  have r1 : 1 ≤ r := le_trans (one_le_pow₀ (by norm_num)) h1
  intro fuel
  induction fuel with
  | zero => intros; rfl
  | succ n ih =>
    intro k g hk k1 hd hg
    have g2 : 2 * r ≤ g := by
      refine le_trans ?_ hg
      rw [le_div_iff₀ (by positivity)]
      have h3 : (2 : ℝ) * 2 ^ k ≤ r := by
        rw [← pow_succ']
        exact (pow_le_pow_right₀ (by norm_num) (by omega)).trans h1
      clear h1 r2 ih hg
      generalize (2 : ℝ) ^ k = K at *
      nlinarith
    have g1 : 1 ≤ g := by linarith only [g2, r1]
    rw [sqrtHelper_next (by linarith only [g1] : (0 : ℝ) < g).ne' (test_fails hr r1 r2 (by linarith only [g2, r1]))]
    rcases Nat.lt_or_ge k 509 with h5 | h5
    · refine ih (k + 1) _ (by omega) (by omega) (hr.double _) ?_
      refine le_trans ?_ (half_step hr hd g1 (by positivity))
      rw [pow_succ, ← div_div]
      exact div_le_div_of_nonneg_right hg (by norm_num)
    · have := step_lower hr r1 r2 hd (t := 2) (by norm_num) (by norm_num) g2
      refine sqrtHelper_near hr r1 r2 (hr.double _) ?_ (by omega)
      norm_num at this ⊢
      linarith only [this, r1]

end

/-- The first step leads from 1 to half of `x` or more. -/
theorem sqrt_slow_big (hr : RoundsToNearest ρ) {x : ℝ} (hx : IsDouble x) (h : 2 ^ 1020 ≤ x) {fuel : Nat} (hf : fuel ≤ 512) :
    sqrt ρ fuel x () = .timeout := by
  have x4 : 4 ≤ x := le_trans (le_trans (by norm_num) (pow_le_pow_right₀ (show (1 : ℝ) ≤ 2 by norm_num) (show 2 ≤ 1020 by norm_num))) h
  have x0 : 0 ≤ x := by linarith only [x4]
  have e : Real.sqrt x * Real.sqrt x = x := Real.mul_self_sqrt x0
  have r1 : 2 ^ 510 ≤ Real.sqrt x := Real.le_sqrt_of_sq_le (by rw [← pow_mul]; exact h)
  have r2 : Real.sqrt x ≤ 2 ^ 1000 := by
    rw [Real.sqrt_le_left (by positivity), ← pow_mul]
    exact (isDouble_lt hx).trans (pow_le_pow_right₀ (by norm_num) (by norm_num))
  cases fuel with
  | zero => rfl
  | succ n =>
    have q : ρ (x / 1) = x := by rw [div_one]; exact hr.exact hx
    have ht : tol ρ ≤ 1 / 2 := by have h6 := (tol_bounds hr).2; have h7 := u_lt; norm_num at h7; linarith only [h6, h7]
    have test : ¬ |ρ (1 - ρ (x / 1))| < ρ (tol ρ * 1) := by
      rw [q, not_lt]
      have h1 : IsDouble (-1 : ℝ) := by simpa using isDouble_int (K := ℝ) (k := -1) (by norm_num)
      have h1' : IsDouble (1 : ℝ) := by simpa using isDouble_int (K := ℝ) (k := 1) (by norm_num)
      have h2 : ρ (1 - x) ≤ -1 := hr.le_of_le h1 (by linarith only [x4])
      have h3 : ρ (tol ρ * 1) ≤ 1 := hr.le_of_le h1' (by linarith only [ht])
      have h4 := neg_abs_le (ρ (1 - x))
      linarith only [h2, h3, h4]
    rw [sqrt, sqrtHelper_next one_ne_zero test, q, ← e]
    rw [← e] at hx
    refine sqrtHelper_slow_big hr r1 r2 n 1 _ (by omega) (by norm_num) (hr.double _) ?_
    have h5 : Real.sqrt x * Real.sqrt x ≤ ρ (1 + Real.sqrt x * Real.sqrt x) := hr.ge_of_ge hx (by linarith only)
    rw [pow_one]
    exact hr.ge_of_ge (isDouble_half hx (by rw [e]; linarith only [x4])) (by linarith only [h5])

end Cest.Fp
