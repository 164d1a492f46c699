import Verif.Cmath.Proofs
import Mathlib.Analysis.SpecialFunctions.Trigonometric.Bounds
import Mathlib.Analysis.SpecialFunctions.Arsinh
import Mathlib.Analysis.Real.Pi.Bounds
import Mathlib.Analysis.Complex.ExponentialBounds
import Mathlib.Analysis.Complex.Exponential

/-! Lemmas about sin, cos, sinh, cosh, sqrt and exp over the real numbers, in exact arithmetic. -/

namespace Cest.Cmath

open Real in
theorem arcsin_near {x : ℝ} (h0 : 0 ≤ x) (h1 : x < 1 / 1000) :
    Real.sin (Real.arcsin x) = x ∧ x ≤ Real.arcsin x ∧ Real.arcsin x ≤ x * (1 + 1 / 1000000) := by
  have hs : Real.sin (Real.arcsin x) = x := Real.sin_arcsin (by linarith) (by linarith)
  have ha0 : 0 ≤ Real.arcsin x := Real.arcsin_nonneg.mpr h0
  refine ⟨hs, ?_, ?_⟩
  · have := Real.sin_le ha0
    linarith
  · rcases h0.lt_or_eq with hp | rfl
    · rw [Real.arcsin_le_iff_le_sin' ⟨by nlinarith [Real.pi_gt_three], by nlinarith [Real.pi_gt_three]⟩]
      have ht : 0 < x * (1 + 1 / 1000000) := by positivity
      have := Real.sin_gt_sub_cube ht
      have h3 : (x * (1 + 1 / 1000000)) ^ 3 / 6 ≤ x / 1000000 := by
        have : x ^ 2 ≤ 1 / 1000000 := by nlinarith
        have e : (x * (1 + 1 / 1000000)) ^ 3 / 6 = x * (x ^ 2 * ((1 + 1 / 1000000) ^ 3 / 6)) := by ring
        rw [e, div_eq_mul_one_div]
        apply mul_le_mul_of_nonneg_left _ h0
        nlinarith
      linarith
    · simp

theorem lt_tol_pow (x : ℝ) : ∃ n : ℕ, x < 1 / 1000 * 3 ^ n := by
  obtain ⟨n, hn⟩ := pow_unbounded_of_one_lt (x * 1000) (by norm_num : (1 : ℝ) < 3)
  exact ⟨n, by linarith⟩

theorem sinHelper_val (n : ℕ) : ∀ x : ℝ, 0 ≤ x → x < 1 / 1000 * 3 ^ n →
    ∃ θ, x ≤ θ ∧ θ ≤ x * (1 + 1 / 1000000) ∧
      ∀ fuel, n + 1 ≤ fuel → sinHelper id fuel x () = .ok (Real.sin θ) () := by
  induction n with
  | zero =>
    intro x h0 h1
    obtain ⟨a1, a2, a3⟩ := arcsin_near h0 (by simpa using h1)
    refine ⟨Real.arcsin x, a2, a3, fun fuel hf => ?_⟩
    obtain ⟨k, rfl⟩ : ∃ k, fuel = k + 1 := ⟨fuel - 1, by omega⟩
    have : x < tol id := by simpa [tol] using h1
    simp only [sinHelper, if_pos this, a1]; rfl
  | succ n ih =>
    intro x h0 h1
    by_cases ht : x < 1 / 1000
    · obtain ⟨a1, a2, a3⟩ := arcsin_near h0 ht
      refine ⟨Real.arcsin x, a2, a3, fun fuel hf => ?_⟩
      obtain ⟨k, rfl⟩ : ∃ k, fuel = k + 1 := ⟨fuel - 1, by omega⟩
      have : x < tol id := by simpa [tol] using ht
      simp only [sinHelper, if_pos this, a1]; rfl
    · obtain ⟨θ, b1, b2, b3⟩ := ih (x / 3) (by positivity) (by rw [pow_succ] at h1; linarith)
      refine ⟨3 * θ, by linarith, by linarith, fun fuel hf => ?_⟩
      obtain ⟨k, rfl⟩ : ∃ k, fuel = k + 1 := ⟨fuel - 1, by omega⟩
      have : ¬ x < tol id := by simpa [tol] using ht
      simp only [sinHelper, if_neg this, M.bind_apply, fdiv_ok (three_ne_zero (α := ℝ)), id,
        b3 k (by omega), M.pure_apply, fsub, fmul, cube]
      congr 1
      rw [Real.sin_three_mul]; ring

theorem arsinh_near {x : ℝ} (h0 : 0 ≤ x) (h1 : x < 1 / 1000) :
    x * (1 - 1 / 1000000) ≤ Real.arsinh x ∧ Real.arsinh x ≤ x := by
  constructor
  · rw [← Real.sinh_le_sinh, Real.sinh_arsinh]
    set t := x * (1 - 1 / 1000000) with ht
    have ht0 : 0 ≤ t := by rw [ht]; nlinarith
    have ht1 : t < 1 / 1000 := by rw [ht]; nlinarith
    have e1 := Real.exp_bound (x := t) (by rw [abs_of_nonneg ht0]; linarith) (n := 4) (by norm_num)
    have e2 := Real.exp_bound (x := -t) (by rw [abs_neg, abs_of_nonneg ht0]; linarith) (n := 4) (by norm_num)
    rw [abs_neg, abs_of_nonneg ht0] at e2
    rw [abs_of_nonneg ht0] at e1
    simp [Finset.sum_range_succ, Nat.factorial] at e1 e2
    rw [abs_le] at e1 e2
    rw [Real.sinh_eq]
    have h3 : t ^ 3 ≤ t / 1000000 := by
      have : t ^ 2 ≤ 1 / 1000000 := by nlinarith
      nlinarith
    have h4 : t ^ 4 ≤ t / 1000000 := by nlinarith [mul_nonneg ht0 ht0, pow_nonneg ht0 3]
    have hx : t * (1 + 1 / 1000000) ≤ x := by rw [ht]; nlinarith
    nlinarith [e1.2, e2.1]
  · rw [← Real.sinh_le_sinh, Real.sinh_arsinh]
    exact Real.self_le_sinh_iff.mpr h0

theorem sinhHelper_val (n : ℕ) : ∀ x : ℝ, 0 ≤ x → x < 1 / 1000 * 3 ^ n →
    ∃ θ, x * (1 - 1 / 1000000) ≤ θ ∧ θ ≤ x ∧
      ∀ fuel, n + 1 ≤ fuel → sinhHelper id fuel x () = .ok (Real.sinh θ) () := by
  induction n with
  | zero =>
    intro x h0 h1
    obtain ⟨a2, a3⟩ := arsinh_near h0 (by simpa using h1)
    refine ⟨Real.arsinh x, a2, a3, fun fuel hf => ?_⟩
    obtain ⟨k, rfl⟩ : ∃ k, fuel = k + 1 := ⟨fuel - 1, by omega⟩
    have : x < tol id := by simpa [tol] using h1
    simp only [sinhHelper, if_pos this, Real.sinh_arsinh]; rfl
  | succ n ih =>
    intro x h0 h1
    by_cases ht : x < 1 / 1000
    · obtain ⟨a2, a3⟩ := arsinh_near h0 ht
      refine ⟨Real.arsinh x, a2, a3, fun fuel hf => ?_⟩
      obtain ⟨k, rfl⟩ : ∃ k, fuel = k + 1 := ⟨fuel - 1, by omega⟩
      have : x < tol id := by simpa [tol] using ht
      simp only [sinhHelper, if_pos this, Real.sinh_arsinh]; rfl
    · obtain ⟨θ, b1, b2, b3⟩ := ih (x / 3) (by positivity) (by rw [pow_succ] at h1; linarith)
      refine ⟨3 * θ, by linarith, by linarith, fun fuel hf => ?_⟩
      obtain ⟨k, rfl⟩ : ∃ k, fuel = k + 1 := ⟨fuel - 1, by omega⟩
      have : ¬ x < tol id := by simpa [tol] using ht
      simp only [sinhHelper, if_neg this, M.bind_apply, fdiv_ok (three_ne_zero (α := ℝ)), id,
        b3 k (by omega), M.pure_apply, fadd, fmul, cube]
      congr 1
      rw [Real.sinh_three_mul]; ring

/-- `sinh` and `cosh` change by at most `2 h cosh x` when the argument is lowered by `h`. -/
theorem sinh_cosh_near {x θ : ℝ} (h0 : 0 ≤ θ) (h1 : θ ≤ x) :
    |Real.sinh θ - Real.sinh x| ≤ 2 * (x - θ) * Real.cosh x ∧
    |Real.cosh θ - Real.cosh x| ≤ 2 * (x - θ) * Real.cosh x := by
  have hh : 0 ≤ x - θ := by linarith
  have a1 : Real.exp x - Real.exp θ ≤ (x - θ) * Real.exp x := by
    have := Real.add_one_le_exp (-(x - θ))
    have e : Real.exp θ = Real.exp x * Real.exp (-(x - θ)) := by rw [← Real.exp_add]; congr 1; ring
    rw [e]
    nlinarith [Real.exp_pos x]
  have a2 : Real.exp (-θ) - Real.exp (-x) ≤ (x - θ) * Real.exp (-θ) := by
    have := Real.add_one_le_exp (-(x - θ))
    have e : Real.exp (-x) = Real.exp (-θ) * Real.exp (-(x - θ)) := by rw [← Real.exp_add]; congr 1; ring
    rw [e]
    nlinarith [Real.exp_pos (-θ)]
  have a3 : Real.exp (-θ) ≤ Real.exp x := Real.exp_le_exp.mpr (by linarith)
  have a4 : Real.exp x ≤ 2 * Real.cosh x := by
    rw [Real.cosh_eq]; have := Real.exp_pos (-x); linarith
  have a5 : (x - θ) * Real.exp (-θ) ≤ (x - θ) * Real.exp x := mul_le_mul_of_nonneg_left a3 hh
  have a6 : (x - θ) * Real.exp x ≤ (x - θ) * (2 * Real.cosh x) := mul_le_mul_of_nonneg_left a4 hh
  have a7 : Real.exp θ ≤ Real.exp x := Real.exp_le_exp.mpr h1
  have a8 : Real.exp (-x) ≤ Real.exp (-θ) := Real.exp_le_exp.mpr (by linarith)
  constructor
  · rw [Real.sinh_eq, Real.sinh_eq, abs_le]
    constructor <;> linarith
  · have hC := Real.cosh_eq x
    have hT := Real.cosh_eq θ
    rw [abs_le]
    constructor <;> linarith

theorem sqrt_near {x r : ℝ} (hx : 0 < x) (hr : 0 < r) (h : |r - x / r| < 1 / 1000 * r) :
    |r - Real.sqrt x| ≤ 51 / 100000 * Real.sqrt x := by
  have hs := Real.sq_sqrt hx.le
  have hs0 : 0 < Real.sqrt x := Real.sqrt_pos.mpr hx
  set s := Real.sqrt x
  have h2 : |r ^ 2 - x| < 1 / 1000 * r ^ 2 := by
    have e : r ^ 2 - x = r * (r - x / r) := by field_simp
    rw [e, abs_mul, abs_of_pos hr]
    nlinarith
  rw [abs_lt] at h2
  rw [abs_le]
  constructor
  · by_contra hc
    push Not at hc
    have : r < s * (1 - 51 / 100000) := by linarith
    have : r ^ 2 < (s * (1 - 51 / 100000)) ^ 2 := by
      apply pow_lt_pow_left₀ this hr.le (by norm_num)
    nlinarith
  · by_contra hc
    push Not at hc
    have : s * (1 + 51 / 100000) < r := by linarith
    have : (s * (1 + 51 / 100000)) ^ 2 < r ^ 2 := by
      apply pow_lt_pow_left₀ this (by positivity) (by norm_num)
    nlinarith

theorem sqrt_val {x : ℝ} (hx : 0 < x) :
    ∃ r, 0 < r ∧ |r ^ 2 - x| < 1 / 1000 * r ^ 2 ∧ |r - Real.sqrt x| ≤ 51 / 100000 * Real.sqrt x ∧
      ∃ N, ∀ fuel, N ≤ fuel → sqrt id fuel x () = .ok r () := by
  obtain ⟨r, h1, h2, h3⟩ := sqrtHelper_terminates hx one_pos
  refine ⟨r, h1, ?_, sqrt_near hx h1 h2, h3⟩
  have e : r ^ 2 - x = r * (r - x / r) := by field_simp
  rw [e, abs_mul, abs_of_pos h1]
  nlinarith

theorem mPi_near : |mPi id - Real.pi| ≤ 1 / 1000000000000000 ∧
    |mPi2 id - Real.pi / 2| ≤ 1 / 1000000000000000 := by
  have h1 := Real.pi_gt_d20
  have h2 := Real.pi_lt_d20
  simp only [mPi, mPi2, id]
  rw [abs_le, abs_le]
  refine ⟨⟨?_, ?_⟩, ?_, ?_⟩ <;> norm_num at h1 h2 ⊢ <;> linarith

end Cest.Cmath
