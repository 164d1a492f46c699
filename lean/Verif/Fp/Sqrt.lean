import Verif.Fp.Round
import Verif.Cmath.Proofs
import Mathlib.Analysis.Real.Sqrt

/-! Newton's iteration for `sqrt` in binary64 arithmetic. -/
namespace Cest.Fp
open Cest Cest.Cmath

variable {ρ : ℝ → ℝ}

theorem u_lt : u < 2 / 10 ^ 16 := by unfold u; norm_num

/-- A bound on the numbers considered; opaque so that no tactic evaluates it. -/
@[irreducible] noncomputable def T : ℝ := 2 ^ 960

theorem T_ge : 10 ^ 30 ≤ T := by
  unfold T
  exact le_trans (by norm_num : (10 : ℝ) ^ 30 ≤ 2 ^ 100) (pow_le_pow_right₀ (by norm_num) (by norm_num))

theorem big_T : 10 ^ 15 * T ≤ 2 ^ 1023 := by
  unfold T
  rw [show (1023 : ℕ) = 63 + 960 by norm_num, pow_add]
  exact mul_le_mul_of_nonneg_right (by norm_num) (by positivity)

/-- A lower bound on the approximations, opaque too. -/
@[irreducible] noncomputable def tau : ℝ := 1 / 2 ^ 600

theorem one_T : 0 < tau ∧ tau ≤ 1 / 10 ^ 30 := by
  unfold tau
  refine ⟨by positivity, one_div_le_one_div_of_le (by positivity) ?_⟩
  exact le_trans (by norm_num : (10 : ℝ) ^ 30 ≤ 2 ^ 100) (pow_le_pow_right₀ (by norm_num) (by norm_num))

theorem small_tau : 1 / 2 ^ 1022 ≤ tau / 10 ^ 40 := by
  unfold tau
  rw [div_div]
  refine one_div_le_one_div_of_le (by positivity) ?_
  rw [show (1022 : ℕ) = 600 + 422 by norm_num, pow_add]
  refine mul_le_mul_of_nonneg_left ?_ (by positivity)
  exact le_trans (by norm_num : (10 : ℝ) ^ 40 ≤ 2 ^ 200) (pow_le_pow_right₀ (by norm_num) (by norm_num))

theorem small_tau' : 1 / 2 ^ 1022 ≤ tau / 10 ^ 15 := by
  have := one_T.1
  refine small_tau.trans ?_
  norm_num
  linarith

theorem rb (hr : RoundsToNearest ρ) {y : ℝ} (h1 : tau / 10 ^ 15 ≤ y) (h2 : y ≤ 10 ^ 15 * T) :
    y * (1 - u) ≤ ρ y ∧ ρ y ≤ y * (1 + u) :=
  round_bounds hr (small_tau'.trans h1) (h2.trans big_T)

/-- The rounding error of a number that need not be in the normal range. -/
theorem rb0 (hr : RoundsToNearest ρ) {p g : ℝ} (g1 : tau / 8 ≤ g) (p0 : 0 ≤ p) (p2 : p ≤ 10 ^ 15 * T) :
    |ρ p - p| ≤ u * (g + p) := by
  have t0 := one_T.1
  have hu := u_pos
  by_cases h : 1 / 2 ^ 1022 ≤ p
  · have := rel_err hr (x := p) (by rwa [abs_of_nonneg p0]) (by rw [abs_of_nonneg p0]; exact p2.trans big_T)
    rw [abs_of_nonneg p0] at this
    nlinarith
  · have h3 := hr.nearest p 0 isDouble_zero
    rw [sub_zero, abs_sub_comm, abs_of_nonneg p0] at h3
    have h4 : p ≤ tau / 10 ^ 40 := (not_le.mp h).le.trans small_tau
    have h5 : 1 / 10 ^ 20 ≤ u := by unfold u; norm_num
    have h6 : 1 / 10 ^ 20 * (tau / 8) ≤ u * (g + p) := mul_le_mul h5 (by linarith) (by linarith) hu.le
    norm_num at h4 h6
    linarith

theorem tol_bounds (hr : RoundsToNearest ρ) : 1 / 1000 * (1 - u) ≤ tol ρ ∧ tol ρ ≤ 1 / 1000 * (1 + u) := by
  have h1 := one_T
  have h2 := T_ge
  unfold tol
  exact rb hr (by norm_num at h1 ⊢; linarith) (by norm_num at h2 ⊢; linarith)

/-- What one iteration computes. -/
theorem newton_step (hr : RoundsToNearest ρ) {g p : ℝ} (g1 : tau / 8 ≤ g) (g2 : g ≤ 8 * T)
    (p0 : 0 ≤ p) (p2 : p ≤ 8 * T) :
    (g + p) / 2 * (1 - 1 / 10 ^ 15) ≤ ρ (ρ (g + ρ p) / 2) ∧
    ρ (ρ (g + ρ p) / 2) ≤ (g + p) / 2 * (1 + 1 / 10 ^ 15) := by
  have hT := T_ge
  obtain ⟨t0, t1⟩ := one_T
  have hu := u_pos
  have hu1 := u_lt
  norm_num at hu1 hT t1 ⊢
  have q := abs_le.mp (rb0 hr g1 p0 (by norm_num at *; linarith))
  have qa : ρ p ≥ p / 2 - g / 2 := by nlinarith
  have qb : ρ p ≤ 2 * p + g := by nlinarith
  have s := rb hr (y := g + ρ p) (by norm_num at *; linarith) (by norm_num at *; linarith)
  have sa : (g + ρ p) * (1 - u) ≥ (g + ρ p) / 2 := by nlinarith
  have sb : (g + ρ p) * (1 + u) ≤ 2 * (g + ρ p) := by nlinarith
  have d := rb hr (y := ρ (g + ρ p) / 2) (by norm_num at *; linarith) (by norm_num at *; linarith)
  have v1 : 0 ≤ 1 - u := by linarith
  have v2 : 0 ≤ 1 + u := by linarith
  have w1 : (g + p) * (1 - u) ≤ g + ρ p := by nlinarith
  have w2 : g + ρ p ≤ (g + p) * (1 + u) := by nlinarith
  have c1 : 1 - 1 / 10 ^ 15 ≤ (1 - u) * (1 - u) * (1 - u) := by
    norm_num
    nlinarith
  have c2 : (1 + u) * (1 + u) * (1 + u) ≤ 1 + 1 / 10 ^ 15 := by
    norm_num
    nlinarith [mul_pos hu hu]
  constructor
  · refine le_trans ?_ d.1
    have h1 : (g + p) * (1 - u) * (1 - u) ≤ ρ (g + ρ p) :=
      (mul_le_mul_of_nonneg_right w1 v1).trans s.1
    have h2 : (g + p) / 2 * ((1 - u) * (1 - u) * (1 - u)) ≤ ρ (g + ρ p) / 2 * (1 - u) := by
      have := mul_le_mul_of_nonneg_right h1 v1
      linarith
    refine le_trans ?_ h2
    norm_num at c1
    exact mul_le_mul_of_nonneg_left c1 (by linarith)
  · refine d.2.trans ?_
    have h1 : ρ (g + ρ p) ≤ (g + p) * (1 + u) * (1 + u) :=
      s.2.trans (mul_le_mul_of_nonneg_right w2 v2)
    have h2 : ρ (g + ρ p) / 2 * (1 + u) ≤ (g + p) / 2 * ((1 + u) * (1 + u) * (1 + u)) := by
      have := mul_le_mul_of_nonneg_right h1 v2
      linarith
    refine h2.trans ?_
    norm_num at c2
    exact mul_le_mul_of_nonneg_left c2 (by linarith)

/-- The stopping test succeeds near the root. -/
theorem test_pass (hr : RoundsToNearest ρ) {g p : ℝ} (g1 : tau / 8 ≤ g) (g2 : g ≤ 8 * T)
    (p0 : 0 ≤ p) (p2 : p ≤ 8 * T) (h : |g - p| ≤ g / 4000) :
    |ρ (g - ρ p)| < ρ (tol ρ * g) := by
  have hT := T_ge
  obtain ⟨t0, t1⟩ := one_T
  have hu := u_pos
  have hu1 := u_lt
  norm_num at hu1 hT t1
  obtain ⟨a1, a2⟩ := tol_bounds hr
  have q := abs_le.mp (rb0 hr g1 p0 (by norm_num at *; linarith))
  have g0 : 0 < g := by linarith
  have tl : 999 / 1000000 * g ≤ tol ρ * g := mul_le_mul_of_nonneg_right (by linarith) g0.le
  have th : tol ρ * g ≤ 1 * g := mul_le_mul_of_nonneg_right (by linarith) g0.le
  have m := rb hr (y := tol ρ * g) (by norm_num at *; linarith) (by norm_num at *; linarith)
  have m1 : tol ρ * g * (1 - u) ≥ 998 / 1000000 * g := by nlinarith
  have d := abs_le_two hr (g - ρ p)
  rw [abs_le] at h
  have e : |g - ρ p| ≤ g / 4000 + g / 1000000 := by
    rw [abs_le]; constructor <;> nlinarith
  linarith

/-- What the stopping test guarantees. -/
theorem test_acc (hr : RoundsToNearest ρ) {g p : ℝ} (g1 : tau / 8 ≤ g) (g2 : g ≤ 8 * T)
    (p0 : 0 ≤ p) (p2 : p ≤ 8 * T) (h : |ρ (g - ρ p)| < ρ (tol ρ * g)) :
    |g - p| ≤ 1000001 / 1000000000 * g := by
  have hT := T_ge
  obtain ⟨t0, t1⟩ := one_T
  have hu := u_pos
  have hu1 := u_lt
  have hsm := small_tau'
  norm_num at hu1 hT t1
  obtain ⟨a1, a2⟩ := tol_bounds hr
  have q := abs_le.mp (rb0 hr g1 p0 (by norm_num at *; linarith))
  have g0 : 0 < g := by linarith
  have tl : 999 / 1000000 * g ≤ tol ρ * g := mul_le_mul_of_nonneg_right (by linarith) g0.le
  have th : tol ρ * g ≤ 1 / 1000 * (1 + u) * g := mul_le_mul_of_nonneg_right (by linarith) g0.le
  have th' : tol ρ * g ≤ 1 * g := mul_le_mul_of_nonneg_right (by linarith) g0.le
  have m := rb hr (y := tol ρ * g) (by norm_num at *; linarith) (by norm_num at *; linarith)
  have m1 : tol ρ * g * (1 + u) ≤ 10000001 / 10000000000 * g := by nlinarith
  have e : |g - ρ p| ≤ 10000002 / 10000000000 * g := by
    by_cases hc : tau / 10 ^ 15 ≤ |g - ρ p|
    · have r := rel_err hr (x := g - ρ p) (hsm.trans hc) (by
        refine le_trans ?_ big_T
        rw [abs_le]; constructor <;> nlinarith)
      have := abs_sub_abs_le_abs_sub (g - ρ p) (ρ (g - ρ p))
      rw [abs_sub_comm _ (ρ (g - ρ p))] at this
      generalize |g - ρ p| = a at *
      nlinarith [abs_nonneg (ρ (g - ρ p))]
    · norm_num at hc g1 ⊢
      linarith
  rw [abs_le] at e ⊢
  constructor <;> nlinarith

theorem sqrtHelper_pass {x g : ℝ} (hg : g ≠ 0) (h : |ρ (g - ρ (x / g))| < ρ (tol ρ * g)) (fuel : ℕ) :
    sqrtHelper ρ (fuel + 1) x g () = .ok g () := by
  rw [sqrtHelper]
  refine (M.bind_of_ok (fdiv_ok hg)).trans ?_
  refine (congrFun (if_pos ?_) _).trans rfl
  rw [Cmath.abs_eq]; exact h

theorem sqrtHelper_next {x g : ℝ} (hg : g ≠ 0) (h : ¬ |ρ (g - ρ (x / g))| < ρ (tol ρ * g)) (fuel : ℕ) :
    sqrtHelper ρ (fuel + 1) x g () = sqrtHelper ρ fuel x (ρ (ρ (g + ρ (x / g)) / 2)) () := by
  rw [sqrtHelper]
  refine (M.bind_of_ok (fdiv_ok hg)).trans ?_
  refine (congrFun (if_neg ?_) _).trans ?_
  · rw [Cmath.abs_eq]; exact h
  refine (M.bind_of_ok (fdiv_ok hg)).trans ?_
  exact M.bind_of_ok (fdiv_ok two_ne_zero)

/-- The ranges within which the iteration stays. -/
theorem range_ok {s g B : ℝ} (hsB : s * s ≤ B) (x1 : 2 * tau ≤ s) (x2 : B ≤ T)
    (h1 : s * (1 - 1 / 10 ^ 15) ≤ g) (h2 : g ≤ 2 * B) :
    tau / 8 ≤ g ∧ g ≤ 8 * T ∧ 0 ≤ s * s / g ∧ s * s / g ≤ 8 * T := by
  obtain ⟨t0, t1⟩ := one_T
  have hT := T_ge
  norm_num at t1 hT h1
  have hs1 : s / 2 ≤ g := by linarith
  have g0 : 0 < g := by linarith
  have hsT : s ≤ T := by
    by_contra hc
    nlinarith
  refine ⟨by linarith, by linarith, div_nonneg (mul_self_nonneg s) g0.le, ?_⟩
  rw [div_le_iff₀ g0]
  nlinarith

theorem sqrt_conv (hr : RoundsToNearest ρ) {s B : ℝ} (s0 : 0 < s) (hsB : s * s ≤ B)
    (x1 : 2 * tau ≤ s) (x2 : B ≤ T) (n : ℕ) :
    ∀ g, IsDouble g → s * (1 - 1 / 10 ^ 15) ≤ g → g ≤ 2 * B → g ≤ s * (1 + (1999 / 1000) ^ n / 10000) →
    ∃ r, IsDouble r ∧ 0 < r ∧ |r * r - s * s| ≤ 1000001 / 1000000000 * (r * r) ∧
      ∀ fuel, n + 1 ≤ fuel → sqrtHelper ρ fuel (s * s) g () = .ok r () := by
  have key : ∀ g, s * (1 - 1 / 10 ^ 15) ≤ g → g ≤ 2 * B → |ρ (g - ρ (s * s / g))| < ρ (tol ρ * g) →
      0 < g ∧ |g * g - s * s| ≤ 1000001 / 1000000000 * (g * g) := by
    intro g h1 h2 h3
    obtain ⟨r1, r2, r3, r4⟩ := range_ok hsB x1 x2 h1 h2
    have := test_acc hr r1 r2 r3 r4 h3
    have g0 : 0 < g := by norm_num at h1; linarith
    refine ⟨g0, ?_⟩
    have e : g * g - s * s = (g - s * s / g) * g := by field_simp
    rw [e, abs_mul, abs_of_pos g0]
    nlinarith
  have pass : ∀ g, s * (1 - 1 / 10 ^ 15) ≤ g → g ≤ 2 * B → g ≤ s * (1 + 1 / 10000) →
      |ρ (g - ρ (s * s / g))| < ρ (tol ρ * g) := by
    intro g h1 h2 h3
    obtain ⟨r1, r2, r3, r4⟩ := range_ok hsB x1 x2 h1 h2
    refine test_pass hr r1 r2 r3 r4 ?_
    norm_num at h1 h3
    have g0 : 0 < g := by linarith
    have e : g - s * s / g = (g - s) * (g + s) / g := by field_simp; ring
    rw [e, abs_div, abs_mul, abs_of_pos g0, abs_of_pos (by linarith : 0 < g + s), div_le_iff₀ g0]
    rcases le_total s g with h | h
    · rw [abs_of_nonneg (by linarith)]
      have c1 : g - s ≤ g / 10000 := by linarith
      have c2 : g + s ≤ 2 * g := by linarith
      have := mul_le_mul c1 c2 (by linarith) (by linarith)
      nlinarith
    · rw [abs_of_nonpos (by linarith)]
      have c1 : -(g - s) ≤ g / 100000 := by linarith
      have c2 : g + s ≤ 3 * g := by linarith
      have := mul_le_mul c1 c2 (by linarith) (by linarith)
      nlinarith
  induction n with
  | zero =>
    intro g hd h1 h2 h3
    have hp := pass g h1 h2 (by simpa using h3)
    obtain ⟨k1, k2⟩ := key g h1 h2 hp
    refine ⟨g, hd, k1, k2, fun fuel hf => ?_⟩
    obtain ⟨k, rfl⟩ : ∃ k, fuel = k + 1 := ⟨fuel - 1, by omega⟩
    exact sqrtHelper_pass k1.ne' hp k
  | succ n ih =>
    intro g hd h1 h2 h3
    have g0 : 0 < g := by norm_num at h1; linarith
    by_cases hp : |ρ (g - ρ (s * s / g))| < ρ (tol ρ * g)
    · obtain ⟨k1, k2⟩ := key g h1 h2 hp
      refine ⟨g, hd, k1, k2, fun fuel hf => ?_⟩
      obtain ⟨k, rfl⟩ : ∃ k, fuel = k + 1 := ⟨fuel - 1, by omega⟩
      exact sqrtHelper_pass k1.ne' hp k
    · have hfar : s * (1 + 1 / 10000) < g := by
        by_contra hc
        exact hp (pass g h1 h2 (not_lt.mp hc))
      obtain ⟨r1, r2, r3, r4⟩ := range_ok hsB x1 x2 h1 h2
      obtain ⟨n1, n2⟩ := newton_step hr r1 r2 r3 r4
      have hN : (g + s * s / g) / 2 - s = (g - s) ^ 2 / (2 * g) := by field_simp; ring
      have hN1 : s ≤ (g + s * s / g) / 2 := by
        have : 0 ≤ (g - s) ^ 2 / (2 * g) := by positivity
        linarith
      have hN2 : (g + s * s / g) / 2 - s ≤ (g - s) / 2 := by
        rw [hN, div_le_iff₀ (by linarith)]
        nlinarith
      norm_num at n1 n2 hfar
      have b1 : s * (1 - 1 / 10 ^ 15) ≤ ρ (ρ (g + ρ (s * s / g)) / 2) := by
        refine le_trans ?_ n1
        norm_num
        linarith only [hN1]
      have b2 : ρ (ρ (g + ρ (s * s / g)) / 2) ≤ 2 * B := by
        refine le_trans ?_ h2
        refine n2.trans ?_
        nlinarith
      have b3 : ρ (ρ (g + ρ (s * s / g)) / 2) ≤ s * (1 + (1999 / 1000) ^ n / 10000) := by
        rw [pow_succ] at h3
        refine n2.trans ?_
        generalize (1999 / 1000 : ℝ) ^ n = W at *
        have : g - s ≤ s * (W * (1999 / 1000) / 10000) := by linarith
        have h4 : (g + s * s / g) / 2 * (1000000000000001 / 1000000000000000) - s ≤ 1000 / 1999 * (g - s) := by
          nlinarith
        nlinarith
      obtain ⟨r, a1, a2, a3, a4⟩ := ih _ (hr.double _) b1 b2 b3
      refine ⟨r, a1, a2, a3, fun fuel hf => ?_⟩
      obtain ⟨k, rfl⟩ : ∃ k, fuel = k + 1 := ⟨fuel - 1, by omega⟩
      rw [sqrtHelper_next g0.ne' hp]
      exact a4 k (by omega)

/-- `sqrt` in binary64 arithmetic, with the depth of the recursion. -/
theorem sqrt_depth (hr : RoundsToNearest ρ) {s : ℝ} (s0 : 0 < s) (xs : 2 * tau ≤ s) (x2 : s * s ≤ T) {n : ℕ}
    (hn : 10001 * ((1 + s * s) / (2 * s)) ≤ (1999 / 1000) ^ n) :
    ∃ r, IsDouble r ∧ 0 < r ∧ |r * r - s * s| ≤ 1000001 / 1000000000 * (r * r) ∧
      ∀ fuel, n + 2 ≤ fuel → sqrt ρ fuel (s * s) () = .ok r () := by
  obtain ⟨t0, t1⟩ := one_T
  have hT := T_ge
  have hone : IsDouble (1 : ℝ) := by simpa using isDouble_int (K := ℝ) (k := 1) (by norm_num)
  norm_num at t1 hT
  by_cases hp : |ρ (1 - ρ (s * s / 1))| < ρ (tol ρ * 1)
  · have := test_acc hr (g := 1) (p := s * s / 1) (by linarith) (by linarith) (by rw [div_one]; positivity)
      (by rw [div_one]; linarith) hp
    refine ⟨1, hone, one_pos, by simpa using this, fun fuel hf => ?_⟩
    obtain ⟨k, rfl⟩ : ∃ k, fuel = k + 1 := ⟨fuel - 1, by omega⟩
    exact sqrtHelper_pass one_ne_zero hp k
  · obtain ⟨n1, n2⟩ := newton_step hr (g := 1) (p := s * s / 1) (by linarith) (by linarith)
      (by rw [div_one]; positivity) (by rw [div_one]; linarith)
    set g := ρ (ρ (1 + ρ (s * s / 1)) / 2) with hg
    norm_num at n1 n2
    have hlow : s * (1 - 1 / 10 ^ 15) ≤ g := by
      refine le_trans ?_ n1
      norm_num
      nlinarith [sq_nonneg (s - 1)]
    have hup : g ≤ s * (1 + (1999 / 1000) ^ n / 10000) := by
      have e : 10001 * ((1 + s * s) / (2 * s)) * s = 10001 * ((1 + s * s) / 2) := by field_simp
      have h1 := mul_le_mul_of_nonneg_right hn s0.le
      rw [e] at h1
      nlinarith [mul_self_nonneg s]
    have fin : ∃ r, IsDouble r ∧ 0 < r ∧ |r * r - s * s| ≤ 1000001 / 1000000000 * (r * r) ∧
        ∀ fuel, n + 1 ≤ fuel → sqrtHelper ρ fuel (s * s) g () = .ok r () := by
      rcases le_total 1 (s * s) with h | h
      · exact sqrt_conv hr s0 le_rfl xs x2 n g (hr.double _) hlow (by linarith) hup
      · exact sqrt_conv hr s0 h xs (by linarith) n g (hr.double _) hlow (by linarith) hup
    obtain ⟨r, a1, a2, a3, a4⟩ := fin
    refine ⟨r, a1, a2, a3, fun fuel hf => ?_⟩
    obtain ⟨k, rfl⟩ : ∃ k, fuel = k + 1 := ⟨fuel - 1, by omega⟩
    show sqrtHelper ρ (k + 1) (s * s) 1 () = _
    rw [sqrtHelper_next one_ne_zero hp]
    exact a4 k (by omega)

/-- Between 2⁻⁹⁸⁰ and 2⁹⁶⁰ the recursion is at most 508 deep. -/
theorem sqrt_within (hr : RoundsToNearest ρ) {x : ℝ} (x1 : 1 / 2 ^ 980 ≤ x) (x2 : x ≤ T) :
    ∃ r, IsDouble r ∧ 0 < r ∧ |r * r - x| ≤ 1000001 / 1000000000 * (r * r) ∧
      ∀ fuel, 508 ≤ fuel → sqrt ρ fuel x () = .ok r () := by
  have hx : 0 < x := lt_of_lt_of_le (by positivity) x1
  obtain ⟨s, s0, rfl⟩ : ∃ s, 0 < s ∧ x = s * s :=
    ⟨Real.sqrt x, Real.sqrt_pos.mpr hx, (Real.mul_self_sqrt hx.le).symm⟩
  have s1 : 1 / 2 ^ 490 ≤ s := by
    by_contra hc
    have h1 : s * s < (1 / 2 ^ 490) * (1 / 2 ^ 490) := by
      have := not_le.mp hc
      exact mul_lt_mul'' this this s0.le s0.le
    refine absurd (x1.trans_lt h1) (not_lt.mpr (le_of_eq ?_))
    rw [div_mul_div_comm, ← pow_add]; norm_num
  have s2 : s ≤ 2 ^ 490 := by
    by_contra hc
    have h1 : (2 ^ 490 : ℝ) * 2 ^ 490 < s * s := by
      have := not_le.mp hc
      exact mul_lt_mul'' this this (by positivity) (by positivity)
    refine absurd (h1.trans_le x2) (not_lt.mpr ?_)
    rw [T, ← pow_add]
    exact pow_le_pow_right₀ (by norm_num) (by norm_num)
  have xs : 2 * tau ≤ s := by
    refine le_trans ?_ s1
    rw [tau, mul_one_div, div_le_div_iff₀ (by positivity) (by positivity), one_mul, ← pow_succ']
    exact pow_le_pow_right₀ (by norm_num) (by norm_num)
  refine sqrt_depth hr s0 xs x2 (n := 506) ?_
  have e : (1 + s * s) / (2 * s) = (1 / s + s) / 2 := by field_simp
  have h3 : 1 / s ≤ 2 ^ 490 := by rw [div_le_comm₀ s0 (by positivity)]; exact s1
  have h4 : (1 : ℝ) + 506 * (-(1 / 2000)) ≤ (1 + -(1 / 2000)) ^ 506 := by
    have := one_add_mul_le_pow (R := ℝ) (a := -(1 / 2000)) (by norm_num) 506
    exact_mod_cast this
  have h5 : ((1999 : ℝ) / 1000) ^ 506 = 2 ^ 490 * 2 ^ 16 * (1 + -(1 / 2000)) ^ 506 := by
    rw [← pow_add, ← mul_pow]; norm_num
  rw [e, h5]
  generalize ((1 : ℝ) + -(1 / 2000)) ^ 506 = A at *
  have h6 : (0 : ℝ) < 2 ^ 490 := by positivity
  generalize (2 : ℝ) ^ 490 = B at *
  norm_num at h4
  have h7 : B * (747 / 1000) ≤ B * A := mul_le_mul_of_nonneg_left h4 h6.le
  linarith

/-- `sqrt` in binary64 arithmetic. -/
theorem sqrt_fp (hr : RoundsToNearest ρ) {x : ℝ} (x1 : 1 / 2 ^ 1074 ≤ x) (x2 : x ≤ T) :
    ∃ r, IsDouble r ∧ 0 < r ∧ |r * r - x| ≤ 1000001 / 1000000000 * (r * r) ∧
      Gives (fun fuel => sqrt ρ fuel x) r := by
  obtain ⟨t0, t1⟩ := one_T
  have hx : 0 < x := lt_of_lt_of_le (by positivity) x1
  obtain ⟨s, s0, rfl⟩ : ∃ s, 0 < s ∧ x = s * s :=
    ⟨Real.sqrt x, Real.sqrt_pos.mpr hx, (Real.mul_self_sqrt hx.le).symm⟩
  have xs : 2 * tau ≤ s := by
    by_contra hc
    have h1 : s * s < (2 * tau) * (2 * tau) := by nlinarith
    refine absurd (x1.trans_lt h1) (not_lt.mpr ?_)
    unfold tau
    rw [mul_one_div, div_mul_div_comm, div_le_div_iff₀ (by positivity) (by positivity), ← pow_add, one_mul]
    have : (2 : ℝ) ^ (600 + 600) = 2 ^ 126 * 2 ^ 1074 := by rw [← pow_add]
    rw [this]
    exact mul_le_mul_of_nonneg_right (by norm_num) (by positivity)
  obtain ⟨n, hn⟩ := pow_unbounded_of_one_lt (10001 * ((1 + s * s) / (2 * s))) (by norm_num : (1 : ℝ) < 1999 / 1000)
  obtain ⟨r, a1, a2, a3, a4⟩ := sqrt_depth hr s0 xs x2 hn.le
  exact ⟨r, a1, a2, a3, n + 2, a4⟩

end Cest.Fp
