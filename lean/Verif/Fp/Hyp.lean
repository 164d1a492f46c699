import Verif.Fp.Trig
import Mathlib.Analysis.SpecialFunctions.Trigonometric.DerivHyp
import Mathlib.Analysis.Complex.ExponentialBounds

/-! `sinh` and `cosh` in binary64 arithmetic. -/
namespace Cest.Fp
open Cest Cest.Cmath

variable {ρ : ℝ → ℝ}

/-- A bound for the intermediate results. -/
@[irreducible] noncomputable def Big : ℝ := 2 ^ 1020

theorem big_ok : 8 * Big ≤ 2 ^ 1023 := by
  unfold Big
  rw [show (2 : ℝ) ^ 1023 = 2 ^ 3 * 2 ^ 1020 by rw [← pow_add]]
  norm_num

theorem rbB (hr : RoundsToNearest ρ) {y : ℝ} (h1 : 1 / 10 ^ 20 ≤ y) (h2 : y ≤ 8 * Big) :
    y * (1 - u) ≤ ρ y ∧ ρ y ≤ y * (1 + u) := by
  refine round_bounds hr (le_trans ?_ h1) (h2.trans big_ok)
  have : (2 : ℝ) ^ 100 ≤ 2 ^ 1022 := pow_le_pow_right₀ (by norm_num) (by norm_num)
  refine one_div_le_one_div_of_le (by positivity) (le_trans (by norm_num) this)

/-- The rounded evaluation of `3 * a + 4 * cube(a)`. -/
theorem triple_rel (hr : RoundsToNearest ρ) {v : ℝ} (h1 : 1 / 10000 ≤ v) (h2 : 3 * v + 4 * v ^ 3 ≤ Big) :
    (3 * v + 4 * v ^ 3) * (1 - 6 * u) ≤ fadd ρ (fmul ρ 3 v) (fmul ρ 4 (cube ρ v)) ∧
    fadd ρ (fmul ρ 3 v) (fmul ρ 4 (cube ρ v)) ≤ (3 * v + 4 * v ^ 3) * (1 + 6 * u) := by
  have hu := u_pos
  have hu1 := u_lt
  norm_num at hu1
  simp only [fadd, fmul, cube]
  have v0 : 0 < v := by linarith
  have v2 : 1 / 10 ^ 8 ≤ v * v := by nlinarith
  have v3 : 1 / 10 ^ 12 ≤ v ^ 3 := by
    have : v ^ 3 = v * v * v := by ring
    rw [this]; nlinarith
  have vv : v * v ≤ v + v ^ 3 := by nlinarith [sq_nonneg (v - 1)]
  norm_num at v2 v3
  have a1 := rbB hr (y := 3 * v) (by norm_num; linarith) (by linarith)
  have a2 := rbB hr (y := v * v) (by norm_num; linarith) (by linarith)
  generalize ρ (3 * v) = p at *
  generalize ρ (v * v) = q at *
  have q3 : v ^ 3 * (1 - u) ≤ q * v ∧ q * v ≤ v ^ 3 * (1 + u) := by
    constructor <;> nlinarith
  have a3 := rbB hr (y := q * v) (by norm_num; nlinarith) (by nlinarith)
  generalize ρ (q * v) = c at *
  have c3 : v ^ 3 * (1 - 2 * u) ≤ c ∧ c ≤ v ^ 3 * (1 + 3 * u) := by
    constructor <;> nlinarith
  have a4 := rbB hr (y := 4 * c) (by norm_num; nlinarith) (by nlinarith)
  generalize ρ (4 * c) = d at *
  have d3 : 4 * v ^ 3 * (1 - 3 * u) ≤ d ∧ d ≤ 4 * v ^ 3 * (1 + 5 * u - u / 10) := by
    constructor <;> nlinarith
  have a5 := rbB hr (y := p + d) (by norm_num; nlinarith) (by nlinarith)
  generalize ρ (p + d) = e at *
  have s1 : (3 * v + 4 * v ^ 3) * (1 - 3 * u) ≤ p + d := by nlinarith
  have s2 : p + d ≤ (3 * v + 4 * v ^ 3) * (1 + 5 * u - u / 10) := by nlinarith
  generalize 3 * v + 4 * v ^ 3 = w at *
  have w0 : 0 < w := by nlinarith
  constructor <;> nlinarith

theorem sinh_le_mul_cosh {t : ℝ} (h : 0 ≤ t) : Real.sinh t ≤ t * Real.cosh t := by
  have hm : MonotoneOn (fun t : ℝ => t * Real.cosh t - Real.sinh t) (Set.Ici 0) := by
    apply monotoneOn_of_deriv_nonneg (convex_Ici 0)
    · fun_prop
    · fun_prop
    · intro x hx
      rw [interior_Ici] at hx
      have : deriv (fun t : ℝ => t * Real.cosh t - Real.sinh t) x = x * Real.sinh x := by
        have := ((hasDerivAt_id x).mul (Real.hasDerivAt_cosh x)).sub (Real.hasDerivAt_sinh x)
        have h := this.deriv
        rw [show (fun t : ℝ => t * Real.cosh t - Real.sinh t) = id * Real.cosh - Real.sinh from rfl, h]
        simp only [id]
        ring
      rw [this]
      exact mul_nonneg (le_of_lt hx) (Real.sinh_nonneg_iff.mpr (le_of_lt hx))
  have := hm (Set.self_mem_Ici) h h
  simp at this
  linarith

/-- Scaling the value of `sinh` up needs less than scaling the argument. -/
theorem mul_sinh_le {t l : ℝ} (h : 0 ≤ t) (hl : 1 ≤ l) : l * Real.sinh t ≤ Real.sinh (l * t) := by
  have e : l * t = t + (l - 1) * t := by ring
  rw [e, Real.sinh_add]
  have p : 0 ≤ (l - 1) * t := mul_nonneg (by linarith) h
  have h1 := Real.one_le_cosh ((l - 1) * t)
  have h2 := Real.self_le_sinh_iff.mpr p
  have h3 := sinh_le_mul_cosh h
  have h4 := Real.sinh_nonneg_iff.mpr h
  have h5 := Real.cosh_pos t
  have h6 : Real.sinh t * 1 ≤ Real.sinh t * Real.cosh ((l - 1) * t) := mul_le_mul_of_nonneg_left h1 h4
  have h7 : Real.cosh t * ((l - 1) * t) ≤ Real.cosh t * Real.sinh ((l - 1) * t) :=
    mul_le_mul_of_nonneg_left h2 h5.le
  have h8 : (l - 1) * Real.sinh t ≤ (l - 1) * (t * Real.cosh t) := mul_le_mul_of_nonneg_left h3 (by linarith)
  linarith

/-- A relative error in `sinh t` is no larger a relative error in `t`. -/
theorem arsinh_rel {t w e : ℝ} (h : 0 ≤ t) (e0 : 0 ≤ e) (e1 : e < 1)
    (h1 : Real.sinh t * (1 - e) ≤ w) (h2 : w ≤ Real.sinh t * (1 + e)) :
    t * (1 - e) ≤ Real.arsinh w ∧ Real.arsinh w ≤ t * (1 + e) := by
  constructor
  · rw [← Real.sinh_le_sinh, Real.sinh_arsinh]
    have := mul_sinh_le (t := t * (1 - e)) (l := 1 / (1 - e)) (mul_nonneg h (by linarith))
      (by rw [le_div_iff₀ (by linarith)]; linarith)
    rw [show 1 / (1 - e) * (t * (1 - e)) = t by field_simp [(by linarith : (1 - e) ≠ 0)],
      one_div_mul_eq_div, div_le_iff₀ (by linarith)] at this
    linarith
  · rw [← Real.sinh_le_sinh, Real.sinh_arsinh]
    have := mul_sinh_le h (l := 1 + e) (by linarith)
    rw [mul_comm (1 + e) t] at this
    linarith

theorem sinh_big {t : ℝ} (h : t ≤ 703) : Real.sinh t ≤ Big := by
  have h1 : Real.sinh t ≤ Real.exp t := by
    rw [Real.sinh_eq]; have := Real.exp_pos (-t); have := Real.exp_pos t; linarith
  have h2 : Real.exp t ≤ 2 ^ 1020 := by
    rw [← Real.le_log_iff_exp_le (by positivity), Real.log_pow]
    have := Real.log_two_gt_d9
    push_cast; norm_num at this ⊢; linarith
  unfold Big
  linarith

theorem arsinh_near' {x : ℝ} (h0 : 0 ≤ x) (h1 : x < 11 / 10000) :
    |Real.arsinh x - x| ≤ x * (1 / 1000000) := by
  have hle : Real.arsinh x ≤ x := by
    rw [← Real.sinh_le_sinh, Real.sinh_arsinh]; exact Real.self_le_sinh_iff.mpr h0
  have hge : x * (1 - 1 / 1000000) ≤ Real.arsinh x := by
    rw [← Real.sinh_le_sinh, Real.sinh_arsinh]
    set t := x * (1 - 1 / 1000000) with ht
    have ht0 : 0 ≤ t := by rw [ht]; nlinarith
    have ht1 : t < 11 / 10000 := by rw [ht]; nlinarith
    have e1 := Real.exp_bound (x := t) (by rw [abs_of_nonneg ht0]; linarith) (n := 4) (by norm_num)
    have e2 := Real.exp_bound (x := -t) (by rw [abs_neg, abs_of_nonneg ht0]; linarith) (n := 4) (by norm_num)
    rw [abs_neg, abs_of_nonneg ht0] at e2
    rw [abs_of_nonneg ht0] at e1
    simp [Finset.sum_range_succ, Nat.factorial] at e1 e2
    rw [abs_le] at e1 e2
    rw [Real.sinh_eq]
    have h3 : t ^ 3 ≤ t * (13 / 10000000) := by
      have : t ^ 2 ≤ 13 / 10000000 := by nlinarith
      nlinarith
    have h4 : t ^ 4 ≤ t / 1000000 := by nlinarith [mul_nonneg ht0 ht0, pow_nonneg ht0 3]
    have hx : t * (1 + 1 / 1000000) ≤ x := by rw [ht]; nlinarith
    nlinarith [e1.2, e2.1]
  rw [abs_of_nonpos (by linarith)]
  linarith

theorem sinhHelper_base (hr : RoundsToNearest ρ) {x : ℝ} (h0 : 0 ≤ x) (h : x < tol ρ) (fuel : ℕ) :
    |Real.arsinh x - x| ≤ x * (1 / 1000000) ∧ sinhHelper ρ (fuel + 1) x () = .ok x () := by
  have hu1 := u_lt
  norm_num at hu1
  have ht := (tol_bounds hr).2
  exact ⟨arsinh_near' h0 (by linarith), by simp only [sinhHelper, if_pos h]; rfl⟩

/-- How the error in the argument grows in one step. -/
theorem step_err {x y θ w e c : ℝ} (hx : 0 ≤ x) (e0 : 0 ≤ e) (e1 : e ≤ 1 / 1000) (c0 : 0 ≤ c) (c1 : c ≤ 1 / 1000)
    (y1 : x / 3 * (1 - e) ≤ y) (y2 : y ≤ x / 3 * (1 + e)) (h : |θ - y| ≤ y * c)
    (z1 : 3 * θ * (1 - 6 * e) ≤ w) (z2 : w ≤ 3 * θ * (1 + 6 * e)) : |w - x| ≤ x * (c + 8 * e) := by
  have p : 0 ≤ x * e := mul_nonneg hx e0
  have q : x * e * c ≤ x * e * (1 / 1000) := mul_le_mul_of_nonneg_left c1 p
  have yc : y * c ≤ x / 3 * (1 + e) * c := mul_le_mul_of_nonneg_right y2 c0
  have xc : x * c ≤ x * (1 / 1000) := mul_le_mul_of_nonneg_left c1 hx
  have xe : x * e ≤ x * (1 / 1000) := mul_le_mul_of_nonneg_left e1 hx
  obtain ⟨h1, h2⟩ := abs_le.mp h
  have t : 3 * θ ≤ x * (101 / 100) := by linarith
  have te : 3 * θ * e ≤ x * (101 / 100) * e := mul_le_mul_of_nonneg_right t e0
  rw [abs_le]
  constructor <;> linarith

/-- The square root of a number near a square. -/
theorem near_of_sq {r c X e : ℝ} (r0 : 0 < r) (c0 : 0 < c) (e1 : e ≤ 1 / 10 ^ 9)
    (h : |r * r - X| ≤ 1000001 / 1000000000 * (r * r)) (h1 : c ^ 2 * (1 - e) ≤ X) (h2 : X ≤ c ^ 2 * (1 + e)) :
    |r - c| ≤ 51 / 100000 * c := by
  obtain ⟨a, b⟩ := abs_le.mp h
  have c2 : 0 < c ^ 2 := by positivity
  have ce : c ^ 2 * e ≤ c ^ 2 * (1 / 10 ^ 9) := mul_le_mul_of_nonneg_left e1 c2.le
  norm_num at ce
  rw [abs_le]
  constructor
  · by_contra hn
    have k : r < c * (1 - 51 / 100000) := by linarith
    have : r ^ 2 < (c * (1 - 51 / 100000)) ^ 2 := pow_lt_pow_left₀ k r0.le (by norm_num)
    nlinarith
  · by_contra hn
    have k : c * (1 + 51 / 100000) < r := by linarith
    have : (c * (1 + 51 / 100000)) ^ 2 < r ^ 2 := pow_lt_pow_left₀ k (by positivity) (by norm_num)
    nlinarith

/-- The value computed is `sinh` of a number close to the argument. -/
theorem sinhHelper_fp (hr : RoundsToNearest ρ) (n : ℕ) (hn : n ≤ 1000000) :
    ∀ x : ℝ, 0 ≤ x → x ≤ 702 → x < 999 / 1000000 * 3 ^ n * (1 - n * (2 * u)) →
    ∃ θ, |θ - x| ≤ x * (1 / 1000000 + n * (8 * u)) ∧
      ∀ fuel, n + 1 ≤ fuel → sinhHelper ρ fuel x () = .ok (Real.sinh θ) () := by
  have hu := u_pos
  have hu1 := u_lt
  obtain ⟨ht1, ht2⟩ := tol_bounds hr
  norm_num at hu1
  induction n with
  | zero =>
    intro x h0 hb h1
    have ht : x < tol ρ := by norm_num at h1; linarith
    refine ⟨Real.arsinh x, by simpa using (sinhHelper_base hr h0 ht 0).1, fun fuel hf => ?_⟩
    obtain ⟨k, rfl⟩ : ∃ k, fuel = k + 1 := ⟨fuel - 1, by omega⟩
    rw [Real.sinh_arsinh]
    exact (sinhHelper_base hr h0 ht k).2
  | succ n ih =>
    intro x h0 hb h1
    by_cases ht : x < tol ρ
    · refine ⟨Real.arsinh x, (sinhHelper_base hr h0 ht 0).1.trans ?_, fun fuel hf => ?_⟩
      · refine mul_le_mul_of_nonneg_left ?_ h0
        have : 0 ≤ ((n + 1 : ℕ) : ℝ) * (8 * u) := by positivity
        linarith
      · obtain ⟨k, rfl⟩ : ∃ k, fuel = k + 1 := ⟨fuel - 1, by omega⟩
        rw [Real.sinh_arsinh]
        exact (sinhHelper_base hr h0 ht k).2
    · have hnr : ((n + 1 : ℕ) : ℝ) ≤ 1000000 := by exact_mod_cast hn
      push_cast at hnr
      have hn0 : (0 : ℝ) ≤ n := by positivity
      obtain ⟨t0, t1⟩ := one_T
      have hT := T_ge
      norm_num at t1 hT
      have x0 : 0 < x := by norm_num at *; linarith
      have y1 := rb hr (y := x / 3) (by norm_num at *; linarith) (by norm_num at *; linarith)
      set y := ρ (x / 3) with hydef
      have hyle : y < 999 / 1000000 * 3 ^ n * (1 - n * (2 * u)) := by
        refine lt_of_le_of_lt y1.2 ?_
        have h3 : x / 3 < 999 / 1000000 * 3 ^ n * (1 - (n + 1) * (2 * u)) := by
          rw [pow_succ] at h1; push_cast at h1; linarith
        have h4 : (1 - (n + 1) * (2 * u)) * (1 + u) ≤ 1 - n * (2 * u) := by
          have e : (1 - (n + 1) * (2 * u)) * (1 + u) = 1 - n * (2 * u) - u - (n + 1) * (2 * u) * u := by ring
          have : 0 ≤ ((n : ℝ) + 1) * (2 * u) * u := by positivity
          linarith
        have h5 : (0 : ℝ) < 999 / 1000000 * 3 ^ n := by positivity
        calc x / 3 * (1 + u) < 999 / 1000000 * 3 ^ n * (1 - (n + 1) * (2 * u)) * (1 + u) :=
              mul_lt_mul_of_pos_right h3 (by linarith)
          _ = 999 / 1000000 * 3 ^ n * ((1 - (n + 1) * (2 * u)) * (1 + u)) := by ring
          _ ≤ _ := mul_le_mul_of_nonneg_left h4 h5.le
      obtain ⟨θ, b1, b3⟩ := ih (by omega) y (by nlinarith) (by nlinarith) hyle
      have δ : (n : ℝ) * (8 * u) ≤ 1 / 1000000 := by nlinarith
      have δ0 : 0 ≤ (n : ℝ) * (8 * u) := by positivity
      rw [show ((n + 1 : ℕ) : ℝ) * (8 * u) = n * (8 * u) + 8 * u by push_cast; ring]
      generalize (n : ℝ) * (8 * u) = δn at *
      have yhi : y ≤ x / 3 * (1 + u) := y1.2
      have ylo : x / 3 * (1 - u) ≤ y := y1.1
      have y0 : 3 / 10000 ≤ y := by nlinarith
      have yb : y ≤ 2341 / 10 := by nlinarith
      have hθ := abs_le.mp b1
      have yc : y * (1 / 1000000 + δn) ≤ y * (2 / 1000000) := mul_le_mul_of_nonneg_left (by linarith) (by linarith)
      have θlo : 2 / 10000 ≤ θ := by nlinarith
      have θhi : 3 * θ ≤ 703 := by nlinarith
      have vlo : 1 / 10000 ≤ Real.sinh θ := by
        have := Real.self_le_sinh_iff.mpr (by linarith : 0 ≤ θ)
        linarith
      have e3 : 3 * Real.sinh θ + 4 * Real.sinh θ ^ 3 = Real.sinh (3 * θ) := by
        rw [Real.sinh_three_mul]; ring
      obtain ⟨w1, w2⟩ := triple_rel hr vlo (by rw [e3]; exact sinh_big θhi)
      rw [e3] at w1 w2
      set w := fadd ρ (fmul ρ 3 (Real.sinh θ)) (fmul ρ 4 (cube ρ (Real.sinh θ))) with hw
      obtain ⟨z1, z2⟩ := arsinh_rel (by linarith : 0 ≤ 3 * θ) (by linarith : 0 ≤ 6 * u) (by linarith) w1 w2
      refine ⟨Real.arsinh w, ?_, fun fuel hf => ?_⟩
      · have := step_err h0 hu.le (by linarith) (by linarith) (by linarith) ylo yhi b1 z1 z2
        rwa [add_assoc] at this
      · obtain ⟨k, rfl⟩ : ∃ k, fuel = k + 1 := ⟨fuel - 1, by omega⟩
        rw [Real.sinh_arsinh]
        simp only [sinhHelper, if_neg ht, M.bind_apply, fdiv_ok (three_ne_zero (α := ℝ)), ← hydef,
          b3 k (by omega), M.pure_apply, hw]

/-- The number of triplings. -/
theorem exists_level' {x : ℝ} (h1 : x ≤ 702) :
    ∃ n : ℕ, n ≤ 20 ∧ x < 999 / 1000000 * 3 ^ n * (1 - n * (2 * u)) := by
  have hu := u_pos
  have hu1 := u_lt
  norm_num at hu1
  refine ⟨20, by norm_num, ?_⟩
  push_cast
  nlinarith

/-- `sinh` and `cosh` of two nearby numbers. -/
theorem sinh_cosh_close {x θ h : ℝ} (x0 : 0 ≤ x) (θ0 : 0 ≤ θ) (h1 : |θ - x| ≤ h) (hh : h ≤ 1 / 10) :
    |Real.sinh θ - Real.sinh x| ≤ 3 * h * Real.cosh x ∧ |Real.cosh θ - Real.cosh x| ≤ 3 * h * Real.cosh x := by
  have h0 : 0 ≤ h := (abs_nonneg _).trans h1
  have hc := Real.cosh_pos x
  obtain ⟨a, b⟩ := abs_le.mp h1
  rcases le_total θ x with hle | hle
  · obtain ⟨k1, k2⟩ := sinh_cosh_near θ0 hle
    have : 2 * (x - θ) * Real.cosh x ≤ 3 * h * Real.cosh x := mul_le_mul_of_nonneg_right (by linarith) hc.le
    exact ⟨k1.trans this, k2.trans this⟩
  · obtain ⟨k1, k2⟩ := sinh_cosh_near x0 hle
    rw [abs_sub_comm] at k1 k2
    have hm : 2 * (θ - x) * Real.cosh θ ≤ 2 * h * Real.cosh θ :=
      mul_le_mul_of_nonneg_right (by linarith) (Real.cosh_pos θ).le
    have hθ := (abs_le.mp k2).2
    have : Real.cosh θ ≤ 5 / 4 * Real.cosh x := by nlinarith [Real.cosh_pos θ]
    have : 2 * h * Real.cosh θ ≤ 2 * h * (5 / 4 * Real.cosh x) := mul_le_mul_of_nonneg_left this (by linarith)
    have : 0 ≤ h * Real.cosh x := by positivity
    exact ⟨by linarith, by linarith⟩

theorem sinhHelper_near (hr : RoundsToNearest ρ) {x : ℝ} (h0 : 0 ≤ x) (h1 : x ≤ 702) :
    ∃ θ, 0 ≤ θ ∧ |θ - x| ≤ 11 / 10 ^ 7 * x ∧
      ∀ fuel, 21 ≤ fuel → sinhHelper ρ fuel x () = .ok (Real.sinh θ) () := by
  have hu := u_pos
  have hu1 := u_lt
  norm_num at hu1
  obtain ⟨n, n1, n2⟩ := exists_level' h1
  obtain ⟨θ, a1, a2⟩ := sinhHelper_fp hr n (by omega) x h0 h1 n2
  have hn : (n : ℝ) ≤ 20 := by exact_mod_cast n1
  have hd : x * (1 / 1000000 + n * (8 * u)) ≤ x * (11 / 10 ^ 7) :=
    mul_le_mul_of_nonneg_left (by norm_num; nlinarith) h0
  norm_num at hd ⊢
  refine ⟨θ, ?_, by linarith, fun fuel hf => a2 fuel (by omega)⟩
  have := (abs_le.mp a1).1
  norm_num at this
  linarith

theorem sinh_val (hr : RoundsToNearest ρ) {x : ℝ} (hx : |x| ≤ 702) :
    ∃ θ, |(|θ| - |x|)| ≤ 11 / 10 ^ 7 * |x| ∧ 0 ≤ θ * x ∧
      ∀ fuel, 21 ≤ fuel → sinh ρ fuel x () = .ok (Real.sinh θ) () := by
  obtain ⟨θ, t0, t1, hN⟩ := sinhHelper_near hr (abs_nonneg x) hx
  by_cases h : x < 0
  · refine ⟨-θ, by rwa [abs_neg, abs_of_nonneg t0], by nlinarith, fun fuel hf => ?_⟩
    have e := hN fuel hf
    rw [abs_of_neg h] at e
    simp only [sinh, h, if_true, M.bind_apply, e, M.pure_apply, Real.sinh_neg]
  · refine ⟨θ, by rwa [abs_of_nonneg t0], mul_nonneg t0 (not_lt.mp h), fun fuel hf => ?_⟩
    have e := hN fuel hf
    rw [abs_of_nonneg (not_lt.mp h)] at e
    simp only [sinh, h, if_false, e]

theorem sinh_depth (hr : RoundsToNearest ρ) {x : ℝ} (hx : |x| ≤ 702) :
    ∃ v, (∀ fuel, 21 ≤ fuel → sinh ρ fuel x () = .ok v ()) ∧ |v - Real.sinh x| ≤ 4 / 10 ^ 6 * |x| * Real.cosh x := by
  obtain ⟨θ, h1, h2, h3⟩ := sinh_val hr hx
  refine ⟨_, h3, ?_⟩
  have hc := Real.cosh_pos x
  have key := (sinh_cosh_close (abs_nonneg x) (abs_nonneg θ) h1 (by norm_num; linarith)).1
  rw [Real.cosh_abs] at key
  have e : |Real.sinh θ - Real.sinh x| = |Real.sinh |θ| - Real.sinh (|x|)| := by
    rcases le_total 0 x with h | h <;> rcases le_total 0 θ with h' | h'
    · rw [abs_of_nonneg h, abs_of_nonneg h']
    · have : θ * x = 0 := by nlinarith
      rcases mul_eq_zero.mp this with rfl | rfl
      · simp [abs_of_nonneg h]
      · simp at h1; subst h1; simp
    · have : θ * x = 0 := by nlinarith
      rcases mul_eq_zero.mp this with rfl | rfl
      · simp [abs_of_nonpos h]
      · simp at h1; subst h1; simp
    · rw [abs_of_nonpos h, abs_of_nonpos h', Real.sinh_neg, Real.sinh_neg, ← abs_neg]
      congr 1; ring
  rw [e]
  refine key.trans (mul_le_mul_of_nonneg_right ?_ hc.le)
  norm_num
  linarith [abs_nonneg x]

theorem sinh_fp (hr : RoundsToNearest ρ) {x : ℝ} (hx : |x| ≤ 702) :
    ∃ v, Gives (fun fuel => sinh ρ fuel x) v ∧ |v - Real.sinh x| ≤ 4 / 10 ^ 6 * |x| * Real.cosh x := by
  obtain ⟨v, h, hb⟩ := sinh_depth hr hx
  exact ⟨v, ⟨21, h⟩, hb⟩

theorem cosh_small {t : ℝ} (h0 : 0 ≤ t) (h : t ≤ 332) : Real.cosh t ^ 2 * 2 ≤ 2 ^ 960 := by
  have h1 : Real.cosh t ≤ Real.exp t := by
    rw [Real.cosh_eq]; have := Real.exp_le_exp.mpr (by linarith : -t ≤ t); linarith
  have h2 : Real.exp t ≤ 2 ^ 479 := by
    rw [← Real.le_log_iff_exp_le (by positivity), Real.log_pow]
    have := Real.log_two_gt_d9
    push_cast; norm_num at this ⊢; linarith
  have h3 : Real.cosh t ^ 2 ≤ (2 ^ 479) ^ 2 := pow_le_pow_left₀ (Real.cosh_pos t).le (h1.trans h2) 2
  rw [← pow_mul] at h3
  calc Real.cosh t ^ 2 * 2 ≤ 2 ^ (479 * 2) * 2 := by linarith
    _ ≤ 2 ^ 960 := by rw [← pow_succ]; exact pow_le_pow_right₀ (by norm_num) (by norm_num)

theorem cosh_depth (hr : RoundsToNearest ρ) {x : ℝ} (hx : |x| ≤ 331) :
    ∃ v, (∀ fuel, 508 ≤ fuel → cosh ρ fuel x () = .ok v ()) ∧ IsDouble v ∧
      |v - Real.cosh x| ≤ (52 / 100000 + 4 / 10 ^ 6 * |x|) * Real.cosh x := by
  have hu := u_pos
  have hu1 := u_lt
  norm_num at hu1
  obtain ⟨θ, h1, -, hN⟩ := sinh_val hr (x := x) (by linarith)
  have hx0 := abs_nonneg x
  norm_num at h1
  have tb : |θ| ≤ 332 := by have := (abs_le.mp h1).2; linarith
  have cs := cosh_small (abs_nonneg θ) tb
  rw [Real.cosh_abs] at cs
  have hch := Real.cosh_sq θ
  set c := Real.cosh θ with hc
  have c1 : 1 ≤ c := Real.one_le_cosh θ
  set s := Real.sinh θ with hs
  have hT := T_ge
  have t0 := one_T
  norm_num at hT t0
  have cT : c ^ 2 * 2 ≤ T := by rw [T]; exact cs
  clear cs
  -- the square and the sum
  have e1 := rb0 hr (p := s * s) (g := 1) (by linarith) (mul_self_nonneg s) (by norm_num; nlinarith)
  have e1' := abs_le.mp e1
  have ss : s * s = c ^ 2 - 1 := by rw [hch]; ring
  rw [ss] at e1 e1'
  have q0 : 0 ≤ ρ (c ^ 2 - 1) := by
    apply hr.ge_of_ge isDouble_zero
    nlinarith
  have e2 := rb hr (y := 1 + ρ (c ^ 2 - 1)) (by norm_num; linarith) (by norm_num; nlinarith)
  generalize hq : ρ (c ^ 2 - 1) = q at *
  have X1 : c ^ 2 * (1 - 3 * u) ≤ ρ (1 + q) := by nlinarith
  have X2 : ρ (1 + q) ≤ c ^ 2 * (1 + 3 * u) := by nlinarith
  generalize hX : ρ (1 + q) = X at *
  have hXl : 1 / 2 ≤ X := by nlinarith
  obtain ⟨r, r1, r2, r3, hN'⟩ := sqrt_within hr (x := X)
    (le_trans (le_trans (one_div_le_one_div_of_le (by norm_num)
      (le_trans (by norm_num : (2 : ℝ) ≤ 2 ^ 1) (pow_le_pow_right₀ (by norm_num) (by norm_num)))) le_rfl) hXl) (by nlinarith)
  refine ⟨r, fun fuel hf => ?_, r1, ?_⟩
  · have e := hN fuel (by omega)
    have e' := hN' fuel hf
    simp only [cosh, M.bind_apply, e, square, fmul, fadd, ss, hq, hX]
    exact e'
  · have key := (sinh_cosh_close hx0 (abs_nonneg θ) h1 (by linarith)).2
    rw [Real.cosh_abs, Real.cosh_abs, ← hc] at key
    have rc := near_of_sq r2 (by linarith) (by norm_num; linarith : 3 * u ≤ 1 / 10 ^ 9) r3 X1 X2
    have h3 := abs_sub_le r c (Real.cosh x)
    have hcx := Real.cosh_pos x
    have hm : 0 ≤ |x| * Real.cosh x := by positivity
    have key2 := (abs_le.mp key).2
    have hxl : |x| * Real.cosh x ≤ 331 * Real.cosh x := mul_le_mul_of_nonneg_right hx hcx.le
    norm_num
    clear_value c s
    clear r3 X1 X2 e1 e1' e2 cT hch h1 hN hN' ss
    linarith

theorem cosh_fp (hr : RoundsToNearest ρ) {x : ℝ} (hx : |x| ≤ 331) :
    ∃ v, Gives (fun fuel => cosh ρ fuel x) v ∧ IsDouble v ∧
      |v - Real.cosh x| ≤ (52 / 100000 + 4 / 10 ^ 6 * |x|) * Real.cosh x := by
  obtain ⟨v, h, hd, hb⟩ := cosh_depth hr hx
  exact ⟨v, ⟨508, h⟩, hd, hb⟩

end Cest.Fp
