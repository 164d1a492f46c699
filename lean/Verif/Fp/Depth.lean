import Verif.Fp.Trig
import Verif.Fp.Exp
import Verif.Fp.Hyp
import Verif.Fp.Atan
import Verif.Cmath.Cost

/-! Depth and cost of the recursions of `cmath.hpp`. -/
namespace Cest.Fp
open Cest Cest.Cmath

section
set_option linter.unusedSectionVars false
variable {K : Type} [Field K] [LinearOrder K] [IsStrictOrderedRing K] [FloorRing K] {ρ : K → K}

theorem sinHelperC_forget (fuel : ℕ) : ∀ (x : K) (v : K) (n : ℕ), sinHelperC ρ fuel x () = .ok (v, n) () →
    sinHelper ρ fuel x () = .ok v () := by
  induction fuel with
  | zero => intro x v n h; simp [sinHelperC, M.timeout] at h
  | succ fuel ih =>
    intro x v n h
    by_cases hx : x < tol ρ
    · simp only [sinHelperC, hx, if_true, M.pure_apply] at h
      simp only [sinHelper, hx, if_true, M.pure_apply]
      injection h with h
      rw [(Prod.mk.inj h).1]
    · simp only [sinHelperC, hx, if_false, M.bind_apply, fdiv_ok (three_ne_zero (α := K))] at h
      rcases e : sinHelperC ρ fuel (ρ (x / 3)) () with ⟨⟨a, k⟩, ⟨⟩⟩ | _ | _ | _
      · simp only [e, M.pure_apply] at h
        injection h with h
        simp only [sinHelper, hx, if_false, M.bind_apply, fdiv_ok (three_ne_zero (α := K)), ih _ _ _ e, M.pure_apply]
        rw [← (Prod.mk.inj h).1]
      all_goals simp [e] at h

theorem sinhHelperC_forget (fuel : ℕ) : ∀ (x : K) (v : K) (n : ℕ), sinhHelperC ρ fuel x () = .ok (v, n) () →
    sinhHelper ρ fuel x () = .ok v () := by
  induction fuel with
  | zero => intro x v n h; simp [sinhHelperC, M.timeout] at h
  | succ fuel ih =>
    intro x v n h
    by_cases hx : x < tol ρ
    · simp only [sinhHelperC, hx, if_true, M.pure_apply] at h
      simp only [sinhHelper, hx, if_true, M.pure_apply]
      injection h with h
      rw [(Prod.mk.inj h).1]
    · simp only [sinhHelperC, hx, if_false, M.bind_apply, fdiv_ok (three_ne_zero (α := K))] at h
      rcases e : sinhHelperC ρ fuel (ρ (x / 3)) () with ⟨⟨a, k⟩, ⟨⟩⟩ | _ | _ | _
      · simp only [e, M.pure_apply] at h
        injection h with h
        simp only [sinhHelper, hx, if_false, M.bind_apply, fdiv_ok (three_ne_zero (α := K)), ih _ _ _ e, M.pure_apply]
        rw [← (Prod.mk.inj h).1]
      all_goals simp [e] at h

/-- `x` divided by three `k` times, with rounding. -/
def third (ρ : K → K) (k : ℕ) (x : K) : K := (fun y => ρ (y / 3))^[k] x

theorem third_zero (x : K) : third ρ 0 x = x := rfl
theorem third_succ (k : ℕ) (x : K) : third ρ (k + 1) x = third ρ k (ρ (x / 3)) := rfl
theorem third_succ' (k : ℕ) (x : K) : third ρ (k + 1) x = ρ (third ρ k x / 3) :=
  Function.iterate_succ_apply' _ _ _

/-- A run of `sin_helper` makes `2^(d+1) - 1` calls, `d` being the number of divisions by three. -/
theorem sin_calls (fuel : ℕ) : ∀ (x v : K) (n : ℕ), sinHelperC ρ fuel x () = .ok (v, n) () →
    ∃ d, d < fuel ∧ (∀ k < d, tol ρ ≤ third ρ k x) ∧ third ρ d x < tol ρ ∧ n + 1 = 2 ^ (d + 1) := by
  induction fuel with
  | zero => intro x v n h; simp [sinHelperC, M.timeout] at h
  | succ fuel ih =>
    intro x v n h
    by_cases hx : x < tol ρ
    · simp only [sinHelperC, hx, if_true, M.pure_apply] at h
      injection h with h
      refine ⟨0, by omega, fun k hk => absurd hk (by omega), hx, ?_⟩
      rw [← (Prod.mk.inj h).2]; rfl
    · simp only [sinHelperC, hx, if_false, M.bind_apply, fdiv_ok (three_ne_zero (α := K))] at h
      rcases e : sinHelperC ρ fuel (ρ (x / 3)) () with ⟨⟨a, k⟩, ⟨⟩⟩ | _ | _ | _
      · simp only [e, M.pure_apply] at h
        injection h with h
        obtain ⟨d, d1, d2, d3, d4⟩ := ih _ _ _ e
        refine ⟨d + 1, by omega, fun j hj => ?_, d3, ?_⟩
        · rcases j with _ | j
          · exact not_lt.mp hx
          · exact d2 j (by omega)
        · have := (Prod.mk.inj h).2
          rw [pow_succ, ← d4]; omega
      all_goals simp [e] at h

theorem sinh_calls (fuel : ℕ) : ∀ (x v : K) (n : ℕ), sinhHelperC ρ fuel x () = .ok (v, n) () →
    ∃ d, d < fuel ∧ (∀ k < d, tol ρ ≤ third ρ k x) ∧ third ρ d x < tol ρ ∧ n + 1 = 2 ^ (d + 1) := by
  induction fuel with
  | zero => intro x v n h; simp [sinhHelperC, M.timeout] at h
  | succ fuel ih =>
    intro x v n h
    by_cases hx : x < tol ρ
    · simp only [sinhHelperC, hx, if_true, M.pure_apply] at h
      injection h with h
      refine ⟨0, by omega, fun k hk => absurd hk (by omega), hx, ?_⟩
      rw [← (Prod.mk.inj h).2]; rfl
    · simp only [sinhHelperC, hx, if_false, M.bind_apply, fdiv_ok (three_ne_zero (α := K))] at h
      rcases e : sinhHelperC ρ fuel (ρ (x / 3)) () with ⟨⟨a, k⟩, ⟨⟩⟩ | _ | _ | _
      · simp only [e, M.pure_apply] at h
        injection h with h
        obtain ⟨d, d1, d2, d3, d4⟩ := ih _ _ _ e
        refine ⟨d + 1, by omega, fun j hj => ?_, d3, ?_⟩
        · rcases j with _ | j
          · exact not_lt.mp hx
          · exact d2 j (by omega)
        · have := (Prod.mk.inj h).2
          rw [pow_succ, ← d4]; omega
      all_goals simp [e] at h

/-- With enough fuel the recursion ends, and more fuel changes nothing. -/
theorem sin_ends (d : ℕ) : ∀ x : K, third ρ d x < tol ρ →
    ∃ v n, ∀ fuel, d < fuel → sinHelperC ρ fuel x () = .ok (v, n) () := by
  induction d with
  | zero =>
    intro x h
    refine ⟨x, 1, fun fuel hf => ?_⟩
    obtain ⟨k, rfl⟩ : ∃ k, fuel = k + 1 := ⟨fuel - 1, by omega⟩
    rw [third_zero] at h
    simp only [sinHelperC, h, if_true, M.pure_apply]
  | succ d ih =>
    intro x h
    by_cases hx : x < tol ρ
    · refine ⟨x, 1, fun fuel hf => ?_⟩
      obtain ⟨k, rfl⟩ : ∃ k, fuel = k + 1 := ⟨fuel - 1, by omega⟩
      simp only [sinHelperC, hx, if_true, M.pure_apply]
    · obtain ⟨v, n, hv⟩ := ih (ρ (x / 3)) h
      refine ⟨fsub ρ (fmul ρ 3 v) (fmul ρ 4 (cube ρ v)), n + n + 1, fun fuel hf => ?_⟩
      obtain ⟨k, rfl⟩ : ∃ k, fuel = k + 1 := ⟨fuel - 1, by omega⟩
      simp only [sinHelperC, hx, if_false, M.bind_apply, fdiv_ok (three_ne_zero (α := K)), hv k (by omega), M.pure_apply]

theorem sinh_ends (d : ℕ) : ∀ x : K, third ρ d x < tol ρ →
    ∃ v n, ∀ fuel, d < fuel → sinhHelperC ρ fuel x () = .ok (v, n) () := by
  induction d with
  | zero =>
    intro x h
    refine ⟨x, 1, fun fuel hf => ?_⟩
    obtain ⟨k, rfl⟩ : ∃ k, fuel = k + 1 := ⟨fuel - 1, by omega⟩
    rw [third_zero] at h
    simp only [sinhHelperC, h, if_true, M.pure_apply]
  | succ d ih =>
    intro x h
    by_cases hx : x < tol ρ
    · refine ⟨x, 1, fun fuel hf => ?_⟩
      obtain ⟨k, rfl⟩ : ∃ k, fuel = k + 1 := ⟨fuel - 1, by omega⟩
      simp only [sinhHelperC, hx, if_true, M.pure_apply]
    · obtain ⟨v, n, hv⟩ := ih (ρ (x / 3)) h
      refine ⟨fadd ρ (fmul ρ 3 v) (fmul ρ 4 (cube ρ v)), n + n + 1, fun fuel hf => ?_⟩
      obtain ⟨k, rfl⟩ : ∃ k, fuel = k + 1 := ⟨fuel - 1, by omega⟩
      simp only [sinhHelperC, hx, if_false, M.bind_apply, fdiv_ok (three_ne_zero (α := K)), hv k (by omega), M.pure_apply]

end

variable {ρ : ℝ → ℝ}

theorem third_nonneg (hr : RoundsToNearest ρ) {x : ℝ} (h0 : 0 ≤ x) (k : ℕ) : 0 ≤ third ρ k x := by
  induction k with
  | zero => exact h0
  | succ k ih => rw [third_succ']; exact hr.ge_of_ge isDouble_zero (by linarith)

theorem small_pow {n : ℕ} (hn : 200 ≤ n) : (1:ℝ) / 2 ^ n ≤ 1 / 10 ^ 5 :=
  one_div_le_one_div_of_le (by norm_num)
    (le_trans (by norm_num) (pow_le_pow_right₀ (by norm_num : (1:ℝ) ≤ 2) hn))

theorem third_le (hr : RoundsToNearest ρ) {x X : ℝ} (h0 : 0 ≤ x) (hX : x ≤ X) (h2 : X ≤ 10 ^ 15) :
    ∀ k : ℕ, k ≤ 30 → 1 / 10 ^ 5 ≤ X / 3 ^ k → third ρ k x ≤ X / 3 ^ k * (1 + u) ^ k := by
  have hu := u_pos
  have hu1 := u_lt
  norm_num at hu1
  have X0 : 0 ≤ X := h0.trans hX
  intro k
  induction k with
  | zero => intro _ _; simpa [third_zero] using hX
  | succ k ih =>
    intro hk h1
    have e : X / 3 ^ (k + 1) = X / 3 ^ k / 3 := by rw [pow_succ]; field_simp
    rw [e] at h1 ⊢
    have ih := ih (by omega) (by norm_num at h1 ⊢; linarith)
    have hn := third_nonneg hr h0 k
    have p1 : (1 : ℝ) ≤ (1 + u) ^ k := one_le_pow₀ (by linarith)
    have p2 : (1 + u) ^ k ≤ 2 ^ 30 :=
      (pow_le_pow_left₀ (by linarith) (by linarith : 1 + u ≤ 2) k).trans (pow_le_pow_right₀ (by norm_num) (by omega))
    rw [third_succ']
    have q : third ρ k x / 3 ≤ X / 3 ^ k / 3 * (1 + u) ^ k := by linarith
    have b1 : 1 / 10 ^ 5 ≤ X / 3 ^ k / 3 * (1 + u) ^ k := by
      have : (0:ℝ) ≤ X / 3 ^ k / 3 := by positivity
      nlinarith
    have b2 : X / 3 ^ k / 3 * (1 + u) ^ k ≤ 10 ^ 15 * 2 ^ 30 := by
      have : X / 3 ^ k ≤ X := div_le_self X0 (one_le_pow₀ (by norm_num))
      refine mul_le_mul (by linarith) p2 (by linarith) (by norm_num)
    have a := abs_err hr (x := third ρ k x / 3) (by rw [abs_of_nonneg (by linarith)]; exact q)
      (le_trans (small_pow (by norm_num)) b1) (b2.trans (le_trans (by norm_num) (pow_le_pow_right₀ (by norm_num : (1:ℝ) ≤ 2) (by norm_num : 200 ≤ 1023))))
    rw [pow_succ, ← mul_assoc]
    have := (abs_le.mp a).2
    linarith

/-- Rounding to nearest is monotone. -/
theorem round_mono (hr : RoundsToNearest ρ) {x y : ℝ} (h : x ≤ y) : ρ x ≤ ρ y := by
  rcases eq_or_lt_of_le h with rfl | h
  · exact le_rfl
  by_contra c
  have c := not_lt.mp (fun a => c (le_of_lt a)) |> lt_of_le_of_ne (b := ρ x) <| fun e => c e.ge
  have a := hr.nearest x (ρ y) (hr.double y)
  have b := hr.nearest y (ρ x) (hr.double x)
  have a := sq_le_sq.mpr a
  have b := sq_le_sq.mpr b
  nlinarith

theorem third_mono (hr : RoundsToNearest ρ) {x y : ℝ} (h : x ≤ y) (k : ℕ) : third ρ k x ≤ third ρ k y := by
  induction k with
  | zero => exact h
  | succ k ih => rw [third_succ', third_succ']; exact round_mono hr (by linarith)

theorem le_third (hr : RoundsToNearest ρ) {x X : ℝ} (hX : X ≤ x) (h2 : X ≤ 10 ^ 15) :
    ∀ k : ℕ, k ≤ 30 → 1 / 10 ^ 4 ≤ X / 3 ^ k → X / 3 ^ k * (1 - u) ^ k ≤ third ρ k x := by
  have hu := u_pos
  have hu1 := u_lt
  norm_num at hu1
  intro k hk h
  refine le_trans ?_ (third_mono hr hX k)
  have X0 : 0 ≤ X := by
    by_contra c
    have : X / 3 ^ k ≤ 0 := div_nonpos_of_nonpos_of_nonneg (by linarith) (by positivity)
    norm_num at h; linarith
  induction k with
  | zero => simp [third_zero]
  | succ k ih =>
    have e : X / 3 ^ (k + 1) = X / 3 ^ k / 3 := by rw [pow_succ]; field_simp
    rw [e] at h ⊢
    have ih := ih (by omega) (by norm_num at h ⊢; linarith)
    have up := third_le hr X0 le_rfl h2 k (by omega) (by norm_num at h ⊢; linarith)
    have p1 : 1 / 2 ≤ (1 - u) ^ k := by
      have := one_add_mul_le_pow (a := -u) (by linarith) k
      rw [← sub_eq_add_neg] at this
      have hk' : (k : ℝ) ≤ 30 := by exact_mod_cast (by omega : k ≤ 30)
      nlinarith
    have p2 : (1 + u) ^ k ≤ 2 ^ 30 :=
      (pow_le_pow_left₀ (by linarith) (by linarith : 1 + u ≤ 2) k).trans (pow_le_pow_right₀ (by norm_num) (by omega))
    have b0 : (0:ℝ) ≤ X / 3 ^ k := by positivity
    have b1 : 1 / 10 ^ 5 ≤ third ρ k X / 3 := by norm_num at h ⊢; nlinarith
    have b2 : third ρ k X / 3 ≤ 10 ^ 15 * 2 ^ 30 := by
      have : X / 3 ^ k ≤ X := div_le_self X0 (one_le_pow₀ (by norm_num))
      have : X / 3 ^ k * (1 + u) ^ k ≤ 10 ^ 15 * 2 ^ 30 :=
        mul_le_mul (by linarith) p2 (by positivity) (by norm_num)
      have := third_nonneg hr X0 k
      linarith
    rw [third_succ', pow_succ, ← mul_assoc]
    refine le_trans ?_ (round_bounds hr (le_trans (small_pow (by norm_num)) b1)
      (b2.trans (le_trans (by norm_num) (pow_le_pow_right₀ (by norm_num : (1:ℝ) ≤ 2) (by norm_num : 200 ≤ 1023))))).1
    exact mul_le_mul_of_nonneg_right (by linarith) (by linarith)

/-- Enough divisions by three bring the argument below the tolerance … -/
theorem third_small (hr : RoundsToNearest ρ) {x : ℝ} {d : ℕ} (hd : d ≤ 30) (h0 : 0 ≤ x) (hx : 1010 * x ≤ 3 ^ d) :
    third ρ d x < tol ρ := by
  have hu := u_pos
  have hu1 := u_lt
  norm_num at hu1
  have d0 : (0:ℝ) < 3 ^ d := by positivity
  have d1 : (3:ℝ) ^ d ≤ 3 ^ 30 := pow_le_pow_right₀ (by norm_num) hd
  norm_num at d1
  have e : (3:ℝ) ^ d / 1010 / 3 ^ d = 1 / 1010 := by field_simp
  have a := third_le hr (x := x) h0 (X := 3 ^ d / 1010) (by linarith) (by norm_num; linarith) d hd (by rw [e]; norm_num)
  rw [e] at a
  have t := (tol_bounds hr).1
  have : (1 + u) ^ d ≤ 1 + 1 / 10 ^ 6 :=
    (pow_le_pow_right₀ (by linarith) hd).trans
      ((pow_le_pow_left₀ (by linarith) (by linarith : 1 + u ≤ 1 + 1 / 5000000000000000) 30).trans (by norm_num))
  norm_num at a this
  linarith

/-- … and too few do not. -/
theorem third_large (hr : RoundsToNearest ρ) {x : ℝ} {d k : ℕ} (hd : d ≤ 30) (hx : 3 ^ d ≤ 990 * x) (hk : k ≤ d) :
    tol ρ ≤ third ρ k x := by
  have hu := u_pos
  have hu1 := u_lt
  norm_num at hu1
  have d1 : (3:ℝ) ^ d ≤ 3 ^ 30 := pow_le_pow_right₀ (by norm_num) hd
  norm_num at d1
  have e3 : (3:ℝ) ^ k ≤ 3 ^ d := pow_le_pow_right₀ (by norm_num) hk
  have d0 : (0:ℝ) < 3 ^ k := by positivity
  have e4 : (1:ℝ) / 990 ≤ 3 ^ d / 990 / 3 ^ k := by
    rw [div_div, div_le_div_iff₀ (by norm_num) (by positivity)]; linarith
  have a := le_third hr (x := x) (X := 3 ^ d / 990) (by linarith) (by norm_num; linarith) k (by omega)
    (le_trans (by norm_num) e4)
  have t := (tol_bounds hr).2
  have p1 : 999 / 1000 ≤ (1 - u) ^ k := by
    have := one_add_mul_le_pow (a := -u) (by linarith) k
    rw [← sub_eq_add_neg] at this
    have hk' : (k : ℝ) ≤ 30 := by exact_mod_cast (by omega : k ≤ 30)
    nlinarith
  have : (1:ℝ) / 990 * (999 / 1000) ≤ 3 ^ d / 990 / 3 ^ k * (1 - u) ^ k :=
    mul_le_mul e4 p1 (by norm_num) (by positivity)
  norm_num at this a
  linarith

/-! ### the depth of `sqrt` for the smallest numbers -/

theorem isDouble_inv_pow {k : ℕ} (h : k ≤ 1074) : IsDouble ((1:ℝ) / 2 ^ k) :=
  ⟨1, -(k : ℤ), by rw [zpow_neg, zpow_natCast]; simp, by norm_num, by omega, by omega⟩

theorem sqrtHelper_slow (hr : RoundsToNearest ρ) {x : ℝ} (x0 : 0 ≤ x) (hx : x ≤ 1 / 2 ^ 1023) (fuel : ℕ) :
    ∀ (k : ℕ) (g : ℝ), fuel + k ≤ 512 → 1 / 2 ^ k ≤ g → sqrtHelper ρ fuel x g () = .timeout := by
  have hu := u_pos
  have hu1 := u_lt
  norm_num at hu1
  induction fuel with
  | zero => intro k g _ _; rfl
  | succ fuel ih =>
    intro k g hf hg
    have g0 : 0 < g := lt_of_lt_of_le (by positivity) hg
    have hp : (0:ℝ) < 2 ^ k := by positivity
    -- the quotient is at most half of the approximation
    have hq : x / g ≤ 1 / 2 ^ (k + 1) := by
      rw [div_le_iff₀ g0]
      refine hx.trans ?_
      have h1 : (1:ℝ) / 2 ^ (k + 1) * (1 / 2 ^ k) ≤ 1 / 2 ^ (k + 1) * g := mul_le_mul_of_nonneg_left hg (by positivity)
      refine le_trans ?_ h1
      rw [div_mul_div_comm, ← pow_add, one_mul]
      exact one_div_le_one_div_of_le (by positivity) (pow_le_pow_right₀ (by norm_num) (by omega))
    have hq1 : ρ (x / g) ≤ 1 / 2 ^ (k + 1) := hr.le_of_le (isDouble_inv_pow (by omega)) hq
    have hq0 : 0 ≤ ρ (x / g) := hr.ge_of_ge isDouble_zero (by positivity)
    have hh : (1:ℝ) / 2 ^ (k + 1) ≤ g / 2 := by
      rw [pow_succ, ← div_div]; linarith
    have ht : tol ρ ≤ 1 / 2 := by have := (tol_bounds hr).2; linarith
    have m := round_mono hr (x := tol ρ * g) (y := g - ρ (x / g)) (by nlinarith)
    have test : ¬ |ρ (g - ρ (x / g))| < ρ (tol ρ * g) := not_lt.mpr (m.trans (le_abs_self _))
    rw [sqrtHelper_next g0.ne' test]
    refine ih (k + 1) _ (by omega) ?_
    refine hr.ge_of_ge (isDouble_inv_pow (by omega)) ?_
    have := hr.ge_of_ge (x := g + ρ (x / g)) (isDouble_inv_pow (by omega : k ≤ 1074)) (by linarith)
    rw [pow_succ, ← div_div]; linarith

/-! ### depth and cost of `sin` and `sinh` -/

theorem mPi_le (hr : RoundsToNearest ρ) : 0 ≤ mPi ρ ∧ mPi ρ ≤ 4 := by
  have h := abs_le.mp (mPi_fp hr).1
  have h1 := Real.pi_gt_three
  have h2 := Real.pi_lt_d2
  norm_num at h
  constructor <;> linarith

/-- The argument of `sin_helper` in `sin(x)`. -/
theorem sin_arg (hr : RoundsToNearest ρ) {x : ℝ} (hx : |x| ≤ 10 ^ 15) :
    0 ≤ (if x < 0 then fadd ρ (-x) (mPi ρ) else x) ∧
      (if x < 0 then fadd ρ (-x) (mPi ρ) else x) ≤ (|x| + 4) * (1 + u) := by
  have hu := u_pos
  obtain ⟨p0, p1⟩ := mPi_le hr
  split_ifs with h
  · rw [abs_of_neg h] at hx ⊢
    refine ⟨hr.ge_of_ge isDouble_zero (by linarith), ?_⟩
    norm_num at hx
    have a := abs_err hr (x := -x + mPi ρ) (B := -x + 4) (by rw [abs_of_nonneg (by linarith)]; linarith)
      (le_trans (small_pow (by norm_num)) (by norm_num; linarith))
      (le_trans (by linarith : -x + 4 ≤ 2 * 10 ^ 15)
        (le_trans (by norm_num) (pow_le_pow_right₀ (by norm_num : (1:ℝ) ≤ 2) (by norm_num : 200 ≤ 1023))))
    have := (abs_le.mp a).2
    simp only [fadd]; linarith
  · rw [abs_of_nonneg (not_lt.mp h)]
    refine ⟨not_lt.mp h, ?_⟩
    nlinarith [not_lt.mp h]

end Cest.Fp
