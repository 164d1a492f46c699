import Verif.Fp.OrderBad

/-! Lemmas for C144, continued: `atan` and `cosh`. -/

namespace Cest.Fp
open Cest Cest.Cmath

variable {ρ : ℝ → ℝ}

/-- For a positive argument `atan_poly` adds two terms of the series. -/
theorem atanPoly_pos (hr : RoundsToNearest ρ) {y : ℝ} (h0 : 0 ≤ y) (hy : y ≤ 27 / 100) :
    ∃ v, (∀ fuel, atanPoly ρ (fuel + 2) y () = .ok v ()) ∧ |v - (y - y ^ 3 / 3 + y ^ 5 / 5)| ≤ 10 * u := by
  have hu := u_pos
  have hu1 := u_lt
  norm_num at hu1
  obtain ⟨t1, t2⟩ := tol_bounds hr
  have hya : |y| ≤ 27 / 100 := by rw [abs_of_nonneg h0]; exact hy
  have hp : ∀ fuel h, atanPolyHelper ρ (fuel + 2) (ρ (ρ (powNN ρ y 5 / 5) - ρ (powNN ρ y 3 / 3))) (powNN ρ y 7) 7
      (ρ (y * y)) () = .ok h () → atanPoly ρ (fuel + 2) y () = .ok (ρ (y + h)) () := by
    intro fuel h e
    simp only [atanPoly, M.bind_apply, atan_pow_ok y (by norm_num : (0 : ℤ) ≤ 3),
      atan_pow_ok y (by norm_num : (0 : ℤ) ≤ 5), atan_pow_ok y (by norm_num : (0 : ℤ) ≤ 7),
      fdiv_ok (by norm_num : (3 : ℝ) ≠ 0), fdiv_ok (by norm_num : (5 : ℝ) ≠ 0), fsub, fmul, fadd,
      M.pure_apply]
    erw [e]
  have p3 := abs_le.mp (powNN_small hr hya 3)
  have p5 := abs_le.mp (powNN_small hr hya 5)
  generalize powNN ρ y 3 = a3 at *
  generalize powNN ρ y 5 = a5 at *
  have y3 : 0 ≤ y ^ 3 := pow_nonneg h0 3
  have y3' : y ^ 3 ≤ 2 / 100 := (pow_le_pow_left₀ h0 hy 3).trans (by norm_num)
  have y5 : 0 ≤ y ^ 5 := pow_nonneg h0 5
  have y5' : y ^ 5 ≤ 1 / 10 * y ^ 3 := by
    have : y ^ 5 = y ^ 2 * y ^ 3 := by ring
    rw [this]
    exact mul_le_mul_of_nonneg_right (by nlinarith) y3
  have f5 := abs_le.mp (err1 hr (x := a5 / 5) (by rw [abs_le]; constructor <;> linarith))
  have f3 := abs_le.mp (err1 hr (x := a3 / 3) (by rw [abs_le]; constructor <;> linarith))
  generalize ρ (a5 / 5) = b5 at *
  generalize ρ (a3 / 3) = b3 at *
  have fr := abs_le.mp (err1 hr (x := b5 - b3) (by rw [abs_le]; constructor <;> linarith))
  generalize ρ (b5 - b3) = res at *
  have fv := abs_le.mp (err1 hr (x := y + res) (by rw [abs_le]; constructor <;> linarith))
  refine ⟨ρ (y + res), fun fuel => hp fuel res (atanPolyHelper_pass (by linarith) _ _ _ _), ?_⟩
  rw [abs_le]
  constructor <;> linarith

theorem mPi2_lit (hr : RoundsToNearest ρ) : |mPi2 ρ - 1570796326794897 / 1000000000000000| ≤ 3 * u :=
  err2 hr (by rw [abs_le]; constructor <;> norm_num)

/-- `atan_identity` just below and at 1: more than half of `M_PI_2`. -/
theorem atanIdentity_one (hr : RoundsToNearest ρ) {x : ℝ} (x1 : 131071 / 131072 ≤ x) (x2 : x ≤ 1) :
    ∃ v, (∀ fuel, atanIdentity ρ (fuel + 4) x () = .ok v ()) ∧ 785420 / 1000000 ≤ v ∧ v ≤ 786 / 1000 := by
  have hu := u_pos
  have hu1 := u_lt
  norm_num at hu1
  obtain ⟨s, hs, hf⟩ := sqrt_three_fp hr
  have hs' := abs_le.mp hs
  have e0 := abs_le.mp (err1 hr (x := 2 - s) (by rw [abs_le]; constructor <;> linarith))
  have h : ¬ x ≤ ρ (2 - s) := by rw [not_le]; linarith
  obtain ⟨q1, q2⟩ := atan_quot hr hs (by linarith) x2
  have hd : 0 < 97 / 56 + x := by linarith
  have z1 : 267966 / 1000000 ≤ (97 / 56 * x - 1) / (97 / 56 + x) := by
    rw [le_div_iff₀ hd]; linarith
  have z2 : (97 / 56 * x - 1) / (97 / 56 + x) ≤ 267975 / 1000000 := by
    rw [div_le_iff₀ hd]; linarith
  set y := ρ (ρ (ρ (s * x) - 1) / ρ (s + x)) with hy
  generalize (97 / 56 * x - 1) / (97 / 56 + x) = z at *
  have q2' := abs_le.mp q2
  have y1 : 267965 / 1000000 ≤ y := by linarith
  have y2 : y ≤ 267976 / 1000000 := by linarith
  obtain ⟨v, a1, a2⟩ := atanPoly_pos hr (y := y) (by linarith) (by linarith)
  have a2 := abs_le.mp a2
  have y3 := pow_le_pow_left₀ (by linarith) y2 3
  have y5 := pow_le_pow_left₀ (by norm_num) y1 5
  have y3' : 0 ≤ y ^ 3 := pow_nonneg (by linarith) 3
  have y5' := pow_le_pow_left₀ (by linarith) y2 5
  norm_num at y3 y5 y5'
  have p2 := abs_le.mp (mPi2_lit hr)
  have e1 := abs_le.mp (err1 hr (x := mPi2 ρ / 3) (by rw [abs_le]; constructor <;> linarith))
  have e2 := abs_le.mp (err1 hr (x := ρ (mPi2 ρ / 3) + v) (by rw [abs_le]; constructor <;> linarith))
  refine ⟨ρ (ρ (mPi2 ρ / 3) + v), fun fuel => ?_, by linarith, ?_⟩
  · rw [atanIdentity, M.bind_apply, hf]
    refine (congrFun (if_neg h) ()).trans ?_
    simp only [M.bind_apply, fdiv_ok (by norm_num : (3 : ℝ) ≠ 0), hf, fadd, fsub, fmul,
      fdiv_ok q1, ← hy, a1 (fuel + 2), M.pure_apply]
  · have y3l := pow_le_pow_left₀ (by norm_num) y1 3
    norm_num at y3l
    linarith

theorem atan_drop (hr : RoundsToNearest ρ) : ∃ a b, b < a ∧
    (∀ fuel, atan ρ (fuel + 4) (131071 / 131072) () = .ok a ()) ∧ ∀ fuel, atan ρ (fuel + 4) 1 () = .ok b () := by
  have hu := u_pos
  have hu1 := u_lt
  norm_num at hu1
  obtain ⟨v, hv, v1, v2⟩ := atanIdentity_one hr (x := 131071 / 131072) le_rfl (by norm_num)
  obtain ⟨w, hw, w1, w2⟩ := atanIdentity_one hr (x := 1) (by norm_num) le_rfl
  have hone : IsDouble (1 : ℝ) := by simpa using isDouble_int (K := ℝ) (k := 1) (by norm_num)
  have p2 := abs_le.mp (mPi2_lit hr)
  have e2 := abs_le.mp (err2 hr (x := mPi2 ρ - w) (by rw [abs_le]; constructor <;> linarith))
  refine ⟨v, ρ (mPi2 ρ - w), by linarith, fun fuel => ?_, fun fuel => ?_⟩
  · rw [atan, if_pos (by norm_num), atanCmplmntry, if_pos (by norm_num)]
    exact hv fuel
  · rw [atan, if_pos (by norm_num), atanCmplmntry, if_neg (lt_irrefl _)]
    refine (M.bind_of_ok (fdiv_ok one_ne_zero)).trans ?_
    rw [div_one, hr.exact hone]
    exact (M.bind_of_ok (hw fuel)).trans rfl

/-- The argument of the square root in `cosh`. -/
theorem cosh_arg (hr : RoundsToNearest ρ) {x : ℝ} (x0 : 0 ≤ x) (x1 : x ≤ 26 / 100) {S : ℝ}
    (S0 : 0 ≤ S) (S1 : S ≤ 26 / 100) (hS : |Real.sinh x - S| ≤ 1 / 10 ^ 6) :
    ∃ X, |X - (1 + S ^ 2)| ≤ 2 / 10 ^ 6 ∧ ∀ fuel, 21 ≤ fuel → cosh ρ fuel x () = sqrt ρ fuel X () := by
  have hu := u_pos
  have hu1 := u_lt
  norm_num at hu1
  obtain ⟨θ, θ0, hθ, hf⟩ := sinhHelper_near hr x0 (by linarith)
  have c := (sinh_cosh_close x0 θ0 hθ (by norm_num; linarith)).1
  have hc : Real.cosh x ≤ 11 / 10 := by
    have a := Real.cosh_sq x
    have b := abs_le.mp hS
    norm_num at b
    have : Real.sinh x ≤ 27 / 100 := by linarith
    have : 0 ≤ Real.sinh x := Real.sinh_nonneg_iff.mpr x0
    nlinarith [Real.one_le_cosh x]
  have c' : |Real.sinh θ - Real.sinh x| ≤ 1 / 10 ^ 6 := by
    refine c.trans ?_
    have : 3 * (11 / 10 ^ 7 * x) * Real.cosh x ≤ 3 * (11 / 10 ^ 7 * x) * (11 / 10) :=
      mul_le_mul_of_nonneg_left hc (by positivity)
    norm_num at this ⊢
    linarith
  have sb : |Real.sinh θ - S| ≤ 2 / 10 ^ 6 := by
    have := abs_sub_le (Real.sinh θ) (Real.sinh x) S
    norm_num at *
    linarith
  have t0 : 0 ≤ Real.sinh θ := Real.sinh_nonneg_iff.mpr θ0
  have hfun : ∀ fuel, 21 ≤ fuel → cosh ρ fuel x () = sqrt ρ fuel (ρ (1 + ρ (Real.sinh θ * Real.sinh θ))) () := by
    intro fuel h
    have hs : sinh ρ fuel x () = .ok (Real.sinh θ) () := by
      rw [sinh, if_neg (not_lt.mpr x0)]; exact hf fuel h
    rw [cosh]
    exact M.bind_of_ok hs
  refine ⟨_, ?_, hfun⟩
  clear hfun hf c c' hθ hS
  generalize Real.sinh θ = t at *
  have sb' := abs_le.mp sb
  norm_num at sb'
  have q1 : t * t - S ^ 2 ≤ 11 / 10000000 := by nlinarith
  have q2 : -(11 / 10000000) ≤ t * t - S ^ 2 := by nlinarith
  have S2 : S ^ 2 ≤ 1 := by nlinarith
  have S3 : 0 ≤ S ^ 2 := sq_nonneg S
  have e1 := abs_le.mp (err2 hr (x := t * t) (by rw [abs_le]; constructor <;> linarith))
  have e2 := abs_le.mp (err2 hr (x := 1 + ρ (t * t)) (by rw [abs_le]; constructor <;> linarith))
  norm_num
  rw [abs_le]
  constructor <;> linarith

theorem sinh_lit {x S : ℝ} (x0 : 0 ≤ x) (x1 : x ≤ 26 / 100)
    (hS : |x + x ^ 3 / 6 + x ^ 5 / 120 - S| ≤ 1 / 2000000) : |Real.sinh x - S| ≤ 1 / 10 ^ 6 := by
  have a := Real.exp_bound (x := x) (by rw [abs_of_nonneg x0]; linarith) (n := 7) (by norm_num)
  have b := Real.exp_bound (x := -x) (by rw [abs_neg, abs_of_nonneg x0]; linarith) (n := 7) (by norm_num)
  have p : x ^ 7 ≤ (26 / 100) ^ 7 := pow_le_pow_left₀ x0 x1 7
  rw [abs_neg] at b
  rw [abs_of_nonneg x0] at a b
  simp only [Finset.sum_range_succ, Finset.sum_range_zero, Nat.factorial] at a b
  norm_num at a b p
  rw [Real.sinh_eq]
  rw [abs_le] at *
  have e3 : (-x) ^ 3 = -x ^ 3 := by ring
  have e5 : (-x) ^ 5 = -x ^ 5 := by ring
  have e2 : (-x) ^ 2 = x ^ 2 := by ring
  have e4 : (-x) ^ 4 = x ^ 4 := by ring
  have e6 : (-x) ^ 6 = x ^ 6 := by ring
  simp only [e3, e4, e5, e6] at b
  norm_num
  constructor <;> linarith

theorem cosh_drop (hr : RoundsToNearest ρ) : ∃ a b, b < a ∧
    (∀ fuel, 21 ≤ fuel → cosh ρ fuel (515 / 2048) () = .ok a ()) ∧
    ∀ fuel, 21 ≤ fuel → cosh ρ fuel (2073 / 8192) () = .ok b () := by
  have hu := u_pos
  have hu1 := u_lt
  norm_num at hu1
  obtain ⟨X, X1, hX⟩ := cosh_arg hr (x := 515 / 2048) (S := 2541234 / 10000000) (by norm_num) (by norm_num)
    (by norm_num) (by norm_num) (sinh_lit (by norm_num) (by norm_num) (by rw [abs_le]; constructor <;> norm_num))
  obtain ⟨Y, Y1, hY⟩ := cosh_arg hr (x := 2073 / 8192) (S := 2557611 / 10000000) (by norm_num) (by norm_num)
    (by norm_num) (by norm_num) (sinh_lit (by norm_num) (by norm_num) (by rw [abs_le]; constructor <;> norm_num))
  norm_num at X1 Y1
  rw [abs_le] at X1 Y1
  obtain ⟨a, a1, ha⟩ := sqrt_one_step hr (x := X) (by linarith) (by linarith)
  obtain ⟨b, b1, -, -, hb⟩ := sqrt_two_steps hr (x := Y) (by linarith) (by linarith)
  have a1 := abs_le.mp a1
  have q : Y / ((1 + Y) / 2) ≤ 10317 / 10000 := by
    rw [div_le_iff₀ (by linarith)]; linarith
  refine ⟨a, b, by linarith, fun fuel hf => ?_, fun fuel hf => ?_⟩
  · obtain ⟨k, rfl⟩ := Nat.exists_eq_add_of_le' hf
    rw [hX _ hf]; exact ha (k + 19)
  · obtain ⟨k, rfl⟩ := Nat.exists_eq_add_of_le' hf
    rw [hY _ hf]; exact hb (k + 18)

/-- The logarithm of a positive double. -/
theorem log_double {x : ℝ} (hx : IsDouble x) (h0 : 0 < x) : |Real.log x| ≤ 800 := by
  obtain ⟨m, e, rfl, hm, e1, e2⟩ := hx
  have p2 : (0 : ℝ) < 2 ^ e := by positivity
  have m0 : (0 : ℝ) < m := by
    by_contra c
    have := mul_nonpos_of_nonpos_of_nonneg (not_lt.mp c) p2.le
    linarith
  have m1 : (1 : ℤ) ≤ m := by exact_mod_cast m0
  have m1' : (1 : ℝ) ≤ m := by exact_mod_cast m1
  have m2 : m < 2 ^ 53 := lt_of_abs_lt hm
  have m2' : (m : ℝ) ≤ 2 ^ 53 := by exact_mod_cast m2.le
  rw [Real.log_mul m0.ne' p2.ne', Real.log_zpow]
  have l0 := Real.log_nonneg m1'
  have l1 : Real.log m ≤ 53 * Real.log 2 := by
    have := Real.log_le_log m0 m2'
    rwa [Real.log_pow] at this
  have t1 : 0 < Real.log 2 := Real.log_pos (by norm_num)
  have t2 := Real.log_two_lt_d9
  norm_num at t2
  have e1' : (-1074 : ℝ) ≤ e := by exact_mod_cast e1
  have e2' : (e : ℝ) ≤ 971 := by exact_mod_cast e2
  have k1 : (e : ℝ) * Real.log 2 ≤ 971 * Real.log 2 := mul_le_mul_of_nonneg_right e2' t1.le
  have k2 : (-1074 : ℝ) * Real.log 2 ≤ e * Real.log 2 := mul_le_mul_of_nonneg_right e1' t1.le
  rw [abs_le]
  constructor <;> linarith

end Cest.Fp
