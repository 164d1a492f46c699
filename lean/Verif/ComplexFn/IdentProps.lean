import Verif.ComplexFn.FpProps
import Verif.CxFp.Props
import Mathlib.Analysis.SpecialFunctions.Trigonometric.Bounds

/-! C153: identities between the complex functions of `complex.hpp` in binary64: the polar representation, the
exponential of the logarithm, and the square of the square root.

The arguments of the second function are the results of the first.  Distances are in the complex plane. -/

namespace Cest.ComplexFn.FpProps
open Cest Cest.Cmath Cest.Fp Cest.CxFp Cest.ComplexFn

variable {ρ : ℝ → ℝ}

theorem norm_le_parts {a b e : ℝ} {w : ℂ} (h1 : |a - w.re| ≤ e) (h2 : |b - w.im| ≤ e) : ‖(⟨a, b⟩ : ℂ) - w‖ ≤ 2 * e := by
  have := Complex.norm_le_abs_re_add_abs_im ((⟨a, b⟩ : ℂ) - w)
  simp only [Complex.sub_re, Complex.sub_im] at this
  linarith

theorem trigFp_small {t : ℝ} (h : |t| ≤ 32 / 10) : trigFp t ≤ 33 / 10 ^ 6 := by
  have h0 := abs_nonneg t
  have : (|t| + 7) ^ 2 ≤ (102 / 10) ^ 2 := pow_le_pow_left₀ (by linarith) (by linarith) 2
  unfold trigFp
  norm_num at this ⊢
  linarith

theorem norm_mk (x y : ℝ) : ‖(⟨x, y⟩ : ℂ)‖ = Real.sqrt (x ^ 2 + y ^ 2) := by
  rw [Complex.norm_def, Complex.normSq_apply]
  congr 1; ring

theorem norm_mk_le {x y B : ℝ} (hx : |x| ≤ B) (hy : |y| ≤ B) : ‖(⟨x, y⟩ : ℂ)‖ ≤ 2 * B := by
  have := Complex.norm_le_abs_re_add_abs_im (⟨x, y⟩ : ℂ)
  simp only at this
  linarith

theorem max_le_norm (x y : ℝ) : max |x| |y| ≤ ‖(⟨x, y⟩ : ℂ)‖ :=
  max_le (Complex.abs_re_le_norm (⟨x, y⟩ : ℂ)) (Complex.abs_im_le_norm (⟨x, y⟩ : ℂ))

theorem norm_le_two_max (x y : ℝ) : ‖(⟨x, y⟩ : ℂ)‖ ≤ 2 * max |x| |y| :=
  norm_mk_le (le_max_left _ _) (le_max_right _ _)

theorem ne_zero_of_max {x y : ℝ} (h : 1 / 2 ^ 1000 ≤ max |x| |y|) : ¬ (x = 0 ∧ y = 0) := by
  rintro ⟨rfl, rfl⟩
  simp only [abs_zero, max_self] at h
  exact absurd h (not_le.mpr (by positivity))

theorem arg_abs_le (z : ℂ) : |Complex.arg z| ≤ 315 / 100 := by
  have := Complex.abs_arg_le_pi z
  have := Real.pi_lt_d2
  norm_num at this
  linarith

theorem polar_near (z : ℂ) (r t : ℝ) :
    ‖(r : ℂ) * Complex.exp (t * Complex.I) - z‖ ≤ |r - ‖z‖| + ‖z‖ * |t - Complex.arg z| := by
  have hpol := Complex.norm_mul_exp_arg_mul_I z
  have e1 : Complex.exp (t * Complex.I) = Complex.exp (Complex.arg z * Complex.I) *
      Complex.exp (Complex.I * (t - Complex.arg z : ℝ)) := by
    rw [← Complex.exp_add]; congr 1; push_cast; ring
  have e : (r : ℂ) * Complex.exp (t * Complex.I) - z =
      ((r - ‖z‖ : ℝ) : ℂ) * Complex.exp (t * Complex.I) +
        z * (Complex.exp (Complex.I * (t - Complex.arg z : ℝ)) - 1) := by
    have e2 : (‖z‖ : ℂ) * Complex.exp (t * Complex.I) = z * Complex.exp (Complex.I * (t - Complex.arg z : ℝ)) := by
      rw [e1, ← mul_assoc, hpol]
    rw [Complex.ofReal_sub r]
    linear_combination e2
  rw [e]
  refine (norm_add_le _ _).trans ?_
  rw [norm_mul, norm_mul, Complex.norm_exp_ofReal_mul_I, mul_one, Complex.norm_real, Real.norm_eq_abs]
  have h2 := Real.norm_exp_I_mul_ofReal_sub_one_le (x := t - Complex.arg z)
  rw [Real.norm_eq_abs] at h2
  have h3 := mul_le_mul_of_nonneg_left h2 (norm_nonneg z)
  linarith

/-- **C153 (polar form).** `polar(abs(z), arg(z))` is `z` up to 7 parts in ten thousand. -/
theorem C153_polar_abs_arg (hr : RoundsToNearest ρ) {x y : ℝ} (hx : |x| ≤ 2 ^ 1018) (hy : |y| ≤ 2 ^ 1018)
    (h : 1 / 2 ^ 1000 ≤ max |x| |y|) (hq : |y| ≤ 2 ^ 1023 * |x| ∨ x = 0) :
    ∃ r t a b, Gives (fun fuel => complexAbs ρ fuel x y) r ∧ Gives (fun fuel => complexArg ρ fuel x y) t ∧
      Gives (fun fuel => polar ρ fuel r t) (a, b) ∧
      ‖(⟨a, b⟩ : ℂ) - ⟨x, y⟩‖ ≤ 7 / 10000 * ‖(⟨x, y⟩ : ℂ)‖ := by
  have up : (2 : ℝ) ^ 1018 ≤ 2 ^ 1021 := pow_le_pow_right₀ (by norm_num) (by norm_num)
  obtain ⟨r, hr1, -, r0, rb⟩ := abs_rel hr (hx.trans up) (hy.trans up) h
  obtain ⟨t, ht1, tb⟩ := C122_arg hr (ne_zero_of_max h) hq
  rw [← norm_mk] at rb
  have hn := h.trans (max_le_norm x y)
  have hN := norm_mk_le hx hy
  have harg := arg_abs_le ⟨x, y⟩
  have hpol := Complex.norm_mul_exp_arg_mul_I ⟨x, y⟩
  generalize (⟨x, y⟩ : ℂ) = z at *
  have hn0 : 0 < ‖z‖ := lt_of_lt_of_le (by positivity) hn
  obtain ⟨rb1, rb2⟩ := abs_le.mp rb
  have ht : |t| ≤ 32 / 10 := by
    have := abs_sub_abs_le_abs_sub t (Complex.arg z)
    linarith
  have r1 : 1 / 2 ^ 1022 ≤ |r| := by
    rw [abs_of_pos r0]
    have e : (1 : ℝ) / 2 ^ 1001 = 1 / 2 ^ 1000 * (1 / 2) := by rw [pow_succ (2 : ℝ) 1000]; field_simp
    have : (1 : ℝ) / 2 ^ 1022 ≤ 1 / 2 ^ 1001 :=
      one_div_le_one_div_of_le (by positivity) (pow_le_pow_right₀ (by norm_num) (by norm_num))
    refine this.trans ?_
    rw [e]
    generalize (1 : ℝ) / 2 ^ 1000 = B at *
    linarith
  have r2 : |r| ≤ 2 ^ 1020 := by
    rw [abs_of_pos r0]
    have e : (2 : ℝ) ^ 1020 = 2 ^ 1018 * 4 := by rw [show 1020 = 1018 + 2 by norm_num, pow_add]; norm_num
    rw [e]
    generalize (2 : ℝ) ^ 1018 = B at *
    linarith
  obtain ⟨a, b, hp, pa, pb⟩ := C122_polar hr r1 r2 (ht.trans (by norm_num))
  refine ⟨r, t, a, b, hr1, ht1, hp, ?_⟩
  rw [abs_of_pos r0] at pa pb
  have hb := norm_le_parts pa pb
  have ts := trigFp_small ht
  have h1 := polar_near z r t
  have h4 := mul_le_mul_of_nonneg_left tb hn0.le
  have h5 : |r - ‖z‖| ≤ 53 / 100000 * ‖z‖ := abs_le.mpr ⟨rb1, rb2⟩
  have h2 : ‖(⟨a, b⟩ : ℂ) - z‖ ≤ ‖(⟨a, b⟩ : ℂ) - r * Complex.exp (t * Complex.I)‖ +
      ‖(r : ℂ) * Complex.exp (t * Complex.I) - z‖ := norm_sub_le_norm_sub_add_norm_sub _ _ _
  have h3 : (11 / 10 * trigFp t + 1 / 10 ^ 9) * r ≤ 37 / 10 ^ 6 * r :=
    mul_le_mul_of_nonneg_right (by norm_num at ts ⊢; linarith) r0.le
  norm_num at h3
  linarith

/-- `3 + 4i` goes to its modulus and argument and back. -/
example (hr : RoundsToNearest ρ) : ∃ r t a b, Gives (fun fuel => complexAbs ρ fuel 3 4) r ∧
    Gives (fun fuel => complexArg ρ fuel 3 4) t ∧ Gives (fun fuel => polar ρ fuel r t) (a, b) ∧
      ‖(⟨a, b⟩ : ℂ) - ⟨3, 4⟩‖ ≤ 7 / 10000 * ‖(⟨3, 4⟩ : ℂ)‖ := by
  have p3 : (2 : ℝ) ^ 3 ≤ 2 ^ 1018 := pow_le_pow_right₀ (by norm_num) (by norm_num)
  have p1 : (1 : ℝ) / 2 ^ 1000 ≤ 1 := div_le_one_of_le₀ (one_le_pow₀ (by norm_num)) (by positivity)
  have p2 : (2 : ℝ) ^ 3 ≤ 2 ^ 1023 := pow_le_pow_right₀ (by norm_num) (by norm_num)
  have a3 : |(3 : ℝ)| = 3 := abs_of_pos (by norm_num)
  have a4 : |(4 : ℝ)| = 4 := abs_of_pos (by norm_num)
  refine C153_polar_abs_arg hr ?_ ?_ ?_ (Or.inl ?_)
  · rw [a3]; exact le_trans (by norm_num) p3
  · rw [a4]; exact le_trans (by norm_num) p3
  · rw [a4]; exact p1.trans (le_trans (by norm_num) (le_max_right _ _))
  · rw [a3, a4]; exact le_trans (b := (2 : ℝ) ^ 3 * 3) (by norm_num) (mul_le_mul_of_nonneg_right p2 (by norm_num))

/-- **C153 (modulus of a polar form).** `abs(polar(r, t))` is `r`, up to the error of the sine and the cosine of `t`. -/
theorem C153_abs_polar (hr : RoundsToNearest ρ) {r t : ℝ} (r1 : 1 / 2 ^ 990 ≤ r) (r2 : r ≤ 2 ^ 1019) (ht : |t| ≤ 400) :
    ∃ a b v, Gives (fun fuel => polar ρ fuel r t) (a, b) ∧ Gives (fun fuel => complexAbs ρ fuel a b) v ∧
      |v - r| ≤ (23 / 10 * trigFp t + 54 / 100000) * r := by
  have r0 : 0 < r := lt_of_lt_of_le (by positivity) r1
  have e1 : (1 : ℝ) / 2 ^ 1022 ≤ 1 / 2 ^ 990 :=
    one_div_le_one_div_of_le (by positivity) (pow_le_pow_right₀ (by norm_num) (by norm_num))
  have e2 : (2 : ℝ) ^ 1019 ≤ 2 ^ 1020 := pow_le_pow_right₀ (by norm_num) (by norm_num)
  obtain ⟨a, b, hp, pa, pb⟩ := C122_polar hr (r := r) (by rw [abs_of_pos r0]; exact e1.trans r1)
    (by rw [abs_of_pos r0]; exact r2.trans e2) ht
  rw [abs_of_pos r0] at pa pb
  obtain ⟨T0, T1⟩ := trigFp_bounds ht
  have hb := norm_le_parts pa pb
  have hn : ‖(r : ℂ) * Complex.exp (t * Complex.I)‖ = r := by
    rw [norm_mul, Complex.norm_exp_ofReal_mul_I, mul_one, Complex.norm_real, Real.norm_eq_abs, abs_of_pos r0]
  have hd := (abs_norm_sub_norm_le (⟨a, b⟩ : ℂ) (r * Complex.exp (t * Complex.I))).trans hb
  rw [hn] at hd
  obtain ⟨d1, d2⟩ := abs_le.mp hd
  set δ := 11 / 10 * trigFp t + 1 / 10 ^ 9 with hδ
  have hδ1 : δ ≤ 12 / 100 := by rw [hδ]; norm_num; norm_num at T1; linarith
  have hδ0 : 0 ≤ δ := by rw [hδ]; positivity
  have hδr : δ * r ≤ 12 / 100 * r := mul_le_mul_of_nonneg_right hδ1 r0.le
  have hm := max_le_norm a b
  have hm2 := norm_le_two_max a b
  have e3 : (2 : ℝ) ^ 1021 = 2 ^ 1019 * 4 := by rw [show 1021 = 1019 + 2 by norm_num, pow_add]; norm_num
  have e4 : (1 : ℝ) / 2 ^ 1000 ≤ 1 / 2 ^ 990 * (1 / 4) := by
    rw [div_mul_div_comm, one_mul]
    refine one_div_le_one_div_of_le (by positivity) ?_
    rw [show 1000 = 990 + 10 by norm_num, pow_add]
    exact mul_le_mul_of_nonneg_left (by norm_num) (by positivity)
  have hM : max |a| |b| ≤ 2 ^ 1021 := by
    rw [e3]
    generalize (2 : ℝ) ^ 1019 = B at r2 ⊢
    linarith only [hm, d2, hδr, r2, r0]
  have hL : 1 / 2 ^ 1000 ≤ max |a| |b| := by
    refine e4.trans ?_
    generalize (1 : ℝ) / 2 ^ 990 = B at r1 ⊢
    linarith only [hm2, d1, hδr, r1, r0]
  obtain ⟨v, hv, -, -, vb⟩ := abs_rel hr ((le_max_left _ _).trans hM) ((le_max_right _ _).trans hM) hL
  rw [← norm_mk] at vb
  refine ⟨a, b, v, hp, hv, ?_⟩
  have tri := abs_sub_le v ‖(⟨a, b⟩ : ℂ)‖ r
  have : 2 * (δ * r) + 53 / 100000 * (r + 2 * (δ * r)) ≤ (23 / 10 * trigFp t + 54 / 100000) * r := by
    have : 2 * δ + 53 / 100000 * (1 + 2 * δ) ≤ 23 / 10 * trigFp t + 54 / 100000 := by
      rw [hδ]; norm_num; linarith
    have := mul_le_mul_of_nonneg_right this r0.le
    linarith
  linarith

/-- The modulus of `polar(1, 3)`. -/
example (hr : RoundsToNearest ρ) : ∃ a b v, Gives (fun fuel => polar ρ fuel 1 3) (a, b) ∧
    Gives (fun fuel => complexAbs ρ fuel a b) v ∧ |v - 1| ≤ (23 / 10 * trigFp 3 + 54 / 100000) * 1 :=
  C153_abs_polar hr (div_le_one_of_le₀ (one_le_pow₀ (by norm_num)) (by positivity)) (one_le_pow₀ (by norm_num)) (by norm_num)

theorem log_norm (x y : ℝ) : (Complex.log ⟨x, y⟩).re = Real.log ‖(⟨x, y⟩ : ℂ)‖ := Complex.log_re _

/-- **C153 (exponential of the logarithm).** `exp(log(z))` is `z` up to 24 parts in ten thousand, for `z` whose modulus
lies between `e ^ -690` and `e ^ 690`. -/
theorem C153_exp_log (hr : RoundsToNearest ρ) {x y : ℝ} (h0 : ¬ (x = 0 ∧ y = 0))
    (h1 : |Real.log ‖(⟨x, y⟩ : ℂ)‖| ≤ 690) (hq : |y| ≤ 2 ^ 1023 * |x| ∨ x = 0) :
    ∃ a b c d, Gives (fun fuel => complexLog ρ fuel x y) (LogRes.val a, b) ∧
      Gives (fun fuel => complexExp ρ fuel a b) (c, d) ∧
      ‖(⟨c, d⟩ : ℂ) - ⟨x, y⟩‖ ≤ 24 / 10000 * ‖(⟨x, y⟩ : ℂ)‖ := by
  have hz : (⟨x, y⟩ : ℂ) ≠ 0 := fun h => h0 ⟨congrArg Complex.re h, congrArg Complex.im h⟩
  have hn0 : 0 < ‖(⟨x, y⟩ : ℂ)‖ := norm_pos_iff.mpr hz
  obtain ⟨l1, l2⟩ := abs_le.mp h1
  have hl2 := Real.log_two_gt_d9
  have up : ‖(⟨x, y⟩ : ℂ)‖ ≤ 2 ^ 1021 := by
    rw [← Real.log_le_log_iff hn0 (by positivity), Real.log_pow]
    norm_num at hl2 ⊢
    linarith
  have lo : 1 / 2 ^ 999 ≤ ‖(⟨x, y⟩ : ℂ)‖ := by
    rw [← Real.log_le_log_iff (by positivity) hn0, Real.log_div (by norm_num) (by positivity), Real.log_one, Real.log_pow]
    norm_num at hl2 ⊢
    linarith
  have hm := max_le_norm x y
  have hm2 := norm_le_two_max x y
  have hL : 1 / 2 ^ 1000 ≤ max |x| |y| := by
    have e : (1 : ℝ) / 2 ^ 1000 = 1 / 2 ^ 999 * (1 / 2) := by rw [pow_succ (2 : ℝ) 999]; field_simp
    rw [e]
    generalize (1 : ℝ) / 2 ^ 999 = B at *
    linarith
  obtain ⟨a, b, hl, la, lb⟩ := C124_log hr ((le_max_left _ _).trans (hm.trans up)) ((le_max_right _ _).trans (hm.trans up)) hL hq
  have him := arg_abs_le ⟨x, y⟩
  rw [← Complex.log_im] at him
  rw [← log_norm] at h1
  have hlog := Complex.exp_log hz
  have ea : |a| ≤ 700 := by
    have := abs_sub_abs_le_abs_sub a (Complex.log ⟨x, y⟩).re
    linarith
  have hb : |b| ≤ 32 / 10 := by
    have := abs_sub_abs_le_abs_sub b (Complex.log ⟨x, y⟩).im
    linarith
  obtain ⟨c, d, he, ec, ed⟩ := C122_exp hr ea (hb.trans (by norm_num))
  refine ⟨a, b, c, d, hl, he, ?_⟩
  have h5 := norm_le_parts ec ed
  have ts := trigFp_small hb
  generalize (⟨x, y⟩ : ℂ) = z at *
  set D : ℂ := ⟨a, b⟩ - Complex.log z with hD
  have hDn : ‖D‖ ≤ 2061 / 10 ^ 6 := by
    have := Complex.norm_le_abs_re_add_abs_im D
    simp only [hD, Complex.sub_re, Complex.sub_im] at this
    rw [← hD] at this
    norm_num
    linarith
  have hE : Complex.exp ⟨a, b⟩ = z * Complex.exp D := by
    have e := Complex.exp_add (Complex.log z) D
    rw [hlog] at e
    rw [← e, hD]; congr 1; ring
  have hD1 : ‖Complex.exp D - 1‖ ≤ 2066 / 10 ^ 6 := by
    have h6 := Complex.norm_exp_sub_one_sub_id_le (x := D) (hDn.trans (by norm_num))
    have h7 : ‖Complex.exp D - 1‖ ≤ ‖Complex.exp D - 1 - D‖ + ‖D‖ := norm_le_norm_sub_add _ _
    have h8 : ‖D‖ ^ 2 ≤ (2061 / 10 ^ 6) ^ 2 := pow_le_pow_left₀ (norm_nonneg _) hDn 2
    norm_num at h8 hDn ⊢
    linarith
  have h6 : ‖Complex.exp ⟨a, b⟩ - z‖ ≤ 2066 / 10 ^ 6 * ‖z‖ := by
    rw [hE, show z * Complex.exp D - z = z * (Complex.exp D - 1) by ring, norm_mul, mul_comm]
    exact mul_le_mul_of_nonneg_right hD1 hn0.le
  have h7 : Real.exp a ≤ 101 / 100 * ‖z‖ := by
    have e : Real.exp a = ‖Complex.exp ⟨a, b⟩‖ := by rw [Complex.norm_exp]
    have := norm_le_norm_sub_add (Complex.exp ⟨a, b⟩) z
    rw [e]
    norm_num at h6
    linarith
  have h8 : (11 / 10 * trigFp b + 11 / 100000) * Real.exp a ≤ 1464 / 10 ^ 7 * (101 / 100 * ‖z‖) := by
    refine mul_le_mul ?_ h7 (Real.exp_pos a).le (by norm_num)
    norm_num at ts ⊢; linarith
  have h9 : ‖(⟨c, d⟩ : ℂ) - z‖ ≤ ‖(⟨c, d⟩ : ℂ) - Complex.exp ⟨a, b⟩‖ + ‖Complex.exp ⟨a, b⟩ - z‖ :=
    norm_sub_le_norm_sub_add_norm_sub _ _ _
  norm_num at h6 h8
  linarith

/-- `exp(log(-1))`. -/
example (hr : RoundsToNearest ρ) : ∃ a b c d, Gives (fun fuel => complexLog ρ fuel (-1) 0) (LogRes.val a, b) ∧
    Gives (fun fuel => complexExp ρ fuel a b) (c, d) ∧
      ‖(⟨c, d⟩ : ℂ) - ⟨-1, 0⟩‖ ≤ 24 / 10000 * ‖(⟨-1, 0⟩ : ℂ)‖ := by
  refine C153_exp_log hr (by norm_num) ?_ (Or.inl ?_)
  · rw [norm_mk]; norm_num
  · rw [abs_zero]; positivity

/-- **C153 (square of the square root).** The square of `sqrt(z)` is `z` up to 43 parts in ten thousand. -/
theorem C153_sqrt_square (hr : RoundsToNearest ρ) {x y : ℝ} (hx : |x| ≤ 2 ^ 950) (hy : |y| ≤ 2 ^ 950)
    (h : 1 / 2 ^ 1000 ≤ max |x| |y|) : ∃ a b, Gives (fun fuel => complexSqrt ρ fuel x y) (a, b) ∧
      ‖(⟨a, b⟩ : ℂ) ^ 2 - ⟨x, y⟩‖ ≤ 43 / 10000 * ‖(⟨x, y⟩ : ℂ)‖ := by
  obtain ⟨a, b, w, hs, hw, -, ba, bb⟩ := C124_sqrt_partial hr hx hy h
  refine ⟨a, b, hs, ?_⟩
  have hn := h.trans (max_le_norm x y)
  rw [← hw] at hn ⊢
  rw [norm_pow] at hn ⊢
  have hw5 : 1 / 2 ^ 500 ≤ ‖w‖ := by
    refine le_of_sq_le_sq ?_ (norm_nonneg w)
    rw [div_pow, one_pow, ← pow_mul]
    exact hn
  have hη : (1 : ℝ) / 2 ^ 1075 ≤ 1 / 20000 * ‖w‖ := by
    refine le_trans ?_ (mul_le_mul_of_nonneg_left hw5 (by norm_num))
    rw [div_mul_div_comm, one_mul]
    refine one_div_le_one_div_of_le (by positivity) ?_
    rw [show 1075 = 500 + 575 by norm_num, pow_add, mul_comm]
    refine mul_le_mul_of_nonneg_left ?_ (by positivity)
    refine le_trans (b := (2 : ℝ) ^ 20) (by norm_num) (pow_le_pow_right₀ (by norm_num) (by norm_num))
  have r1 := Complex.abs_re_le_norm w
  have r2 := Complex.abs_im_le_norm w
  generalize (1 : ℝ) / 2 ^ 1075 = η at *
  have hd : ‖(⟨a, b⟩ : ℂ) - w‖ ≤ 2 * (105 / 100000 * ‖w‖) := norm_le_parts (by linarith) (by linarith)
  have hp : ‖(⟨a, b⟩ : ℂ) + w‖ ≤ 20021 / 10000 * ‖w‖ := by
    have : ‖(⟨a, b⟩ : ℂ) + w‖ ≤ ‖(⟨a, b⟩ : ℂ) - w‖ + ‖2 * w‖ := by
      have e : (⟨a, b⟩ : ℂ) + w = (⟨a, b⟩ - w) + 2 * w := by ring
      rw [e]; exact norm_add_le _ _
    rw [norm_mul, Complex.norm_ofNat] at this
    linarith
  rw [sq_sub_sq, norm_mul]
  have := mul_le_mul hp hd (norm_nonneg _) (by positivity)
  have hw2 := sq_nonneg ‖w‖
  nlinarith

/-- **C153 (product of the square root with itself).** The same for the product that `operator*` of `complex` computes. -/
theorem C153_sqrt_product (hr : RoundsToNearest ρ) {x y : ℝ} (hx : |x| ≤ 2 ^ 950) (hy : |y| ≤ 2 ^ 950)
    (h : 1 / 2 ^ 1000 ≤ max |x| |y|) : ∃ a b, Gives (fun fuel => complexSqrt ρ fuel x y) (a, b) ∧
      ∀ (st : Complex.CSt (Flt ρ)) (r i : Nat), st.objs r = none → st.objs i = some ⟨⟨a⟩, ⟨b⟩⟩ →
        ∃ p, Complex.mul r i i st = .ok p st ∧ ‖cval p - ⟨x, y⟩‖ ≤ 44 / 10000 * ‖(⟨x, y⟩ : ℂ)‖ := by
  obtain ⟨a, b, hs, hb⟩ := C153_sqrt_square hr hx hy h
  refine ⟨a, b, hs, fun st r i h1 h2 => ?_⟩
  have hn := h.trans (max_le_norm x y)
  have hN := norm_mk_le hx hy
  generalize (⟨x, y⟩ : ℂ) = z at *
  have hsq : ‖(⟨a, b⟩ : ℂ) ^ 2‖ ≤ 10043 / 10000 * ‖z‖ := by
    have := norm_le_norm_sub_add ((⟨a, b⟩ : ℂ) ^ 2) z
    linarith only [this, hb]
  have hcv : cval (⟨⟨a⟩, ⟨b⟩⟩ : Complex.Cx (Flt ρ)) = ⟨a, b⟩ := rfl
  have hM : ‖(⟨a, b⟩ : ℂ)‖ * ‖(⟨a, b⟩ : ℂ)‖ ≤ 2 ^ 1000 := by
    rw [← pow_two, ← norm_pow]
    have e : (2 : ℝ) ^ 950 * 4 ≤ 2 ^ 1000 := by
      rw [show (1000 : ℕ) = 950 + 50 by norm_num, pow_add]
      exact mul_le_mul_of_nonneg_left (by norm_num) (by positivity)
    refine le_trans ?_ e
    have e0 : (0 : ℝ) ≤ 2 ^ 950 := by positivity
    generalize (2 : ℝ) ^ 950 = B at hN e0 ⊢
    linarith only [hsq, hN, e0]
  obtain ⟨p, hp, -, -, pb⟩ := CxFp.Props.C119_mul hr h1 h2 h2 (by rw [hcv]; exact hM.trans CxFp.up_1000)
  refine ⟨p, hp, ?_⟩
  rw [hcv, ← pow_two] at pb
  have e1 : (1 : ℝ) / 2 ^ 1073 ≤ 1 / 10 ^ 6 * ‖z‖ := by
    refine le_trans ?_ (mul_le_mul_of_nonneg_left hn (by norm_num))
    rw [div_mul_div_comm, one_mul]
    refine one_div_le_one_div_of_le (by positivity) ?_
    rw [show (1073 : ℕ) = 1000 + 73 by norm_num, pow_add, mul_comm]
    exact mul_le_mul_of_nonneg_left (by norm_num) (by positivity)
  generalize (1 : ℝ) / 2 ^ 1073 = η at e1 pb
  have tri : ‖cval p - z‖ ≤ ‖cval p - (⟨a, b⟩ : ℂ) ^ 2‖ + ‖(⟨a, b⟩ : ℂ) ^ 2 - z‖ := norm_sub_le_norm_sub_add_norm_sub _ _ _
  norm_num at pb e1
  have z0 := norm_nonneg z
  have e2 : 5 / 18014398509481984 * ‖(⟨a, b⟩ : ℂ) ^ 2‖ ≤ 1 / 10 ^ 6 * (10043 / 10000 * ‖z‖) :=
    mul_le_mul (by norm_num) hsq (norm_nonneg _) (by norm_num)
  rw [norm_pow] at e2
  norm_num at e2
  linarith only [tri, pb, hb, e1, e2, z0]

/-- The square root of `-1`. -/
example (hr : RoundsToNearest ρ) : ∃ a b, Gives (fun fuel => complexSqrt ρ fuel (-1) 0) (a, b) ∧
    ‖(⟨a, b⟩ : ℂ) ^ 2 - ⟨-1, 0⟩‖ ≤ 43 / 10000 * ‖(⟨-1, 0⟩ : ℂ)‖ := by
  have p1 : (1 : ℝ) ≤ 2 ^ 950 := one_le_pow₀ (by norm_num)
  refine C153_sqrt_square hr ?_ ?_ ?_
  · rw [abs_neg, abs_one]; exact p1
  · rw [abs_zero]; positivity
  · rw [abs_neg, abs_one]
    exact (div_le_one_of_le₀ (one_le_pow₀ (by norm_num)) (by positivity)).trans (le_max_left _ _)

end Cest.ComplexFn.FpProps
