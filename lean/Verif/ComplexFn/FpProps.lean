import Verif.ComplexFn.FpProofs

/-! The complex transcendental functions in binary64 arithmetic (C122-C124): every operation of `cmath.hpp` and
`complex.hpp` is followed by a rounding to a nearest double, ties either way.  The bounds are against Mathlib's
complex functions; `1 / 2^1075` is half of the smallest positive double. -/

namespace Cest.ComplexFn.FpProps
open Cest Cest.Cmath Cest.Fp Cest.CxFp Cest.ComplexFn

variable {ρ : ℝ → ℝ}

/-! ### C122: abs, arg, polar, exp -/

theorem C122_abs (hr : RoundsToNearest ρ) {x y : ℝ} (hx : |x| ≤ 2 ^ 1021) (hy : |y| ≤ 2 ^ 1021) :
    ∃ v, Gives (fun fuel => complexAbs ρ fuel x y) v ∧ IsDouble v ∧ 0 ≤ v ∧
      |v - ‖(⟨x, y⟩ : ℂ)‖| ≤ 52 / 100000 * ‖(⟨x, y⟩ : ℂ)‖ + 1 / 2 ^ 1075 := by
  have e : ‖(⟨x, y⟩ : ℂ)‖ = Real.sqrt (x ^ 2 + y ^ 2) := by
    rw [Complex.norm_def, Complex.normSq_apply]
    congr 1; ring
  rw [e]
  exact complexAbs_fp hr hx hy

theorem C122_arg (hr : RoundsToNearest ρ) {x y : ℝ} (h : ¬ (x = 0 ∧ y = 0)) (hq : |y| ≤ 2 ^ 1023 * |x| ∨ x = 0) :
    ∃ v, Gives (fun fuel => complexArg ρ fuel x y) v ∧ |v - Complex.arg ⟨x, y⟩| ≤ 1 / 19000 :=
  atan2_fp hr h hq

/-- `polar(r, t)` for `r` not so small that the products underflow. -/
theorem C122_polar (hr : RoundsToNearest ρ) {r t : ℝ} (r1 : 1 / 2 ^ 1022 ≤ |r|) (r2 : |r| ≤ 2 ^ 1020)
    (ht : |t| ≤ 400) : ∃ a b, Gives (fun fuel => polar ρ fuel r t) (a, b) ∧
      |a - (r * Complex.exp (t * Complex.I)).re| ≤ (11 / 10 * trigFp t + 1 / 10 ^ 9) * |r| ∧
      |b - (r * Complex.exp (t * Complex.I)).im| ≤ (11 / 10 * trigFp t + 1 / 10 ^ 9) * |r| := by
  obtain ⟨c, ⟨N1, hc⟩, cb⟩ := cos_fp hr ht
  obtain ⟨s, ⟨N2, hs⟩, sb⟩ := sin_trigFp hr ht
  have e : (r : ℂ) * Complex.exp (t * Complex.I) = ⟨r * Real.cos t, r * Real.sin t⟩ := by
    rw [Complex.exp_mul_I]
    apply Complex.ext <;> simp [← Complex.ofReal_cos, ← Complex.ofReal_sin]
  rw [e]
  have key : ∀ a A : ℝ, |A| ≤ 1 → |a - A| ≤ trigFp t →
      |ρ (r * a) - r * A| ≤ (11 / 10 * trigFp t + 1 / 10 ^ 9) * |r| := by
    intro a A hA ha
    have := prod_fp hr (b := r) (B := r) (C := |r|) (h := 0) hA le_rfl ha (by simp) (trigFp_bounds ht).2
      (by norm_num) r1 r2
    rw [mul_comm r a, mul_comm r A]
    rwa [add_zero] at this
  refine ⟨ρ (r * c), ρ (r * s), ⟨max N1 N2, fun fuel hf => ?_⟩, key _ _ (Real.abs_cos_le_one t) cb,
    key _ _ (Real.abs_sin_le_one t) sb⟩
  have h1 := hc fuel (le_trans (le_max_left _ _) hf)
  have h2 := hs fuel (le_trans (le_max_right _ _) hf)
  simp only [polar, M.bind_apply, h1, h2, M.pure_apply, fmul]

theorem C122_exp (hr : RoundsToNearest ρ) {x y : ℝ} (hx : |x| ≤ 700) (hy : |y| ≤ 400) :
    ∃ a b, Gives (fun fuel => complexExp ρ fuel x y) (a, b) ∧
      |a - (Complex.exp ⟨x, y⟩).re| ≤ (11 / 10 * trigFp y + 11 / 100000) * Real.exp x ∧
      |b - (Complex.exp ⟨x, y⟩).im| ≤ (11 / 10 * trigFp y + 11 / 100000) * Real.exp x := by
  obtain ⟨e, he, eb⟩ := exp_fp hr hx
  obtain ⟨c, ⟨N1, hc⟩, cb⟩ := cos_fp hr hy
  obtain ⟨s, ⟨N2, hs⟩, sb⟩ := sin_trigFp hr hy
  have ex : Complex.exp ⟨x, y⟩ = ⟨Real.exp x * Real.cos y, Real.exp x * Real.sin y⟩ := by
    apply Complex.ext
    · exact Complex.exp_re _
    · exact Complex.exp_im _
  rw [ex]
  obtain ⟨r1, r2⟩ := exp_range hx
  have hE := Real.exp_pos x
  have key : ∀ a A : ℝ, |A| ≤ 1 → |a - A| ≤ trigFp y →
      |ρ (e * a) - Real.exp x * A| ≤ (11 / 10 * trigFp y + 11 / 100000) * Real.exp x := by
    intro a A hA ha
    have := prod_fp hr hA (by rw [abs_of_pos hE]) ha eb (trigFp_bounds hy).2 (by norm_num) r1 r2
    rw [mul_comm e a, mul_comm (Real.exp x) A]
    refine this.trans (mul_le_mul_of_nonneg_right ?_ hE.le)
    norm_num
    linarith
  refine ⟨ρ (e * c), ρ (e * s), ⟨max N1 N2, fun fuel hf => ?_⟩, key _ _ (Real.abs_cos_le_one y) cb,
    key _ _ (Real.abs_sin_le_one y) sb⟩
  have h1 := hc fuel (le_trans (le_max_left _ _) hf)
  have h2 := hs fuel (le_trans (le_max_right _ _) hf)
  simp only [complexExp, polar, M.bind_apply, he, h1, h2, M.pure_apply, fmul]

/-! ### C123: cos, sin, cosh, sinh -/

theorem C123_cos (hr : RoundsToNearest ρ) {x y : ℝ} (hx : |x| ≤ 400) (hy : |y| ≤ 331) :
    ∃ a b, Gives (fun fuel => complexCos ρ fuel x y) (a, b) ∧
    |a - (Complex.cos ⟨x, y⟩).re| ≤ trigBoundFp x y ∧ |b - (Complex.cos ⟨x, y⟩).im| ≤ trigBoundFp x y := by
  obtain ⟨s, c, sh, ch, N, hN, sb, cb, shb, chb⟩ := factors_fp hr hx hy
  have e : Complex.cos ⟨x, y⟩ = ⟨Real.cos x * Real.cosh y, -Real.sin x * Real.sinh y⟩ := by
    rw [show (⟨x, y⟩ : ℂ) = x + y * Complex.I from Complex.mk_eq_add_mul_I x y, Complex.cos_add_mul_I]
    apply Complex.ext <;>
      simp [← Complex.ofReal_cos, ← Complex.ofReal_sin, ← Complex.ofReal_cosh, ← Complex.ofReal_sinh]
  refine ⟨ρ (c * ch), ρ (-s * sh), ⟨N, fun fuel hf => ?_⟩, ?_, ?_⟩
  · obtain ⟨h1, h2, h3, h4⟩ := hN fuel hf
    simp only [complexCos, M.bind_apply, h1, h2, h3, h4, M.pure_apply, fmul]
  · rw [e]
    exact prod_trig hr hx hy (Real.abs_cos_le_one x) (by rw [abs_of_pos (Real.cosh_pos y)]) cb chb
  · rw [e]
    refine prod_trig hr hx hy (by rw [abs_neg]; exact Real.abs_sin_le_one x) (Props.abs_sinh_le_cosh y) ?_ shb
    rw [show -s - -Real.sin x = -(s - Real.sin x) by ring, abs_neg]; exact sb

theorem C123_sin (hr : RoundsToNearest ρ) {x y : ℝ} (hx : |x| ≤ 400) (hy : |y| ≤ 331) :
    ∃ a b, Gives (fun fuel => complexSin ρ fuel x y) (a, b) ∧
    |a - (Complex.sin ⟨x, y⟩).re| ≤ trigBoundFp x y ∧ |b - (Complex.sin ⟨x, y⟩).im| ≤ trigBoundFp x y := by
  obtain ⟨s, c, sh, ch, N, hN, sb, cb, shb, chb⟩ := factors_fp hr hx hy
  have e : Complex.sin ⟨x, y⟩ = ⟨Real.sin x * Real.cosh y, Real.cos x * Real.sinh y⟩ := by
    rw [show (⟨x, y⟩ : ℂ) = x + y * Complex.I from Complex.mk_eq_add_mul_I x y, Complex.sin_add_mul_I]
    apply Complex.ext <;>
      simp [← Complex.ofReal_cos, ← Complex.ofReal_sin, ← Complex.ofReal_cosh, ← Complex.ofReal_sinh]
  refine ⟨ρ (s * ch), ρ (c * sh), ⟨N, fun fuel hf => ?_⟩, ?_, ?_⟩
  · obtain ⟨h1, h2, h3, h4⟩ := hN fuel hf
    simp only [complexSin, M.bind_apply, h1, h2, h3, h4, M.pure_apply, fmul]
  · rw [e]
    exact prod_trig hr hx hy (Real.abs_sin_le_one x) (by rw [abs_of_pos (Real.cosh_pos y)]) sb chb
  · rw [e]
    exact prod_trig hr hx hy (Real.abs_cos_le_one x) (Props.abs_sinh_le_cosh y) cb shb

theorem C123_cosh (hr : RoundsToNearest ρ) {x y : ℝ} (hx : |x| ≤ 331) (hy : |y| ≤ 400) :
    ∃ a b, Gives (fun fuel => complexCosh ρ fuel x y) (a, b) ∧
    |a - (Complex.cosh ⟨x, y⟩).re| ≤ trigBoundFp y x ∧ |b - (Complex.cosh ⟨x, y⟩).im| ≤ trigBoundFp y x := by
  obtain ⟨s, c, sh, ch, N, hN, sb, cb, shb, chb⟩ := factors_fp hr hy hx
  have e : Complex.cosh ⟨x, y⟩ = ⟨Real.cos y * Real.cosh x, Real.sin y * Real.sinh x⟩ := by
    rw [show (⟨x, y⟩ : ℂ) = x + y * Complex.I from Complex.mk_eq_add_mul_I x y, Complex.cosh_add,
      Complex.cosh_mul_I, Complex.sinh_mul_I]
    apply Complex.ext <;>
      simp [← Complex.ofReal_cos, ← Complex.ofReal_sin, ← Complex.ofReal_cosh, ← Complex.ofReal_sinh] <;> ring
  refine ⟨ρ (ch * c), ρ (sh * s), ⟨N, fun fuel hf => ?_⟩, ?_, ?_⟩
  · obtain ⟨h1, h2, h3, h4⟩ := hN fuel hf
    simp only [complexCosh, M.bind_apply, h1, h2, h3, h4, M.pure_apply, fmul]
  · rw [e, mul_comm ch]
    exact prod_trig hr hy hx (Real.abs_cos_le_one y) (by rw [abs_of_pos (Real.cosh_pos x)]) cb chb
  · rw [e, mul_comm sh]
    exact prod_trig hr hy hx (Real.abs_sin_le_one y) (Props.abs_sinh_le_cosh x) sb shb

theorem C123_sinh (hr : RoundsToNearest ρ) {x y : ℝ} (hx : |x| ≤ 331) (hy : |y| ≤ 400) :
    ∃ a b, Gives (fun fuel => complexSinh ρ fuel x y) (a, b) ∧
    |a - (Complex.sinh ⟨x, y⟩).re| ≤ trigBoundFp y x ∧ |b - (Complex.sinh ⟨x, y⟩).im| ≤ trigBoundFp y x := by
  obtain ⟨s, c, sh, ch, N, hN, sb, cb, shb, chb⟩ := factors_fp hr hy hx
  have e : Complex.sinh ⟨x, y⟩ = ⟨Real.cos y * Real.sinh x, Real.sin y * Real.cosh x⟩ := by
    rw [show (⟨x, y⟩ : ℂ) = x + y * Complex.I from Complex.mk_eq_add_mul_I x y, Complex.sinh_add,
      Complex.cosh_mul_I, Complex.sinh_mul_I]
    apply Complex.ext <;>
      simp [← Complex.ofReal_cos, ← Complex.ofReal_sin, ← Complex.ofReal_cosh, ← Complex.ofReal_sinh] <;> ring
  refine ⟨ρ (sh * c), ρ (ch * s), ⟨N, fun fuel hf => ?_⟩, ?_, ?_⟩
  · obtain ⟨h1, h2, h3, h4⟩ := hN fuel hf
    simp only [complexSinh, M.bind_apply, h1, h2, h3, h4, M.pure_apply, fmul]
  · rw [e, mul_comm sh]
    exact prod_trig hr hy hx (Real.abs_cos_le_one y) (Props.abs_sinh_le_cosh x) cb shb
  · rw [e, mul_comm ch]
    exact prod_trig hr hy hx (Real.abs_sin_le_one y) (by rw [abs_of_pos (Real.cosh_pos x)]) sb chb

/-! ### C124: log and sqrt -/

/-- The absolute value of a number that is not tiny: a relative bound. -/
theorem abs_rel (hr : RoundsToNearest ρ) {x y : ℝ} (hx : |x| ≤ 2 ^ 1021) (hy : |y| ≤ 2 ^ 1021)
    (h : 1 / 2 ^ 1000 ≤ max |x| |y|) :
    ∃ v, Gives (fun fuel => complexAbs ρ fuel x y) v ∧ IsDouble v ∧ 0 < v ∧
      |v - Real.sqrt (x ^ 2 + y ^ 2)| ≤ 53 / 100000 * Real.sqrt (x ^ 2 + y ^ 2) := by
  have hu := u_pos
  have hu1 := u_lt
  norm_num at hu1
  obtain ⟨v, h1, h2, h3, h4⟩ := complexAbs_fp hr hx hy
  have hm : max |x| |y| ≤ Real.sqrt (x ^ 2 + y ^ 2) := by
    apply max_le
    · apply Real.le_sqrt_of_sq_le; rw [sq_abs]; nlinarith [sq_nonneg y]
    · apply Real.le_sqrt_of_sq_le; rw [sq_abs]; nlinarith [sq_nonneg x]
  have hR : 1 / 2 ^ 1000 ≤ Real.sqrt (x ^ 2 + y ^ 2) := h.trans hm
  have R0 : 0 < Real.sqrt (x ^ 2 + y ^ 2) := lt_of_lt_of_le (by positivity) hR
  have hη := η_le (le_trans (one_div_le_one_div_of_le (by positivity)
    (pow_le_pow_right₀ (by norm_num) (by norm_num : 1000 ≤ 1022))) hR)
  clear hx hy h hR hm
  generalize Real.sqrt (x ^ 2 + y ^ 2) = R at *
  have : u * R ≤ 1 / 100000 * R := mul_le_mul_of_nonneg_right (by linarith) R0.le
  have h5 : |v - R| ≤ 53 / 100000 * R := by linarith
  refine ⟨v, h1, h2, ?_, h5⟩
  have := (abs_le.mp h5).1
  linarith

/-- `log(z)` for `z` that is neither tiny nor huge. -/
theorem C124_log (hr : RoundsToNearest ρ) {x y : ℝ} (hx : |x| ≤ 2 ^ 1021) (hy : |y| ≤ 2 ^ 1021)
    (h : 1 / 2 ^ 1000 ≤ max |x| |y|) (hq : |y| ≤ 2 ^ 1023 * |x| ∨ x = 0) : ∃ a b,
    Gives (fun fuel => complexLog ρ fuel x y) (LogRes.val a, b) ∧
    |a - (Complex.log ⟨x, y⟩).re| ≤ 2 / 1000 + |(Complex.log ⟨x, y⟩).re| / 100000000 ∧
    |b - (Complex.log ⟨x, y⟩).im| ≤ 1 / 19000 := by
  have hz : ¬ (x = 0 ∧ y = 0) := by
    rintro ⟨rfl, rfl⟩
    simp only [abs_zero, max_self] at h
    exact absurd h (not_le.mpr (by positivity))
  obtain ⟨v, ⟨N1, hv⟩, vd, v0, vb⟩ := abs_rel hr hx hy h
  obtain ⟨b, ⟨N2, hb⟩, bb⟩ := C122_arg hr hz hq
  have hr' : 0 < Real.sqrt (x ^ 2 + y ^ 2) := by
    apply Real.sqrt_pos.mpr
    by_contra hc
    exact hz ⟨by nlinarith [sq_nonneg x, sq_nonneg y], by nlinarith [sq_nonneg x, sq_nonneg y]⟩
  set r := Real.sqrt (x ^ 2 + y ^ 2) with hrdef
  clear hx hy h hq
  rw [abs_le] at vb
  obtain ⟨a, ⟨N3, ha⟩, ab⟩ := log_fp hr vd v0
  have ere : (Complex.log ⟨x, y⟩).re = Real.log r := by
    rw [Complex.log_re, hrdef]
    congr 1
    rw [Complex.norm_def, Complex.normSq_apply]
    congr 1; ring
  have eim : (Complex.log ⟨x, y⟩).im = Complex.arg ⟨x, y⟩ := Complex.log_im _
  have hl : |Real.log v - Real.log r| ≤ 6 / 10000 := by
    rw [← Real.log_div v0.ne' hr'.ne']
    have q0 : 0 < v / r := div_pos v0 hr'
    have q1 : v / r ≤ 1 + 53 / 100000 := by rw [div_le_iff₀ hr']; nlinarith
    have q2 : 1 - 53 / 100000 ≤ v / r := by rw [le_div_iff₀ hr']; nlinarith
    have u1 := Real.log_le_sub_one_of_pos q0
    have u2 := Real.one_sub_inv_le_log_of_pos q0
    have u3 : (v / r)⁻¹ ≤ 1 + 6 / 10000 := by
      rw [inv_le_comm₀ q0 (by norm_num)]
      refine le_trans ?_ q2; norm_num
    rw [abs_le]; constructor <;> linarith
  refine ⟨a, b, ⟨max N1 (max N2 N3), fun fuel hf => ?_⟩, ?_, ?_⟩
  · simp only [max_le_iff] at hf
    have g1 := hv fuel hf.1
    have g2 := hb fuel hf.2.1
    have g3 := ha fuel hf.2.2
    simp only [complexLog, M.bind_apply, g1, g2, g3, M.pure_apply]
  · rw [ere]
    have t1 := abs_sub_le a (Real.log v) (Real.log r)
    have t2 := abs_sub_abs_le_abs_sub (Real.log v) (Real.log r)
    linarith
  · rw [eim]; exact bb

/-- `sqrt(z)`: near the principal square root `w` of `z`, each component with relative error at most `1/1000` up to
half of the smallest double.  Missing from the full statement (every `z`): zero, where the code does not return
(`C124_sqrt_zero_refuted`), and numbers below `2^-1000` or above `2^950`. -/
theorem C124_sqrt_partial (hr : RoundsToNearest ρ) {x y : ℝ} (hx : |x| ≤ 2 ^ 950) (hy : |y| ≤ 2 ^ 950)
    (h : 1 / 2 ^ 1000 ≤ max |x| |y|) : ∃ a b, ∃ w : ℂ,
    Gives (fun fuel => complexSqrt ρ fuel x y) (a, b) ∧ w ^ 2 = ⟨x, y⟩ ∧
    (0 < w.re ∨ w.re = 0 ∧ 0 ≤ w.im) ∧
    |a - w.re| ≤ 1 / 1000 * |w.re| + 1 / 2 ^ 1075 ∧ |b - w.im| ≤ 1 / 1000 * |w.im| + 1 / 2 ^ 1075 := by
  have hu := u_pos
  have hu1 := u_lt
  norm_num at hu1
  have η0 : (0 : ℝ) < 1 / 2 ^ 1075 := by positivity
  by_cases hx0 : x = 0
  · subst hx0
    rw [abs_zero, max_eq_right (abs_nonneg y)] at h
    have hy0 : 0 < |y| := lt_of_lt_of_le (by positivity) h
    obtain ⟨r, ⟨N, hN⟩, r0, rb⟩ := half_root hr h hy
    set T := Real.sqrt (|y| / 2) with hT
    have hq : 0 < |y| / 2 := by linarith
    have hT0 : 0 < T := Real.sqrt_pos.mpr hq
    have hT2 : T * T = |y| / 2 := Real.mul_self_sqrt hq.le
    clear hx hy h
    have rb' : |r - T| ≤ 1 / 1000 * |T| + 1 / 2 ^ 1075 := by
      rw [abs_of_pos hT0]
      generalize (1 : ℝ) / 2 ^ 1075 = g at *
      linarith
    refine ⟨r, if y < 0 then -r else r, ⟨T, if y < 0 then -T else T⟩, ⟨N, fun fuel hf => ?_⟩, ?_, Or.inl hT0,
      rb', ?_⟩
    · have := hN fuel hf
      simp only [complexSqrt, if_true, M.bind_apply, fdiv_ok (two_ne_zero (α := ℝ)), Cmath.abs_eq, this, M.pure_apply]
    · rw [sq]
      by_cases hy' : y < 0
      · rw [if_pos hy']
        rw [abs_of_neg hy'] at hT2
        apply Complex.ext
        · simp
        · simp; linarith
      · rw [if_neg hy']
        rw [abs_of_nonneg (not_lt.mp hy')] at hT2
        apply Complex.ext
        · simp
        · simp; linarith
    · by_cases hy' : y < 0
      · simp only [if_pos hy']
        rw [show -r - -T = -(r - T) by ring, abs_neg, abs_neg]; exact rb'
      · simp only [if_neg hy']; exact rb'
  · have w1 : (2 : ℝ) ^ 950 ≤ 2 ^ 1021 := pow_le_pow_right₀ (by norm_num) (by norm_num)
    obtain ⟨v, ⟨N1, hv⟩, -, -, vb⟩ := complexAbs_fp hr (hx.trans w1) (hy.trans w1)
    set R := Real.sqrt (x ^ 2 + y ^ 2) with hR
    set S := Real.sqrt (2 * (R + |x|)) with hS
    obtain ⟨hS0, -, -⟩ := Props.root_sq hR hS hx0
    obtain ⟨rt1, rt2⟩ := root_exists hR hS hx0
    have xR : |x| ≤ R := by apply Real.le_sqrt_of_sq_le; rw [sq_abs]; nlinarith [sq_nonneg y]
    have yR : |y| ≤ R := by apply Real.le_sqrt_of_sq_le; rw [sq_abs]; nlinarith [sq_nonneg x]
    have hR1 : 1 / 2 ^ 1000 ≤ R := h.trans (max_le xR yR)
    have hR2 : R ≤ 2 ^ 951 := by
      rw [hR]
      apply Real.sqrt_le_iff.mpr
      refine ⟨by positivity, ?_⟩
      have e1 : x ^ 2 ≤ (2 ^ 950) ^ 2 := by rw [← sq_abs]; exact pow_le_pow_left₀ (abs_nonneg x) hx 2
      have e2 : y ^ 2 ≤ (2 ^ 950) ^ 2 := by rw [← sq_abs]; exact pow_le_pow_left₀ (abs_nonneg y) hy 2
      rw [show (2 : ℝ) ^ 951 = 2 ^ 950 * 2 by rw [← pow_succ], mul_pow]
      generalize (2 : ℝ) ^ 950 = g at *
      nlinarith [sq_nonneg g]
    obtain ⟨t, ⟨N2, ht⟩, t0, tb⟩ := root_err hr xR hR1 hR2 vb
    rw [← hS] at tb
    have SS : S * S = 2 * (R + |x|) := Real.mul_self_sqrt (by have := abs_nonneg x; have := abs_nonneg y; linarith)
    have S1 : 1 / 2 ^ 501 ≤ S := by
      rw [hS]
      apply Real.le_sqrt_of_sq_le
      have : ((1 : ℝ) / 2 ^ 501) ^ 2 ≤ 1 / 2 ^ 1000 := by
        rw [div_pow, one_pow, ← pow_mul]
        exact one_div_le_one_div_of_le (by positivity) (pow_le_pow_right₀ (by norm_num) (by norm_num))
      have := abs_nonneg x
      clear w1 hx hy hR2 h η0
      generalize (1 : ℝ) / 2 ^ 1000 = g at *
      have := abs_nonneg y
      linarith
    have S2 : S ≤ 2 ^ 501 := by
      rw [hS]
      apply Real.sqrt_le_iff.mpr
      refine ⟨by positivity, ?_⟩
      have : (4 : ℝ) * 2 ^ 951 ≤ (2 ^ 501) ^ 2 := by
        rw [← pow_mul, show (4 : ℝ) = 2 ^ 2 by norm_num, ← pow_add]
        exact pow_le_pow_right₀ (by norm_num) (by norm_num)
      clear w1 hx hy hR1 h S1 η0
      generalize ((2 : ℝ) ^ 501) ^ 2 = g at *
      generalize (2 : ℝ) ^ 951 = g' at *
      linarith
    have ySS : |y| ≤ S * S := by rw [SS]; have := abs_nonneg x; have := abs_nonneg y; linarith
    obtain ⟨pu, pq⟩ := parts_err hr S1 S2 ySS tb
    obtain ⟨-, pq'⟩ := parts_err hr (y := |y|) S1 S2 (by rwa [abs_abs]) tb
    clear S1 S2 hR1 hR2 hx hy h w1 vb
    have pu' : |ρ (t / 2) - S / 2| ≤ 1 / 1000 * |S / 2| + 1 / 2 ^ 1075 := by
      rw [abs_of_pos (by linarith : 0 < S / 2)]
      generalize (1 : ℝ) / 2 ^ 1075 = g at *
      linarith
    have key : ∀ fuel, max N1 N2 ≤ fuel → complexAbs ρ fuel x y () = .ok v () ∧
        sqrt ρ fuel (ρ (2 * ρ (v + |x|))) () = .ok t () := fun fuel hf =>
      ⟨hv fuel (le_trans (le_max_left _ _) hf), ht fuel (le_trans (le_max_right _ _) hf)⟩
    by_cases hpos : x > 0
    · refine ⟨ρ (t / 2), ρ (y / t), ⟨S / 2, y / S⟩, ⟨max N1 N2, fun fuel hf => ?_⟩, rt1 hpos,
        Or.inl (by show 0 < S / 2; linarith), pu', pq⟩
      obtain ⟨k1, k2⟩ := key fuel hf
      simp only [complexSqrt, if_neg hx0, M.bind_apply, k1, fmul, fadd, Cmath.abs_eq, k2, fdiv_ok (two_ne_zero (α := ℝ))]
      simp [hpos, fdiv_ok t0.ne']
    · have hneg : x < 0 := lt_of_le_of_ne (not_lt.mp hpos) hx0
      refine ⟨ρ (|y| / t), if y < 0 then -(ρ (t / 2)) else ρ (t / 2), ⟨|y| / S, if y < 0 then -(S / 2) else S / 2⟩,
        ⟨max N1 N2, fun fuel hf => ?_⟩, rt2 hneg, ?_, pq', ?_⟩
      · obtain ⟨k1, k2⟩ := key fuel hf
        simp only [complexSqrt, if_neg hx0, M.bind_apply, k1, fmul, fadd, Cmath.abs_eq, k2,
          fdiv_ok (two_ne_zero (α := ℝ))]
        simp [hpos, fdiv_ok t0.ne']
      · show 0 < |y| / S ∨ |y| / S = 0 ∧ _
        by_cases hy0 : y = 0
        · right; subst hy0; simp; linarith
        · left; exact div_pos (abs_pos.mpr hy0) hS0
      · by_cases hy' : y < 0
        · simp only [if_pos hy']
          rw [show -(ρ (t / 2)) - -(S / 2) = -(ρ (t / 2) - S / 2) by ring, abs_neg, abs_neg]; exact pu'
        · simp only [if_neg hy']; exact pu'

/-- At zero no amount of fuel gives a result, in binary64 arithmetic too. -/
theorem C124_sqrt_zero_refuted (hr : RoundsToNearest ρ) (fuel : ℕ) (v : ℝ × ℝ) :
    complexSqrt ρ fuel (0 : ℝ) 0 () ≠ .ok v () := by
  have h0 : ρ 0 = 0 := hr.exact isDouble_zero
  have h := (Cmath.Props.C69_sqrt_refuted (ρ := ρ) (x := (0 : ℝ)) le_rfl).2 hr fuel
  intro hv
  simp only [complexSqrt, if_true, M.bind_apply, fdiv_ok (two_ne_zero (α := ℝ)), Cmath.abs_eq, abs_zero, zero_div, h0] at hv
  rcases e : sqrt ρ fuel (0 : ℝ) () with ⟨t, ⟨⟩⟩ | _ | _ | _
  · exact h t e
  all_goals rw [e] at hv; simp at hv

/-! ### The hypotheses are met -/

/-- `z = -3 + 4i`: absolute value 5, and the root is `1 + 2i`. -/
example (hr : RoundsToNearest ρ) : ∃ v, Gives (fun fuel => complexAbs ρ fuel (-3) 4) v ∧ |v - 5| ≤ 27 / 10000 := by
  have h1 : (4 : ℝ) ≤ 2 ^ 1021 := le_trans (by norm_num) (pow_le_pow_right₀ (by norm_num) (by norm_num : 2 ≤ 1021))
  obtain ⟨v, h, -, -, hb⟩ := C122_abs hr (x := -3) (y := 4) (by rw [abs_of_neg (by norm_num)]; exact le_trans (by norm_num) h1)
    (by rw [abs_of_pos (by norm_num)]; exact h1)
  refine ⟨v, h, ?_⟩
  have e : ‖(⟨-3, 4⟩ : ℂ)‖ = 5 := by
    rw [Complex.norm_def, Complex.normSq_apply]
    norm_num
    rw [show (25 : ℝ) = 5 ^ 2 by norm_num, Real.sqrt_sq (by norm_num)]
  rw [e] at hb
  have h2 : (1 : ℝ) / 2 ^ 1075 ≤ 1 / 2 ^ 20 :=
    one_div_le_one_div_of_le (by positivity) (pow_le_pow_right₀ (by norm_num) (by norm_num))
  generalize (1 : ℝ) / 2 ^ 1075 = g at *
  norm_num at h2 hb
  linarith

example (hr : RoundsToNearest ρ) : ∃ a b, ∃ w : ℂ, Gives (fun fuel => complexSqrt ρ fuel (-3) 4) (a, b) ∧
    w ^ 2 = ⟨-3, 4⟩ ∧ (0 < w.re ∨ w.re = 0 ∧ 0 ≤ w.im) ∧
    |a - w.re| ≤ 1 / 1000 * |w.re| + 1 / 2 ^ 1075 ∧ |b - w.im| ≤ 1 / 1000 * |w.im| + 1 / 2 ^ 1075 := by
  have h1 : (4 : ℝ) ≤ 2 ^ 950 := le_trans (by norm_num) (pow_le_pow_right₀ (by norm_num) (by norm_num : 2 ≤ 950))
  refine C124_sqrt_partial hr (by rw [abs_of_neg (by norm_num)]; exact le_trans (by norm_num) h1) (by rw [abs_of_pos (by norm_num)]; exact h1) ?_
  refine le_trans ?_ (le_max_right _ _)
  rw [abs_of_pos (by norm_num), div_le_iff₀ (by positivity)]
  have : (1 : ℝ) ≤ 2 ^ 1000 := one_le_pow₀ (by norm_num)
  generalize (2 : ℝ) ^ 1000 = g at *
  linarith

/-- `exp(1 + 2i)`. -/
example (hr : RoundsToNearest ρ) : ∃ a b, Gives (fun fuel => complexExp ρ fuel 1 2) (a, b) ∧
    |a - Real.exp 1 * Real.cos 2| ≤ 1 / 5000 * Real.exp 1 ∧ |b - Real.exp 1 * Real.sin 2| ≤ 1 / 5000 * Real.exp 1 := by
  obtain ⟨a, b, h, h1, h2⟩ := C122_exp hr (x := 1) (y := 2) (by norm_num) (by norm_num)
  have e : trigFp 2 ≤ 1 / 20000 := by unfold trigFp; norm_num
  have k : (11 / 10 * trigFp 2 + 11 / 100000) * Real.exp 1 ≤ 1 / 5000 * Real.exp 1 :=
    mul_le_mul_of_nonneg_right (by linarith) (Real.exp_pos 1).le
  refine ⟨a, b, h, ?_, ?_⟩
  · have := h1.trans k; rwa [Complex.exp_re] at this
  · have := h2.trans k; rwa [Complex.exp_im] at this

/-- The circular functions at `1 + 2i`. -/
example (hr : RoundsToNearest ρ) : ∃ a b, Gives (fun fuel => complexCos ρ fuel 1 2) (a, b) ∧
    |a - (Complex.cos ⟨1, 2⟩).re| ≤ trigBoundFp 1 2 ∧ |b - (Complex.cos ⟨1, 2⟩).im| ≤ trigBoundFp 1 2 :=
  C123_cos hr (by norm_num) (by norm_num)

example : trigBoundFp 1 2 ≤ 6 / 10000 * Real.cosh 2 := by
  unfold trigBoundFp
  apply mul_le_mul_of_nonneg_right _ (Real.cosh_pos 2).le
  unfold trigFp
  norm_num [abs_of_pos]

/-- The logarithm of `-3 + 4i`. -/
example (hr : RoundsToNearest ρ) : ∃ a b, Gives (fun fuel => complexLog ρ fuel (-3) 4) (LogRes.val a, b) ∧
    |a - (Complex.log ⟨-3, 4⟩).re| ≤ 2 / 1000 + |(Complex.log ⟨-3, 4⟩).re| / 100000000 ∧
    |b - (Complex.log ⟨-3, 4⟩).im| ≤ 1 / 19000 := by
  have h1 : (4 : ℝ) ≤ 2 ^ 1021 := le_trans (by norm_num) (pow_le_pow_right₀ (by norm_num) (by norm_num : 2 ≤ 1021))
  have h2 : (4 : ℝ) ≤ 2 ^ 1023 := le_trans (by norm_num) (pow_le_pow_right₀ (by norm_num) (by norm_num : 2 ≤ 1023))
  refine C124_log hr (by rw [abs_of_neg (by norm_num)]; exact le_trans (by norm_num) h1) (by rw [abs_of_pos (by norm_num)]; exact h1) ?_ (Or.inl ?_)
  · refine le_trans ?_ (le_max_right _ _)
    rw [abs_of_pos (by norm_num), div_le_iff₀ (by positivity)]
    have : (1 : ℝ) ≤ 2 ^ 1000 := one_le_pow₀ (by norm_num)
    generalize (2 : ℝ) ^ 1000 = g at *
    linarith
  · rw [abs_of_pos (by norm_num), abs_of_neg (by norm_num)]
    generalize (2 : ℝ) ^ 1023 = g at *
    linarith

end Cest.ComplexFn.FpProps
