import Verif.ComplexFn.Model
import Verif.Cmath.Props

/-! Accuracy of the complex transcendental functions in exact arithmetic (C101-C103). -/

namespace Cest.ComplexFn.Props
open Cest Cest.Cmath Cest.ComplexFn
open Cest.Cmath.Props

/-! ### C101: cos, sin, cosh, sinh -/

/-- The bound of C101: errors of the trigonometric factor (argument `t`) and of the hyperbolic one (argument `h`),
relative to `cosh h`. -/
noncomputable def trigBound (t h : ℝ) : ℝ :=
  ((|t| + 6) / 1000000 + (51 / 100000 + 2 / 1000000 * |h|) +
    (|t| + 6) / 1000000 * (51 / 100000 + 2 / 1000000 * |h|)) * Real.cosh h

theorem prod_near {t h a A b B : ℝ} (hA : |A| ≤ 1) (hB : |B| ≤ Real.cosh h)
    (ha : |a - A| ≤ (|t| + 6) / 1000000)
    (hb : |b - B| ≤ (51 / 100000 + 2 / 1000000 * |h|) * Real.cosh h) :
    |a * b - A * B| ≤ trigBound t h := by
  have hc := Real.cosh_pos h
  have e : a * b - A * B = (a - A) * (b - B) + (a - A) * B + A * (b - B) := by ring
  rw [e, trigBound]
  have h1 : |(a - A) * (b - B)| ≤ (|t| + 6) / 1000000 * ((51 / 100000 + 2 / 1000000 * |h|) * Real.cosh h) := by
    rw [abs_mul]; exact mul_le_mul ha hb (abs_nonneg _) (by positivity)
  have h2 : |(a - A) * B| ≤ (|t| + 6) / 1000000 * Real.cosh h := by
    rw [abs_mul]; exact mul_le_mul ha hB (abs_nonneg _) (by positivity)
  have h3 : |A * (b - B)| ≤ 1 * ((51 / 100000 + 2 / 1000000 * |h|) * Real.cosh h) := by
    rw [abs_mul]; exact mul_le_mul hA hb (abs_nonneg _) (by positivity)
  have := abs_add_three ((a - A) * (b - B)) ((a - A) * B) (A * (b - B))
  linarith

theorem abs_sinh_le_cosh (h : ℝ) : |Real.sinh h| ≤ Real.cosh h := by
  rw [abs_le]
  have h1 := Real.exp_pos h
  have h2 := Real.exp_pos (-h)
  rw [Real.sinh_eq, Real.cosh_eq]
  constructor <;> linarith

/-- The four factors: with one fuel bound, values near the true ones. -/
theorem factors (t h : ℝ) : ∃ s c sh ch N,
    (∀ fuel, N ≤ fuel → sin id fuel t () = .ok s () ∧ cos id fuel t () = .ok c () ∧
      sinh id fuel h () = .ok sh () ∧ cosh id fuel h () = .ok ch ()) ∧
    |s - Real.sin t| ≤ (|t| + 6) / 1000000 ∧ |c - Real.cos t| ≤ (|t| + 6) / 1000000 ∧
    |sh - Real.sinh h| ≤ (51 / 100000 + 2 / 1000000 * |h|) * Real.cosh h ∧
    |ch - Real.cosh h| ≤ (51 / 100000 + 2 / 1000000 * |h|) * Real.cosh h := by
  obtain ⟨s, ⟨N1, hs⟩, sb⟩ := C87_sin t
  obtain ⟨c, ⟨N2, hc⟩, cb⟩ := C87_cos t
  obtain ⟨sh, ⟨N3, hsh⟩, shb, -⟩ := C88_sinh h
  obtain ⟨ch, ⟨N4, hch⟩, chb⟩ := C88_cosh h
  have hp := Real.cosh_pos h
  refine ⟨s, c, sh, ch, max (max N1 N2) (max N3 N4), fun fuel hf => ?_, by linarith, cb, by nlinarith, chb⟩
  simp only [max_le_iff] at hf
  exact ⟨hs fuel hf.1.1, hc fuel hf.1.2, hsh fuel hf.2.1, hch fuel hf.2.2⟩

/-- C101: `cos(z)` terminates for every `z`, with both components near the true ones. -/
theorem C101_cos (x y : ℝ) : ∃ a b, Gives (fun fuel => complexCos id fuel x y) (a, b) ∧
    |a - (Complex.cos ⟨x, y⟩).re| ≤ trigBound x y ∧ |b - (Complex.cos ⟨x, y⟩).im| ≤ trigBound x y := by
  obtain ⟨s, c, sh, ch, N, hN, sb, cb, shb, chb⟩ := factors x y
  have e : Complex.cos ⟨x, y⟩ = ⟨Real.cos x * Real.cosh y, -(Real.sin x * Real.sinh y)⟩ := by
    rw [show (⟨x, y⟩ : ℂ) = x + y * Complex.I from Complex.mk_eq_add_mul_I x y, Complex.cos_add_mul_I]
    apply Complex.ext <;>
      simp [← Complex.ofReal_cos, ← Complex.ofReal_sin, ← Complex.ofReal_cosh, ← Complex.ofReal_sinh]
  refine ⟨c * ch, -s * sh, ⟨N, fun fuel hf => ?_⟩, ?_, ?_⟩
  · obtain ⟨h1, h2, h3, h4⟩ := hN fuel hf
    simp only [complexCos, M.bind_apply, h1, h2, h3, h4, M.pure_apply, fmul, id]
  · rw [e]
    exact prod_near (Real.abs_cos_le_one x) (by rw [abs_of_pos (Real.cosh_pos y)]) cb chb
  · rw [e]
    show |-s * sh - -(Real.sin x * Real.sinh y)| ≤ _
    rw [show -s * sh - -(Real.sin x * Real.sinh y) = -(s * sh - Real.sin x * Real.sinh y) by ring, abs_neg]
    exact prod_near (Real.abs_sin_le_one x) (abs_sinh_le_cosh y) sb shb

/-- C101: `sin(z)` terminates for every `z`, with both components near the true ones. -/
theorem C101_sin (x y : ℝ) : ∃ a b, Gives (fun fuel => complexSin id fuel x y) (a, b) ∧
    |a - (Complex.sin ⟨x, y⟩).re| ≤ trigBound x y ∧ |b - (Complex.sin ⟨x, y⟩).im| ≤ trigBound x y := by
  obtain ⟨s, c, sh, ch, N, hN, sb, cb, shb, chb⟩ := factors x y
  have e : Complex.sin ⟨x, y⟩ = ⟨Real.sin x * Real.cosh y, Real.cos x * Real.sinh y⟩ := by
    rw [show (⟨x, y⟩ : ℂ) = x + y * Complex.I from Complex.mk_eq_add_mul_I x y, Complex.sin_add_mul_I]
    apply Complex.ext <;>
      simp [← Complex.ofReal_cos, ← Complex.ofReal_sin, ← Complex.ofReal_cosh, ← Complex.ofReal_sinh]
  refine ⟨s * ch, c * sh, ⟨N, fun fuel hf => ?_⟩, ?_, ?_⟩
  · obtain ⟨h1, h2, h3, h4⟩ := hN fuel hf
    simp only [complexSin, M.bind_apply, h1, h2, h3, h4, M.pure_apply, fmul, id]
  · rw [e]
    exact prod_near (Real.abs_sin_le_one x) (by rw [abs_of_pos (Real.cosh_pos y)]) sb chb
  · rw [e]
    exact prod_near (Real.abs_cos_le_one x) (abs_sinh_le_cosh y) cb shb

/-- C101: `cosh(z)` terminates for every `z`, with both components near the true ones. -/
theorem C101_cosh (x y : ℝ) : ∃ a b, Gives (fun fuel => complexCosh id fuel x y) (a, b) ∧
    |a - (Complex.cosh ⟨x, y⟩).re| ≤ trigBound y x ∧ |b - (Complex.cosh ⟨x, y⟩).im| ≤ trigBound y x := by
  obtain ⟨s, c, sh, ch, N, hN, sb, cb, shb, chb⟩ := factors y x
  have e : Complex.cosh ⟨x, y⟩ = ⟨Real.cos y * Real.cosh x, Real.sin y * Real.sinh x⟩ := by
    rw [show (⟨x, y⟩ : ℂ) = x + y * Complex.I from Complex.mk_eq_add_mul_I x y, Complex.cosh_add,
      Complex.cosh_mul_I, Complex.sinh_mul_I]
    apply Complex.ext <;>
      simp [← Complex.ofReal_cos, ← Complex.ofReal_sin, ← Complex.ofReal_cosh, ← Complex.ofReal_sinh] <;> ring
  refine ⟨ch * c, sh * s, ⟨N, fun fuel hf => ?_⟩, ?_, ?_⟩
  · obtain ⟨h1, h2, h3, h4⟩ := hN fuel hf
    simp only [complexCosh, M.bind_apply, h1, h2, h3, h4, M.pure_apply, fmul, id]
  · rw [e, mul_comm ch]
    exact prod_near (Real.abs_cos_le_one y) (by rw [abs_of_pos (Real.cosh_pos x)]) cb chb
  · rw [e, mul_comm sh]
    exact prod_near (Real.abs_sin_le_one y) (abs_sinh_le_cosh x) sb shb

/-- C101: `sinh(z)` terminates for every `z`, with both components near the true ones. -/
theorem C101_sinh (x y : ℝ) : ∃ a b, Gives (fun fuel => complexSinh id fuel x y) (a, b) ∧
    |a - (Complex.sinh ⟨x, y⟩).re| ≤ trigBound y x ∧ |b - (Complex.sinh ⟨x, y⟩).im| ≤ trigBound y x := by
  obtain ⟨s, c, sh, ch, N, hN, sb, cb, shb, chb⟩ := factors y x
  have e : Complex.sinh ⟨x, y⟩ = ⟨Real.cos y * Real.sinh x, Real.sin y * Real.cosh x⟩ := by
    rw [show (⟨x, y⟩ : ℂ) = x + y * Complex.I from Complex.mk_eq_add_mul_I x y, Complex.sinh_add,
      Complex.cosh_mul_I, Complex.sinh_mul_I]
    apply Complex.ext <;>
      simp [← Complex.ofReal_cos, ← Complex.ofReal_sin, ← Complex.ofReal_cosh, ← Complex.ofReal_sinh] <;> ring
  refine ⟨sh * c, ch * s, ⟨N, fun fuel hf => ?_⟩, ?_, ?_⟩
  · obtain ⟨h1, h2, h3, h4⟩ := hN fuel hf
    simp only [complexSinh, M.bind_apply, h1, h2, h3, h4, M.pure_apply, fmul, id]
  · rw [e, mul_comm sh]
    exact prod_near (Real.abs_cos_le_one y) (abs_sinh_le_cosh x) cb shb
  · rw [e, mul_comm ch]
    exact prod_near (Real.abs_sin_le_one y) (by rw [abs_of_pos (Real.cosh_pos x)]) sb chb

/-- At the origin: `cos 0 = 1` up to about half a thousandth. -/
example : ∃ a b : ℝ, Gives (fun fuel => complexCos id fuel 0 0) (a, b) ∧ |a - 1| ≤ 52 / 100000 ∧ |b| ≤ 52 / 100000 := by
  obtain ⟨a, b, h, h1, h2⟩ := C101_cos 0 0
  have e : trigBound 0 0 ≤ 52 / 100000 := by simp only [trigBound, abs_zero, Real.cosh_zero]; norm_num
  have e0 : Complex.cos ⟨0, 0⟩ = 1 := by rw [show (⟨0, 0⟩ : ℂ) = 0 from rfl, Complex.cos_zero]
  rw [e0] at h1 h2
  refine ⟨a, b, h, ?_, ?_⟩
  · simpa using h1.trans e
  · simpa using h2.trans e

/-! ### C102: log -/

/-- C102: `log(z)` terminates for every `z ≠ 0` and is near the principal logarithm. -/
theorem C102_log (x y : ℝ) (h : ¬ (x = 0 ∧ y = 0)) : ∃ a b,
    Gives (fun fuel => complexLog id fuel x y) (LogRes.val a, b) ∧
    |a - (Complex.log ⟨x, y⟩).re| ≤ 2 / 1000 + |(Complex.log ⟨x, y⟩).re| / 100000000 ∧
    |b - (Complex.log ⟨x, y⟩).im| ≤ 1 / 19000 := by
  obtain ⟨v, ⟨N1, hv⟩, vb⟩ := C92_complex_abs x y
  obtain ⟨b, ⟨N2, hb⟩, bb⟩ := C92_complex_arg x y h
  have hr : 0 < Real.sqrt (x ^ 2 + y ^ 2) := by
    apply Real.sqrt_pos.mpr
    by_contra hc
    exact h ⟨by nlinarith [sq_nonneg x, sq_nonneg y], by nlinarith [sq_nonneg x, sq_nonneg y]⟩
  set r := Real.sqrt (x ^ 2 + y ^ 2) with hrdef
  rw [abs_le] at vb
  have v0 : 0 < v := by nlinarith
  obtain ⟨a, ⟨N3, ha⟩, ab⟩ := C90_log v0
  have ere : (Complex.log ⟨x, y⟩).re = Real.log r := by
    rw [Complex.log_re, hrdef]
    congr 1
    rw [Complex.norm_def, Complex.normSq_apply]
    congr 1; ring
  have eim : (Complex.log ⟨x, y⟩).im = Complex.arg ⟨x, y⟩ := Complex.log_im _
  -- the error of the absolute value moves the logarithm by little
  have hl : |Real.log v - Real.log r| ≤ 6 / 10000 := by
    rw [← Real.log_div v0.ne' hr.ne']
    have q0 : 0 < v / r := div_pos v0 hr
    have q1 : v / r ≤ 1 + 51 / 100000 := by rw [div_le_iff₀ hr]; nlinarith
    have q2 : 1 - 51 / 100000 ≤ v / r := by rw [le_div_iff₀ hr]; nlinarith
    have u1 := Real.log_le_sub_one_of_pos q0
    have u2 := Real.one_sub_inv_le_log_of_pos q0
    have u3 : (v / r)⁻¹ ≤ 1 + 6 / 10000 := by
      rw [inv_le_comm₀ q0 (by norm_num)]
      refine le_trans ?_ q2; norm_num
    rw [abs_le]; constructor <;> linarith
  refine ⟨a, b, ⟨max N1 (max N2 N3), fun fuel hf => ?_⟩, ?_, ?_⟩
  · simp only [max_le_iff] at hf
    have g1 := hv fuel hf.1
    have g2 := hb fuel hf.2.1
    have g3 := ha fuel hf.2.2
    simp only [complexLog, M.bind_apply, g1, g2, g3, M.pure_apply]
  · rw [ere]
    have t1 := abs_sub_le a (Real.log v) (Real.log r)
    have t2 := abs_sub_abs_le_abs_sub (Real.log v) (Real.log r)
    linarith
  · rw [eim]; exact bb

/-- At the origin the result is minus infinity and argument 0, as for C's `clog`. -/
theorem C102_log_zero : Gives (fun fuel => complexLog id fuel (0 : ℝ) 0) (LogRes.negInf, 0) :=
  ⟨0, fun fuel _ => by simp [complexLog, complexAbs, complexArg, atan2, log, Cmath.abs]⟩

example : ∃ a b, Gives (fun fuel => complexLog id fuel (-1 : ℝ) 0) (LogRes.val a, b) ∧ |a| ≤ 2 / 1000 ∧
    |b - Real.pi| ≤ 1 / 19000 := by
  obtain ⟨a, b, h, h1, h2⟩ := C102_log (-1) 0 (by norm_num)
  have e : Complex.log ⟨-1, 0⟩ = Real.pi * Complex.I := by
    rw [show (⟨-1, 0⟩ : ℂ) = -1 from by apply Complex.ext <;> simp, Complex.log_neg_one]
  rw [e] at h1 h2
  refine ⟨a, b, h, ?_, ?_⟩
  · simpa using h1
  · simpa using h2

/-! ### C103: sqrt -/

/-- A relative error carried through a square root. -/
theorem sqrt_rel {p P e : ℝ} (hP : 0 ≤ P) (he : 0 ≤ e) (he1 : e ≤ 1 / 2) (h : |p - P| ≤ e * P) :
    |Real.sqrt p - Real.sqrt P| ≤ 2 / 3 * e * Real.sqrt P := by
  rw [abs_le] at h
  have s1 : Real.sqrt p ≤ (1 + 2 / 3 * e) * Real.sqrt P := by
    apply Real.sqrt_le_iff.mpr
    refine ⟨by positivity, ?_⟩
    rw [mul_pow, Real.sq_sqrt hP]
    nlinarith [mul_nonneg he hP, mul_nonneg (mul_nonneg he he) hP]
  have s2 : (1 - 2 / 3 * e) * Real.sqrt P ≤ Real.sqrt p := by
    apply Real.le_sqrt_of_sq_le
    rw [mul_pow, Real.sq_sqrt hP]
    have : (1 - 2 / 3 * e) ^ 2 * P ≤ (1 - e) * P := by
      apply mul_le_mul_of_nonneg_right _ hP
      nlinarith
    linarith
  rw [abs_le]; constructor <;> linarith

/-- A relative error of the divisor. -/
theorem div_rel {y t T : ℝ} (hT : 0 < T) (h : |t - T| ≤ 86 / 100000 * T) :
    |y / t - y / T| ≤ 1 / 1000 * |y / T| := by
  rw [abs_le] at h
  have ht : 0 < t := by nlinarith
  have e : y / t - y / T = y / T * ((T - t) / t) := by field_simp
  rw [e, abs_mul, mul_comm]
  apply mul_le_mul_of_nonneg_right _ (abs_nonneg _)
  rw [abs_le]
  constructor
  · rw [le_div_iff₀ ht]; nlinarith
  · rw [div_le_iff₀ ht]; nlinarith

/-- The exact principal square root, as the code computes it from the exact real root. -/
theorem root_sq {x y R T : ℝ} (hR : R = Real.sqrt (x ^ 2 + y ^ 2)) (hT : T = Real.sqrt (2 * (R + |x|)))
    (hx : x ≠ 0) : 0 < T ∧ (T / 2) ^ 2 - (y / T) ^ 2 = |x| ∧ 2 * (T / 2) * (y / T) = y := by
  have hs : 0 ≤ x ^ 2 + y ^ 2 := by positivity
  have hR2 : R ^ 2 = x ^ 2 + y ^ 2 := by rw [hR, Real.sq_sqrt hs]
  have hR0 : 0 ≤ R := by rw [hR]; exact Real.sqrt_nonneg _
  have hax : 0 < |x| := abs_pos.mpr hx
  have hT0 : 0 < T := by rw [hT]; apply Real.sqrt_pos.mpr; linarith
  have hT2 : T ^ 2 = 2 * (R + |x|) := by rw [hT, Real.sq_sqrt (by linarith)]
  refine ⟨hT0, ?_, by field_simp⟩
  have hT4 : T ^ 2 ≠ 0 := (pow_pos hT0 2).ne'
  have : (T / 2) ^ 2 - (y / T) ^ 2 = (T ^ 2 * T ^ 2 - 4 * y ^ 2) / (4 * T ^ 2) := by
    field_simp
    ring
  rw [this, div_eq_iff (by positivity), hT2]
  have hxx : |x| ^ 2 = x ^ 2 := sq_abs x
  nlinarith

/-- C103, for `z ≠ 0`: the result is near the principal square root `w` of `z` (the root with positive real part,
or with real part zero and non-negative imaginary part), each component with relative error at most `1/1000`. -/
theorem C103_sqrt_partial (x y : ℝ) (h : ¬ (x = 0 ∧ y = 0)) : ∃ a b, ∃ w : ℂ,
    Gives (fun fuel => complexSqrt id fuel x y) (a, b) ∧ w ^ 2 = ⟨x, y⟩ ∧
    (0 < w.re ∨ w.re = 0 ∧ 0 ≤ w.im) ∧
    |a - w.re| ≤ 1 / 1000 * |w.re| ∧ |b - w.im| ≤ 1 / 1000 * |w.im| := by
  by_cases hx : x = 0
  · subst hx
    have hy : y ≠ 0 := fun e => h ⟨rfl, e⟩
    have hq : 0 < |y| / 2 := by have := abs_pos.mpr hy; linarith
    obtain ⟨r, r0, -, rb, N, hN⟩ := sqrt_val hq
    set T := Real.sqrt (|y| / 2) with hT
    have hT0 : 0 < T := Real.sqrt_pos.mpr hq
    have hT2 : T * T = |y| / 2 := Real.mul_self_sqrt hq.le
    have rb' : |r - T| ≤ 1 / 1000 * |T| := by rw [abs_of_pos hT0]; linarith
    refine ⟨r, if y < 0 then -r else r, ⟨T, if y < 0 then -T else T⟩, ⟨N, fun fuel hf => ?_⟩, ?_, Or.inl hT0,
      rb', ?_⟩
    · have := hN fuel hf
      simp only [complexSqrt, if_true, M.bind_apply, fdiv_ok (two_ne_zero (α := ℝ)), id, Cmath.abs_eq, this, M.pure_apply]
    · rw [sq]
      by_cases hy' : y < 0
      · rw [if_pos hy']
        rw [abs_of_neg hy'] at hT2
        apply Complex.ext
        · simp
        · simp; linarith
      · rw [if_neg hy']
        rw [abs_of_nonneg (not_lt.mp hy')] at hT2
        apply Complex.ext
        · simp
        · simp; linarith
    · by_cases hy' : y < 0
      · simp only [if_pos hy']
        rw [show -r - -T = -(r - T) by ring, abs_neg, abs_neg]; exact rb'
      · simp only [if_neg hy']; exact rb'
  · obtain ⟨v, ⟨N1, hv⟩, vb⟩ := C92_complex_abs x y
    set R := Real.sqrt (x ^ 2 + y ^ 2) with hR
    set T := Real.sqrt (2 * (R + |x|)) with hT
    obtain ⟨hT0, q1, q2⟩ := root_sq hR hT hx
    have hR0 : 0 ≤ R := Real.sqrt_nonneg _
    have hax : 0 < |x| := abs_pos.mpr hx
    have v0 : 0 ≤ v := by rw [abs_le] at vb; nlinarith
    have hp : 0 < 2 * (v + |x|) := by linarith
    obtain ⟨t, t0, -, tb, N2, ht⟩ := sqrt_val hp
    -- relative error of `t`
    have e1 : |Real.sqrt (2 * (v + |x|)) - T| ≤ 34 / 100000 * T := by
      have := sqrt_rel (p := 2 * (v + |x|)) (P := 2 * (R + |x|)) (e := 51 / 100000) (by linarith) (by norm_num)
        (by norm_num) (by
          rw [show 2 * (v + |x|) - 2 * (R + |x|) = 2 * (v - R) by ring, abs_mul, abs_of_pos (by norm_num : (0:ℝ) < 2)]
          linarith)
      linarith
    have e2 : |t - T| ≤ 86 / 100000 * T := by
      have := abs_sub_le t (Real.sqrt (2 * (v + |x|))) T
      rw [abs_le] at e1
      have : Real.sqrt (2 * (v + |x|)) ≤ 101 / 100 * T := by linarith
      have := abs_le.mpr e1
      nlinarith
    have eu : |t / 2 - T / 2| ≤ 1 / 1000 * |T / 2| := by
      rw [abs_of_pos (by linarith : 0 < T / 2), ← sub_div, abs_div, abs_of_pos (by norm_num : (0 : ℝ) < 2)]
      linarith
    have key : ∀ fuel, max N1 N2 ≤ fuel → complexAbs id fuel x y () = .ok v () ∧
        sqrt id fuel (2 * (v + |x|)) () = .ok t () := fun fuel hf =>
      ⟨hv fuel (le_trans (le_max_left _ _) hf), ht fuel (le_trans (le_max_right _ _) hf)⟩
    by_cases hpos : x > 0
    · refine ⟨t / 2, y / t, ⟨T / 2, y / T⟩, ⟨max N1 N2, fun fuel hf => ?_⟩, ?_, Or.inl (by show 0 < T / 2; linarith),
        eu, div_rel hT0 e2⟩
      · obtain ⟨k1, k2⟩ := key fuel hf
        simp only [complexSqrt, if_neg hx, M.bind_apply, k1, fmul, fadd, id, Cmath.abs_eq, k2, fdiv_ok (two_ne_zero (α := ℝ))]
        simp [hpos, fdiv_ok t0.ne']
      · rw [sq]
        rw [abs_of_pos hpos] at q1
        apply Complex.ext
        · simp; linarith
        · simp; linarith
    · have hneg : x < 0 := lt_of_le_of_ne (not_lt.mp hpos) hx
      rw [abs_of_neg hneg] at q1
      have hq : |y| / T * (|y| / T) = y / T * (y / T) := by
        rw [div_mul_div_comm, div_mul_div_comm, abs_mul_abs_self]
      refine ⟨|y| / t, if y < 0 then -(t / 2) else t / 2, ⟨|y| / T, if y < 0 then -(T / 2) else T / 2⟩,
        ⟨max N1 N2, fun fuel hf => ?_⟩, ?_, ?_, ?_, ?_⟩
      · obtain ⟨k1, k2⟩ := key fuel hf
        simp only [complexSqrt, if_neg hx, M.bind_apply, k1, fmul, fadd, id, Cmath.abs_eq, k2, fdiv_ok (two_ne_zero (α := ℝ))]
        simp [hpos, fdiv_ok t0.ne']
      · rw [sq]
        by_cases hy' : y < 0
        · simp only [if_pos hy']
          apply Complex.ext
          · simp; nlinarith
          · simp; rw [abs_of_neg hy']; rw [mul_assoc] at q2; linarith [q2, show -y / T * (T / 2) = - (T / 2 * (y / T)) by ring]
        · simp only [if_neg hy']
          apply Complex.ext
          · simp; nlinarith
          · simp; rw [abs_of_nonneg (not_lt.mp hy')]; linarith
      · show 0 < |y| / T ∨ |y| / T = 0 ∧ _
        by_cases hy0 : y = 0
        · right; subst hy0; simp; linarith
        · left; exact div_pos (abs_pos.mpr hy0) hT0
      · have := div_rel (y := |y|) hT0 e2
        exact this
      · by_cases hy' : y < 0
        · simp only [if_pos hy']
          rw [show -(t / 2) - -(T / 2) = -(t / 2 - T / 2) by ring, abs_neg, abs_neg]; exact eu
        · simp only [if_neg hy']; exact eu

/-- C103 is violated at zero: the square root of 0 is 0, but the code calls `sqrt(0.0)`, which never returns. -/
theorem C103_sqrt_zero_refuted (fuel : ℕ) : complexSqrt id fuel (0 : ℝ) 0 () = .timeout := by
  have := C69_sqrt_zero (K := ℝ) fuel
  simp [complexSqrt, fdiv, Cmath.abs, this]

/-- `sqrt(-4) = 2i` up to a thousandth. -/
example : ∃ a b : ℝ, Gives (fun fuel => complexSqrt id fuel (-4) 0) (a, b) ∧ a = 0 ∧ |b - 2| ≤ 2 / 1000 := by
  obtain ⟨a, b, w, h1, h2, h3, h4, h5⟩ := C103_sqrt_partial (-4) 0 (by norm_num)
  have e1 : w.re * w.re - w.im * w.im = -4 := by
    have := congrArg Complex.re h2; simpa [sq] using this
  have e2 : w.re * w.im + w.im * w.re = 0 := by
    have := congrArg Complex.im h2; simpa [sq] using this
  have hre : w.re = 0 := by
    rcases h3 with h3 | h3
    · have : w.im = 0 := by
        have : w.re * w.im = 0 := by linarith
        rcases mul_eq_zero.mp this with h | h
        · linarith
        · exact h
      rw [this] at e1; nlinarith
    · exact h3.1
  have him : w.im = 2 := by
    rw [hre] at e1 h3
    have : 0 ≤ w.im := by simpa using h3
    nlinarith
  rw [hre] at h4
  rw [him] at h5
  refine ⟨a, b, h1, by simpa using h4, h5.trans (by norm_num)⟩

end Cest.ComplexFn.Props
