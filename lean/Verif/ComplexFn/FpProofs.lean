import Verif.ComplexFn.Props
import Verif.ComplexFn.FpSpec
import Verif.CxFp.Proofs
import Verif.Fp.Hyp
import Verif.Fp.Atan
import Verif.Fp.Log
import Verif.Fp.Exp

/-! Lemmas for the complex transcendental functions in binary64 arithmetic. -/
namespace Cest.ComplexFn
open Cest Cest.Cmath Cest.Fp Cest.CxFp

variable {ρ : ℝ → ℝ}

attribute [local irreducible] η

theorem sq_err (hr : RoundsToNearest ρ) {t : ℝ} (ht : |t| ≤ 1) :
    |ρ (ρ t * ρ t) - t * t| ≤ 5 * u ∧ |ρ t| ≤ 1 := by
  have hu := u_pos
  have hu1 := u_lt
  norm_num at hu1
  have h1 : IsDouble (1 : ℝ) := by simpa using isDouble_nat (n := 1) (by norm_num)
  have h1' : IsDouble (-1 : ℝ) := by simpa using isDouble_int (K := ℝ) (k := -1) (by norm_num)
  have e1 := err1 hr ht
  obtain ⟨t1, t2⟩ := abs_le.mp ht
  have b : |ρ t| ≤ 1 := abs_le.mpr ⟨hr.ge_of_ge h1' t1, hr.le_of_le h1 t2⟩
  generalize ρ t = x at *
  refine ⟨?_, b⟩
  have e2 := err1 hr (x := x * x) (by rw [abs_mul]; exact mul_le_one₀ b (abs_nonneg _) b)
  have e3 : |x * x - t * t| ≤ 2 * u := by
    rw [show x * x - t * t = (x - t) * (x + t) by ring, abs_mul]
    have := abs_add_le x t
    have := mul_le_mul e1 (by linarith : |x + t| ≤ 2) (abs_nonneg _) hu.le
    linarith
  have := abs_sub_le (ρ (x * x)) (x * x) (t * t)
  linarith

/-- `abs(z)`: the absolute value, with an absolute error of half the smallest double when it underflows. -/
theorem complexAbs_fp (hr : RoundsToNearest ρ) {x y : ℝ} (hx : |x| ≤ 2 ^ 1021) (hy : |y| ≤ 2 ^ 1021) :
    ∃ v, Gives (fun fuel => complexAbs ρ fuel x y) v ∧ IsDouble v ∧ 0 ≤ v ∧
      |v - Real.sqrt (x ^ 2 + y ^ 2)| ≤ 52 / 100000 * Real.sqrt (x ^ 2 + y ^ 2) + η := by
  have hu := u_pos
  have hu1 := u_lt
  norm_num at hu1
  have hη := η_pos
  by_cases h0 : max |x| |y| = 0
  · have hx : x = 0 := by
      have := le_max_left |x| |y|
      rw [h0] at this; exact abs_nonpos_iff.mp this
    have hy : y = 0 := by
      have := le_max_right |x| |y|
      rw [h0] at this; exact abs_nonpos_iff.mp this
    subst hx hy
    exact ⟨0, ⟨0, fun fuel _ => by simp [complexAbs, Cmath.abs]⟩, isDouble_zero, le_rfl, by simp [hη.le]⟩
  · set s := max |x| |y| with hs
    have s0 : 0 < s := lt_of_le_of_ne ((abs_nonneg x).trans (le_max_left _ _)) (Ne.symm h0)
    have sB : s ≤ 2 ^ 1021 := max_le hx hy
    have tx : |x / s| ≤ 1 := by rw [abs_div, abs_of_pos s0, div_le_one s0]; exact le_max_left _ _
    have ty : |y / s| ≤ 1 := by rw [abs_div, abs_of_pos s0, div_le_one s0]; exact le_max_right _ _
    have hq1 : 1 ≤ x / s * (x / s) + y / s * (y / s) := by
      have hz : |x / s| = 1 ∨ |y / s| = 1 := by
        rcases max_choice |x| |y| with h | h
        · left; rw [abs_div, abs_of_pos s0, hs, h]; exact div_self (by rw [← h, ← hs]; exact s0.ne')
        · right; rw [abs_div, abs_of_pos s0, hs, h]; exact div_self (by rw [← h, ← hs]; exact s0.ne')
      rcases hz with h | h
      · have : x / s * (x / s) = 1 := by rw [← abs_mul_abs_self, h, one_mul]
        nlinarith [mul_self_nonneg (y / s)]
      · have : y / s * (y / s) = 1 := by rw [← abs_mul_abs_self, h, one_mul]
        nlinarith [mul_self_nonneg (x / s)]
    have hq2 : x / s * (x / s) + y / s * (y / s) ≤ 2 := by
      have a1 : x / s * (x / s) ≤ 1 := by rw [← abs_mul_abs_self]; exact mul_le_one₀ tx (abs_nonneg _) tx
      have a2 : y / s * (y / s) ≤ 1 := by rw [← abs_mul_abs_self]; exact mul_le_one₀ ty (abs_nonneg _) ty
      linarith
    have hsq : Real.sqrt (x ^ 2 + y ^ 2) = s * Real.sqrt (x / s * (x / s) + y / s * (y / s)) := by
      rw [show x ^ 2 + y ^ 2 = s ^ 2 * (x / s * (x / s) + y / s * (y / s)) by field_simp,
        Real.sqrt_mul (sq_nonneg s), Real.sqrt_sq s0.le]
    have ex := abs_le.mp (sq_err hr tx).1
    have ey := abs_le.mp (sq_err hr ty).1
    rw [hsq]
    generalize hX : x / s = X at *
    generalize hY : y / s = Y at *
    generalize ha : ρ (ρ X * ρ X) = a at *
    generalize hb : ρ (ρ Y * ρ Y) = b at *
    clear tx ty hx hy
    generalize hQ : X * X + Y * Y = Q at *
    have e3 := abs_le.mp (err hr (x := a + b) (B := 4) (by rw [abs_le]; constructor <;> linarith) (by norm_num)
      (by norm_num))
    have q1 : Q * (1 - 14 * u) ≤ ρ (a + b) := by nlinarith
    have q2 : ρ (a + b) ≤ Q * (1 + 14 * u) := by nlinarith
    generalize hq : ρ (a + b) = q at *
    have hT := T_ge
    norm_num at hT
    have q0 : 1 / 2 ≤ q := by linarith
    obtain ⟨r, r1, r2, r3, N, hN⟩ := sqrt_fp hr (x := q)
      (le_trans (one_div_le_one_div_of_le (by norm_num)
        (le_trans (by norm_num : (2 : ℝ) ≤ 2 ^ 1) (pow_le_pow_right₀ (by norm_num) (by norm_num)))) q0) (by linarith)
    have c0 : 0 < Real.sqrt Q := Real.sqrt_pos.mpr (by linarith)
    have c2 : Real.sqrt Q ^ 2 = Q := Real.sq_sqrt (by linarith)
    have c3 : Real.sqrt Q ≤ 3 / 2 := by
      apply Real.sqrt_le_iff.mpr; constructor <;> norm_num; linarith
    have rc := near_of_sq r2 c0 (by norm_num; linarith : 14 * u ≤ 1 / 10 ^ 9) r3 (by rw [c2]; exact q1)
      (by rw [c2]; exact q2)
    generalize Real.sqrt Q = c at *
    have rc' := abs_le.mp rc
    have sr : |s * r| ≤ 2 ^ 1023 := by
      rw [abs_of_pos (mul_pos s0 r2)]
      have : s * r ≤ 2 ^ 1021 * 4 := mul_le_mul sB (by linarith) r2.le (by positivity)
      rwa [show (2 : ℝ) ^ 1021 * 4 = 2 ^ 1023 by rw [show (4 : ℝ) = 2 ^ 2 by norm_num, ← pow_add]] at this
    have e5 := round_err hr sr
    rw [abs_of_pos (mul_pos s0 r2)] at e5
    refine ⟨ρ (s * r), ⟨N, fun fuel hf => ?_⟩, hr.double _, hr.ge_of_ge isDouble_zero (mul_pos s0 r2).le, ?_⟩
    · have := hN fuel hf
      simp only [complexAbs, Cmath.abs_eq, ← hs, if_neg h0, M.bind_apply, fdiv_ok h0, hX, hY, fadd, fmul, ha, hb, hq,
        this, M.pure_apply]
    · have k1 : |s * r - s * c| ≤ 51 / 100000 * (s * c) := by
        rw [← mul_sub, abs_mul, abs_of_pos s0]
        have := mul_le_mul_of_nonneg_left rc s0.le
        linarith
      have k2 : s * r ≤ s * (2 * c) := mul_le_mul_of_nonneg_left (by linarith) s0.le
      have k3 := abs_sub_le (ρ (s * r)) (s * r) (s * c)
      have k4 : 0 < s * c := mul_pos s0 c0
      clear sr sB
      have k5 : u * (s * r) ≤ u * (s * (2 * c)) := mul_le_mul_of_nonneg_left k2 hu.le
      have k6 : u * (s * (2 * c)) ≤ 1 / 100000 * (s * c) := by nlinarith
      linarith

theorem trigFp_bounds {t : ℝ} (h : |t| ≤ 400) : 0 ≤ trigFp t ∧ trigFp t ≤ 1 / 10 := by
  have := abs_nonneg t
  unfold trigFp
  refine ⟨by positivity, ?_⟩
  have : (|t| + 7) ^ 2 ≤ 407 ^ 2 := pow_le_pow_left₀ (by linarith) (by linarith) 2
  norm_num at this ⊢
  linarith

theorem sin_trigFp (hr : RoundsToNearest ρ) {t : ℝ} (h : |t| ≤ 400) :
    ∃ v, Gives (fun fuel => sin ρ fuel t) v ∧ |v - Real.sin t| ≤ trigFp t := by
  obtain ⟨v, h1, h2⟩ := sin_fp hr (x := t) (by linarith)
  refine ⟨v, h1, h2.trans ?_⟩
  have := abs_nonneg t
  have : (|t| + 5) ^ 2 ≤ (|t| + 7) ^ 2 := pow_le_pow_left₀ (by linarith) (by linarith) 2
  unfold trigFp
  norm_num
  linarith

theorem η_le {C : ℝ} (h : 1 / 2 ^ 1022 ≤ C) : η ≤ u * C := by
  have : η = u * (1 / 2 ^ 1022) := by
    unfold η u
    rw [div_mul_div_comm, one_mul, ← pow_add]
  rw [this]
  exact mul_le_mul_of_nonneg_left h u_pos.le

/-- A rounded product of a trigonometric factor and a factor of size `C`. -/
theorem prod_fp (hr : RoundsToNearest ρ) {a A b B C τ h : ℝ} (hA : |A| ≤ 1) (hB : |B| ≤ C)
    (ha : |a - A| ≤ τ) (hb : |b - B| ≤ h * C) (t1 : τ ≤ 1 / 10) (h1 : h ≤ 1 / 10)
    (C1 : 1 / 2 ^ 1022 ≤ C) (C2 : C ≤ 2 ^ 1020) :
    |ρ (a * b) - A * B| ≤ (11 / 10 * τ + h + 1 / 10 ^ 9) * C := by
  have hu := u_pos
  have hu1 := u_lt
  norm_num at hu1
  have hη := η_le C1
  have τ0 : 0 ≤ τ := (abs_nonneg _).trans ha
  have C0 : 0 ≤ C := (abs_nonneg _).trans hB
  have hC : h * C ≤ 1 / 10 * C := mul_le_mul_of_nonneg_right h1 C0
  have e : a * b - A * B = (a - A) * (b - B) + (a - A) * B + A * (b - B) := by ring
  have k1 : |(a - A) * (b - B)| ≤ τ * (1 / 10 * C) := by
    rw [abs_mul]; exact mul_le_mul ha (hb.trans hC) (abs_nonneg _) τ0
  have k2 : |(a - A) * B| ≤ τ * C := by
    rw [abs_mul]; exact mul_le_mul ha hB (abs_nonneg _) τ0
  have k3 : |A * (b - B)| ≤ 1 * (h * C) := by
    rw [abs_mul]; exact mul_le_mul hA hb (abs_nonneg _) (by norm_num)
  have k4 := abs_add_three ((a - A) * (b - B)) ((a - A) * B) (A * (b - B))
  rw [← e] at k4
  have tC : τ * C ≤ 1 / 10 * C := mul_le_mul_of_nonneg_right t1 C0
  have k5 : |a * b| ≤ 2 * C := by
    have h2 := abs_sub_abs_le_abs_sub (a * b) (A * B)
    have h3 : |A * B| ≤ 1 * C := by rw [abs_mul]; exact mul_le_mul hA hB (abs_nonneg _) (by norm_num)
    linarith
  have k6 : |a * b| ≤ 2 ^ 1023 := by
    refine k5.trans ((mul_le_mul_of_nonneg_left C2 (by norm_num)).trans ?_)
    rw [← pow_succ']
    exact pow_le_pow_right₀ (by norm_num) (by norm_num)
  have k7 := round_err hr k6
  have k8 := abs_sub_le (ρ (a * b)) (a * b) (A * B)
  clear k6 C1 C2
  have k9 : u * |a * b| ≤ u * (2 * C) := mul_le_mul_of_nonneg_left k5 hu.le
  have k10 : u * C ≤ 1 / 10 ^ 10 * C := mul_le_mul_of_nonneg_right (by norm_num; linarith) C0
  norm_num at k10 ⊢
  linarith

theorem exp_range {x : ℝ} (hx : |x| ≤ 700) : 1 / 2 ^ 1022 ≤ Real.exp x ∧ Real.exp x ≤ 2 ^ 1020 := by
  obtain ⟨h1, h2⟩ := abs_le.mp hx
  have l := Real.log_two_gt_d9
  norm_num at l
  have up : Real.exp 700 ≤ 2 ^ 1020 := by
    rw [← Real.le_log_iff_exp_le (by positivity), Real.log_pow]
    push_cast; linarith
  constructor
  · have : Real.exp (-700) ≤ Real.exp x := Real.exp_le_exp.mpr h1
    refine le_trans ?_ this
    rw [Real.exp_neg, ← one_div]
    refine one_div_le_one_div_of_le (Real.exp_pos _) (up.trans ?_)
    exact pow_le_pow_right₀ (by norm_num) (by norm_num)
  · exact (Real.exp_le_exp.mpr h2).trans up

theorem cosh_range {x : ℝ} (hx : |x| ≤ 700) : 1 / 2 ^ 1022 ≤ Real.cosh x ∧ Real.cosh x ≤ 2 ^ 1020 := by
  constructor
  · refine le_trans ?_ (Real.one_le_cosh x)
    rw [div_le_one (by positivity)]; exact one_le_pow₀ (by norm_num)
  · have h1 := (exp_range hx).2
    have h2 := (exp_range (x := -x) (by rwa [abs_neg])).2
    rw [Real.cosh_eq]; linarith

/-- The four factors of the complex circular and hyperbolic functions. -/
theorem factors_fp (hr : RoundsToNearest ρ) {t h : ℝ} (ht : |t| ≤ 400) (hh : |h| ≤ 331) : ∃ s c sh ch N,
    (∀ fuel, N ≤ fuel → sin ρ fuel t () = .ok s () ∧ cos ρ fuel t () = .ok c () ∧
      sinh ρ fuel h () = .ok sh () ∧ cosh ρ fuel h () = .ok ch ()) ∧
    |s - Real.sin t| ≤ trigFp t ∧ |c - Real.cos t| ≤ trigFp t ∧
    |sh - Real.sinh h| ≤ (52 / 100000 + 4 / 10 ^ 6 * |h|) * Real.cosh h ∧
    |ch - Real.cosh h| ≤ (52 / 100000 + 4 / 10 ^ 6 * |h|) * Real.cosh h := by
  obtain ⟨s, ⟨N1, hs⟩, sb⟩ := sin_trigFp hr ht
  obtain ⟨c, ⟨N2, hc⟩, cb⟩ := cos_fp hr ht
  obtain ⟨sh, ⟨N3, hsh⟩, shb⟩ := sinh_fp hr (x := h) (by linarith)
  obtain ⟨ch, ⟨N4, hch⟩, -, chb⟩ := cosh_fp hr hh
  have hp := Real.cosh_pos h
  refine ⟨s, c, sh, ch, max (max N1 N2) (max N3 N4), fun fuel hf => ?_, sb, cb, ?_, chb⟩
  · simp only [max_le_iff] at hf
    exact ⟨hs fuel hf.1.1, hc fuel hf.1.2, hsh fuel hf.2.1, hch fuel hf.2.2⟩
  · refine shb.trans (mul_le_mul_of_nonneg_right ?_ hp.le)
    linarith

theorem prod_trig (hr : RoundsToNearest ρ) {t h a A b B : ℝ} (ht : |t| ≤ 400) (hh : |h| ≤ 331)
    (hA : |A| ≤ 1) (hB : |B| ≤ Real.cosh h) (ha : |a - A| ≤ trigFp t)
    (hb : |b - B| ≤ (52 / 100000 + 4 / 10 ^ 6 * |h|) * Real.cosh h) :
    |ρ (a * b) - A * B| ≤ trigBoundFp t h := by
  obtain ⟨c1, c2⟩ := cosh_range (x := h) (by linarith)
  have hh0 := abs_nonneg h
  have := prod_fp hr hA hB ha hb (trigFp_bounds ht).2 (by norm_num; linarith) c1 c2
  clear c1 c2
  refine this.trans (mul_le_mul_of_nonneg_right ?_ (Real.cosh_pos h).le)
  norm_num
  linarith

/-- A relative error of the divisor. -/
theorem div_rel_fp {y t T : ℝ} (hT : 0 < T) (h : |t - T| ≤ 88 / 100000 * T) :
    |y / t - y / T| ≤ 89 / 100000 * |y / T| := by
  rw [abs_le] at h
  have ht : 0 < t := by nlinarith
  have e : y / t - y / T = y / T * ((T - t) / t) := by field_simp
  rw [e, abs_mul, mul_comm]
  apply mul_le_mul_of_nonneg_right _ (abs_nonneg _)
  rw [abs_le]
  constructor
  · rw [le_div_iff₀ ht]; nlinarith
  · rw [div_le_iff₀ ht]; nlinarith

/-- The principal root of a number off the imaginary axis. -/
theorem root_exists {x y R T : ℝ} (hR : R = Real.sqrt (x ^ 2 + y ^ 2)) (hT : T = Real.sqrt (2 * (R + |x|)))
    (hx : x ≠ 0) :
    (0 < x → (⟨T / 2, y / T⟩ : ℂ) ^ 2 = ⟨x, y⟩) ∧
    (x < 0 → (⟨|y| / T, if y < 0 then -(T / 2) else T / 2⟩ : ℂ) ^ 2 = ⟨x, y⟩) := by
  obtain ⟨hT0, q1, q2⟩ := Props.root_sq hR hT hx
  constructor
  · intro hpos
    rw [sq]
    rw [abs_of_pos hpos] at q1
    apply Complex.ext
    · simp; linarith
    · simp; linarith
  · intro hneg
    rw [abs_of_neg hneg] at q1
    have hq : |y| / T * (|y| / T) = y / T * (y / T) := by
      rw [div_mul_div_comm, div_mul_div_comm, abs_mul_abs_self]
    rw [sq]
    by_cases hy' : y < 0
    · simp only [if_pos hy']
      apply Complex.ext
      · simp; nlinarith
      · simp; rw [abs_of_neg hy']; rw [mul_assoc] at q2; linarith [q2, show -y / T * (T / 2) = - (T / 2 * (y / T)) by ring]
    · simp only [if_neg hy']
      apply Complex.ext
      · simp; nlinarith
      · simp; rw [abs_of_nonneg (not_lt.mp hy')]; linarith

/-- The real square root of `2 (|z| + |x|)` as the code computes it. -/
theorem root_err (hr : RoundsToNearest ρ) {x v R : ℝ} (hx : |x| ≤ R) (hR1 : 1 / 2 ^ 1000 ≤ R) (hR2 : R ≤ 2 ^ 951)
    (hv : |v - R| ≤ 52 / 100000 * R + η) :
    ∃ t, Gives (fun fuel => sqrt ρ fuel (ρ (2 * ρ (v + |x|)))) t ∧ 0 < t ∧
      |t - Real.sqrt (2 * (R + |x|))| ≤ 88 / 100000 * Real.sqrt (2 * (R + |x|)) := by
  have hu := u_pos
  have hu1 := u_lt
  norm_num at hu1
  have R0 : 0 < R := lt_of_lt_of_le (by positivity) hR1
  have hη : η ≤ u * R := by
    refine η_le (le_trans (one_div_le_one_div_of_le (by positivity) ?_) hR1)
    exact pow_le_pow_right₀ (by norm_num) (by norm_num)
  have hx0 := abs_nonneg x
  have uR : u * R ≤ 1 / 100000 * R := mul_le_mul_of_nonneg_right (by linarith) R0.le
  have hv' := abs_le.mp hv
  have b1 : 1 / 2 ^ 1022 ≤ v + |x| := by
    have : (1 : ℝ) / 2 ^ 1022 ≤ 1 / 2 * (1 / 2 ^ 1000) := by
      rw [div_mul_div_comm, one_mul, ← pow_succ']
      exact one_div_le_one_div_of_le (by positivity) (pow_le_pow_right₀ (by norm_num) (by norm_num))
    generalize (1 : ℝ) / 2 ^ 1022 = g at *
    clear hR2
    linarith
  have big : 16 * (2 : ℝ) ^ 951 ≤ 2 ^ 960 := by
    rw [show (16 : ℝ) = 2 ^ 4 by norm_num, ← pow_add]; exact pow_le_pow_right₀ (by norm_num) (by norm_num)
  have big' : (2 : ℝ) ^ 960 ≤ 2 ^ 1023 := pow_le_pow_right₀ (by norm_num) (by norm_num)
  have b2 : 8 * (v + |x|) ≤ 2 ^ 960 * 2 := by
    clear b1 hR1
    generalize (2 : ℝ) ^ 951 = g at *
    generalize (2 : ℝ) ^ 960 = g' at *
    linarith
  have b3 : v + |x| ≤ 2 ^ 1023 := by
    clear b1 hR1 hR2 big
    generalize (2 : ℝ) ^ 1023 = g at *
    generalize (2 : ℝ) ^ 960 = g' at *
    linarith
  have r1 := round_bounds hr b1 b3
  have c1 : 1 / 2 ^ 1022 ≤ 2 * ρ (v + |x|) := by
    clear hR1 hR2 big big' b2 b3
    generalize (1 : ℝ) / 2 ^ 1022 = g at *
    nlinarith
  have c2 : 2 * ρ (v + |x|) ≤ 2 ^ 960 * (6 / 10) := by
    clear hR1 hR2 big b1 c1 b3 big'
    generalize (2 : ℝ) ^ 960 = g' at *
    nlinarith
  have c3 : 2 * ρ (v + |x|) ≤ 2 ^ 1023 := by
    clear hR1 hR2 big b1 c1 b3
    generalize (2 : ℝ) ^ 1023 = g at *
    generalize (2 : ℝ) ^ 960 = g' at *
    linarith
  have r2 := round_bounds hr c1 c3
  generalize ρ (v + |x|) = a at *
  generalize ρ (2 * a) = p at *
  have p2 : p ≤ T := by
    rw [T]
    clear hR1 hR2 big b1 c1 b3 c3 big'
    generalize (2 : ℝ) ^ 960 = g' at *
    nlinarith
  have p1 : 1 / 2 ^ 1074 ≤ p := by
    have k : (1 : ℝ) / 2 ^ 1074 ≤ 1 / 2 * (1 / 2 ^ 1022) := by
      rw [div_mul_div_comm, one_mul, ← pow_succ']
      exact one_div_le_one_div_of_le (by positivity) (pow_le_pow_right₀ (by norm_num) (by norm_num))
    clear hR1 hR2 big b1 b2 c2 b3 c3 big' p2
    generalize (1 : ℝ) / 2 ^ 1022 = g at *
    generalize (1 : ℝ) / 2 ^ 1074 = g' at *
    nlinarith
  obtain ⟨t, t1, t2, t3, ht⟩ := sqrt_fp hr p1 p2
  refine ⟨t, ht, t2, ?_⟩
  have p0 : 0 < p := lt_of_lt_of_le (by positivity) p1
  clear p1 p2 c1 c2 c3 b1 b2 b3 big big' hR1 hR2
  have P0 : 0 < 2 * (R + |x|) := by linarith
  have d1 : (v + |x|) * u ≤ 3 * R * u := mul_le_mul_of_nonneg_right (by linarith) hu.le
  have pp : |p - 2 * (R + |x|)| ≤ 54 / 100000 * (2 * (R + |x|)) := by
    have a1 : a ≤ 4 * R := by nlinarith
    have d2 : 2 * a * u ≤ 2 * (4 * R) * u := mul_le_mul_of_nonneg_right (by linarith) hu.le
    have uR' : u * R ≤ 1 / 10000000 * R := mul_le_mul_of_nonneg_right (by linarith) R0.le
    rw [abs_le]
    constructor <;> nlinarith
  have e1 := Props.sqrt_rel P0.le (by norm_num) (by norm_num) pp
  have s0 : 0 < Real.sqrt p := Real.sqrt_pos.mpr p0
  have s2 : Real.sqrt p ^ 2 = p := Real.sq_sqrt p0.le
  have e2 := near_of_sq (e := 0) t2 s0 (by positivity) t3 (by rw [s2]; linarith) (by rw [s2]; linarith)
  have e3 := abs_sub_le t (Real.sqrt p) (Real.sqrt (2 * (R + |x|)))
  have e4 := abs_le.mp e1
  have S0 : 0 < Real.sqrt (2 * (R + |x|)) := Real.sqrt_pos.mpr P0
  generalize Real.sqrt (2 * (R + |x|)) = S at *
  generalize Real.sqrt p = q at *
  linarith

theorem half_root (hr : RoundsToNearest ρ) {q : ℝ} (h1 : 1 / 2 ^ 1000 ≤ q) (h2 : q ≤ 2 ^ 950) :
    ∃ r, Gives (fun fuel => sqrt ρ fuel (ρ (q / 2))) r ∧ 0 < r ∧
      |r - Real.sqrt (q / 2)| ≤ 51 / 100000 * Real.sqrt (q / 2) := by
  have hu := u_pos
  have hu1 := u_lt
  norm_num at hu1
  have q0 : 0 < q := lt_of_lt_of_le (by positivity) h1
  have b1 : 1 / 2 ^ 1022 ≤ q / 2 := by
    have : (1 : ℝ) / 2 ^ 1022 ≤ 1 / 2 * (1 / 2 ^ 1000) := by
      rw [div_mul_div_comm, one_mul, ← pow_succ']
      exact one_div_le_one_div_of_le (by positivity) (pow_le_pow_right₀ (by norm_num) (by norm_num))
    generalize (1 : ℝ) / 2 ^ 1022 = g at *
    clear h2
    linarith
  have big : (2 : ℝ) ^ 950 ≤ 2 ^ 960 := pow_le_pow_right₀ (by norm_num) (by norm_num)
  have big' : (2 : ℝ) ^ 960 ≤ 2 ^ 1023 := pow_le_pow_right₀ (by norm_num) (by norm_num)
  have r1 := round_bounds hr b1 (by
    clear b1 h1
    generalize (2 : ℝ) ^ 950 = g at *
    generalize (2 : ℝ) ^ 960 = g' at *
    generalize (2 : ℝ) ^ 1023 = g'' at *
    linarith)
  generalize ρ (q / 2) = p at *
  have p2 : p ≤ T := by
    rw [T]
    clear b1 h1
    generalize (2 : ℝ) ^ 950 = g at *
    generalize (2 : ℝ) ^ 960 = g' at *
    generalize (2 : ℝ) ^ 1023 = g'' at *
    nlinarith
  have p1 : 1 / 2 ^ 1074 ≤ p := by
    have k : (1 : ℝ) / 2 ^ 1074 ≤ 1 / 2 * (1 / 2 ^ 1022) := by
      rw [div_mul_div_comm, one_mul, ← pow_succ']
      exact one_div_le_one_div_of_le (by positivity) (pow_le_pow_right₀ (by norm_num) (by norm_num))
    clear h1 h2 big big' p2
    generalize (1 : ℝ) / 2 ^ 1022 = g at *
    generalize (1 : ℝ) / 2 ^ 1074 = g' at *
    nlinarith
  obtain ⟨t, t1, t2, t3, ht⟩ := sqrt_fp hr p1 p2
  refine ⟨t, ht, t2, ?_⟩
  clear p1 p2 b1 big big' h1 h2
  have s0 : 0 < Real.sqrt (q / 2) := Real.sqrt_pos.mpr (by linarith)
  have s2 : Real.sqrt (q / 2) ^ 2 = q / 2 := Real.sq_sqrt (by linarith)
  exact near_of_sq (e := u) t2 s0 (by norm_num; linarith) t3 (by rw [s2]; exact r1.1) (by rw [s2]; exact r1.2)

/-- The two components of the root from the computed `t`. -/
theorem parts_err (hr : RoundsToNearest ρ) {y t S : ℝ} (S1 : 1 / 2 ^ 501 ≤ S) (S2 : S ≤ 2 ^ 501)
    (hy : |y| ≤ S * S) (h : |t - S| ≤ 88 / 100000 * S) :
    |ρ (t / 2) - S / 2| ≤ 1 / 1000 * (S / 2) ∧ |ρ (y / t) - y / S| ≤ 1 / 1000 * |y / S| + η := by
  have hu := u_pos
  have hu1 := u_lt
  norm_num at hu1
  have S0 : 0 < S := lt_of_lt_of_le (by positivity) S1
  have h' := abs_le.mp h
  have big : (2 : ℝ) ^ 501 * 4 ≤ 2 ^ 1023 := by
    rw [show (4 : ℝ) = 2 ^ 2 by norm_num, ← pow_add]; exact pow_le_pow_right₀ (by norm_num) (by norm_num)
  constructor
  · have sm : (1 : ℝ) / 2 ^ 1022 ≤ 1 / 4 * (1 / 2 ^ 501) := by
      rw [div_mul_div_comm, one_mul, show (4 : ℝ) = 2 ^ 2 by norm_num, ← pow_add]
      exact one_div_le_one_div_of_le (by positivity) (pow_le_pow_right₀ (by norm_num) (by norm_num))
    have r := round_bounds hr (x := t / 2) (by
        clear big S2
        generalize (1 : ℝ) / 2 ^ 1022 = g at *
        linarith) (by
        clear sm S1
        generalize (2 : ℝ) ^ 501 = g at *
        generalize (2 : ℝ) ^ 1023 = g' at *
        linarith)
    clear big sm S1 S2
    rw [abs_le]
    constructor <;> nlinarith
  · have d := div_rel_fp (y := y) S0 h
    have yS : |y / S| ≤ S := by rw [abs_div, abs_of_pos S0, div_le_iff₀ S0]; exact hy
    have k := abs_sub_abs_le_abs_sub (y / t) (y / S)
    have k2 : |y / t| ≤ 2 * |y / S| := by have := abs_nonneg (y / S); linarith
    have r := round_err hr (x := y / t) (by
      clear S1
      generalize (2 : ℝ) ^ 501 = g at *
      generalize (2 : ℝ) ^ 1023 = g' at *
      linarith)
    have t3 := abs_sub_le (ρ (y / t)) (y / t) (y / S)
    have k3 : u * |y / t| ≤ u * (2 * |y / S|) := mul_le_mul_of_nonneg_left k2 hu.le
    have k4 : u * |y / S| ≤ 1 / 100000 * |y / S| := mul_le_mul_of_nonneg_right (by linarith) (abs_nonneg _)
    have k5 := abs_nonneg (y / S)
    clear big S1 S2
    linarith

end Cest.ComplexFn
