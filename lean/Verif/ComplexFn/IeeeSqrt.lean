import Verif.ComplexFn.IeeeValues
import Verif.ComplexFn.FpProofs

/-! Lemmas for C158: the values of the complex square root over all doubles. -/
namespace Cest.ComplexFn.Ieee
open Cest Cest.Ieee Cest.Ieee.D Cest.Ieee.Props
open Cest.Cmath (FM Gives IsDouble RoundsToNearest RoundsTiesEven)
open Cest.Fp (u u_pos u_lt)
open Classical

variable {ρ : ℝ → ℝ}

theorem sqrt_close {m M : ℝ} (m0 : 0 ≤ m) (M0 : 0 < M) (h : |m - M| ≤ 521 / 10 ^ 6 * M) :
    |Real.sqrt m - Real.sqrt M| ≤ 27 / 100000 * Real.sqrt M := by
  have s0 := Real.sqrt_pos.mpr M0
  have r0 := Real.sqrt_nonneg m
  have e1 := Real.mul_self_sqrt m0
  have e2 := Real.mul_self_sqrt M0.le
  generalize Real.sqrt m = r at *
  generalize Real.sqrt M = s at *
  subst e1 e2
  have k : |r - s| * (r + s) = |r * r - s * s| := by
    rw [show r * r - s * s = (r - s) * (r + s) by ring, abs_mul, abs_of_nonneg (by linarith : 0 ≤ r + s)]
  have a0 := abs_nonneg (r - s)
  have k1 : |r - s| ≤ 521 / 10 ^ 6 * s := by
    refine le_of_mul_le_mul_right (a := s) ?_ s0
    nlinarith
  have k2 : 999 / 1000 * s ≤ r := by have := (abs_le.mp k1).1; linarith
  refine le_of_mul_le_mul_right (a := 1999 / 1000 * s) ?_ (by linarith)
  nlinarith

/-- The number under the root is accurate unless the absolute value is tiny. -/
theorem radicand_err (hr : RoundsToNearest ρ) {v x R : ℝ} (hR : 1 / 2 ^ 1050 ≤ R)
    (hv : |v - R| ≤ 52 / 100000 * R + 1 / 2 ^ 1075) (l1 : |(v + |x|)| < lim) (l2 : |2 * ρ (v + |x|)| < lim) :
    |ρ (2 * ρ (v + |x|)) - 2 * (R + |x|)| ≤ 521 / 10 ^ 6 * (2 * (R + |x|)) := by
  have hu := u_pos
  have hu1 := u_lt
  norm_num at hu1
  have r1 := round_err_lim hr l1
  have r2 := round_err_lim hr l2
  have e : CxFp.η ≤ 1 / 2 ^ 25 * R := by
    refine le_trans ?_ (mul_le_mul_of_nonneg_left hR (by positivity))
    rw [CxFp.η, show (2 : ℝ) ^ 1075 = 2 ^ 25 * 2 ^ 1050 by rw [← pow_add], one_div_mul_one_div]
  have e0 := CxFp.η_pos
  change |v - R| ≤ 52 / 100000 * R + CxFp.η at hv
  clear hR
  generalize CxFp.η = η at *
  norm_num at e
  have x0 := abs_nonneg x
  have R0 : 0 < R := by linarith
  have hv' := abs_le.mp hv
  have p1 : |(v + |x|)| ≤ 1001 / 1000 * (R + |x|) := by rw [abs_of_nonneg (by linarith)]; linarith
  have p2 : u * |(v + |x|)| ≤ 1 / 10 ^ 12 * (1001 / 1000 * (R + |x|)) :=
    mul_le_mul (by norm_num; linarith) p1 (abs_nonneg _) (by norm_num)
  generalize ρ (v + |x|) = W at *
  have p3 : |2 * W| ≤ 21 / 10 * (R + |x|) := by
    rw [abs_mul, abs_of_pos (two_pos (α := ℝ))]
    have := abs_sub_abs_le_abs_sub W (v + |x|)
    norm_num at p2
    linarith
  have p4 : u * |2 * W| ≤ 1 / 10 ^ 12 * (21 / 10 * (R + |x|)) :=
    mul_le_mul (by norm_num; linarith) p3 (abs_nonneg _) (by norm_num)
  generalize ρ (2 * W) = m at *
  have t1 := abs_le.mp (r1.trans (add_le_add_left p2 _))
  have t2 := abs_le.mp (r2.trans (add_le_add_left p4 _))
  rw [abs_le]
  norm_num at t1 t2 ⊢
  constructor <;> linarith

/-- Half of the root, and the quotient by the root. -/
theorem parts_value (hr : RoundsToNearest ρ) {T Y : D} {t y S : ℝ} (hT : Is T t) (hY : Is Y y) (S1 : 1 / 2 ^ 540 ≤ S)
    (S2 : S ≤ 2 ^ 540) (hy : |y| ≤ S * S) (h : |t - S| ≤ 88 / 100000 * S) :
    (∃ a, Is (div ρ T (fin 2)) a ∧ |a - S / 2| ≤ 1 / 1000 * |S / 2| + 1 / 2 ^ 1075) ∧
    ∃ b, Is (div ρ Y T) b ∧ |b - y / S| ≤ 1 / 1000 * |y / S| + 1 / 2 ^ 1075 := by
  have hu := u_pos
  have hu1 := u_lt
  norm_num at hu1
  have S0 : 0 < S := lt_of_lt_of_le (by positivity) S1
  have h' := abs_le.mp h
  have t0 : 0 < t := by linarith
  have big : (2 : ℝ) ^ 540 * 4 ≤ 2 ^ 1023 := by
    rw [show (4 : ℝ) = 2 ^ 2 by norm_num, ← pow_add]; exact pow_le_pow_right₀ (by norm_num) (by norm_num)
  have key : ∀ {a b : ℝ}, |a - b| ≤ 89 / 100000 * |b| → |b| ≤ S →
      |a| < lim ∧ |ρ a - b| ≤ 1 / 1000 * |b| + 1 / 2 ^ 1075 := by
    intro a b hab hb
    have k := abs_sub_abs_le_abs_sub a b
    have b0 := abs_nonneg b
    have k2 : |a| ≤ 2 * |b| := by linarith
    have la : |a| < lim := lt_lim (by
      clear S1
      generalize (2 : ℝ) ^ 540 = g at *
      generalize (2 : ℝ) ^ 1023 = g' at *
      linarith)
    refine ⟨la, ?_⟩
    have r := round_err_lim hr la
    change _ ≤ _ + CxFp.η
    have t3 := abs_sub_le (ρ a) a b
    have k3 : u * |a| ≤ u * (2 * |b|) := mul_le_mul_of_nonneg_left k2 hu.le
    have k4 : u * |b| ≤ 1 / 100000 * |b| := mul_le_mul_of_nonneg_right (by linarith) b0
    clear big S1 S2 la
    linarith
  constructor
  · obtain ⟨k1, k2⟩ := key (a := t / 2) (b := S / 2) (by
      rw [show t / 2 - S / 2 = (t - S) / 2 by ring, abs_div, abs_of_pos (two_pos (α := ℝ)), abs_of_pos (by linarith : 0 < S / 2)]
      linarith) (by rw [abs_of_pos (by linarith : 0 < S / 2)]; linarith)
    exact ⟨_, Is.div (ρ := ρ) hT (is_fin 2) (by norm_num) k1, k2⟩
  · obtain ⟨k1, k2⟩ := key (a := y / t) (b := y / S) (div_rel_fp S0 h)
      (by rw [abs_div, abs_of_pos S0, div_le_iff₀ S0]; exact hy)
    exact ⟨_, Is.div (ρ := ρ) hY hT t0.ne' k1, k2⟩

theorem valid_is {A : D} {x : ℝ} (h : Is A x) (hd : IsDouble x) : Valid A := by
  rcases h.cases with ⟨rfl, rfl⟩ | rfl
  · exact valid_nzero
  · exact valid_fin hd

/-- The root of half an imaginary number. -/
theorem imag_root (hr : RoundsToNearest ρ) {Y : D} {y : ℝ} (hY : Is Y y) (vY : Valid Y) (h : 1 / 2 ^ 1050 ≤ |y|) :
    ∃ R r, Is R r ∧ Gives (fun fuel => sqrt ρ fuel (div ρ (abs Y) (fin 2))) R ∧
      |r - Real.sqrt (|y| / 2)| ≤ 1 / 1000 * Real.sqrt (|y| / 2) := by
  have hu := u_pos
  have hu1 := u_lt
  norm_num at hu1
  have y0 : 0 < |y| := lt_of_lt_of_le (by positivity) h
  have hh := half_is (ρ := ρ) hY vY
  have l : |(|y| / 2)| < lim := by
    rw [abs_of_pos (by linarith)]
    have := isDouble_lt_lim (hY.double vY)
    linarith
  have r1 := round_err_lim hr l
  have e : CxFp.η ≤ 1 / 2 ^ 25 * |y| := by
    refine le_trans ?_ (mul_le_mul_of_nonneg_left h (by positivity))
    rw [CxFp.η, show (2 : ℝ) ^ 1075 = 2 ^ 25 * 2 ^ 1050 by rw [← pow_add], one_div_mul_one_div]
  clear h
  norm_num at e
  rw [abs_of_pos (by linarith : 0 < |y| / 2)] at r1
  have r2 : |ρ (|y| / 2) - |y| / 2| ≤ 521 / 10 ^ 6 * (|y| / 2) := by
    refine r1.trans ?_
    generalize CxFp.η = η at *
    nlinarith
  have m0 : 0 < ρ (|y| / 2) := by have := (abs_le.mp r2).1; linarith
  obtain ⟨Q, t, hQ, g, tb⟩ := C136_sqrt hr hh (valid_is hh (hr.double _)) m0
  refine ⟨Q, t, hQ, g, ?_⟩
  have c := sqrt_close m0.le (by linarith) r2
  have := abs_sub_le t (Real.sqrt (ρ (|y| / 2))) (Real.sqrt (|y| / 2))
  have := (abs_le.mp c).2
  have := Real.sqrt_nonneg (|y| / 2)
  linarith

end Cest.ComplexFn.Ieee
