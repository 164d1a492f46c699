import Verif.Fp.Trig
import Verif.Fp.Exp
import Verif.Fp.Hyp
import Verif.Fp.Atan

/-! The elementary functions of `cmath.hpp` in binary64 arithmetic (C104-C108, C121): every operation is followed by
a rounding `ρ` to a nearest double, whichever way ties go (`RoundsToNearest`, in `Cmath/Spec.lean`; round to
nearest, ties to even is one such rounding by `exists_roundsTiesEven`).  The bounds are against the real
functions of Mathlib. -/

namespace Cest.Fp.Props
open Cest Cest.Cmath

variable {ρ : ℝ → ℝ}

/-! ### C104: the decimal decomposition -/

/-- `mantissa` and `exponent` stop for every positive double and give `m` in `[1, 10)` and `e` with
`m · 10^e = x` up to one part in `10^13`. -/
theorem C104_decimal (hr : RoundsToNearest ρ) {x : ℝ} (hx : IsDouble x) (h0 : 0 < x) :
    ∃ (e : ℤ) (m : ℝ), |e| ≤ 358 ∧ 1 ≤ m ∧ m < 10 ∧ IsDouble m ∧ |m * 10 ^ e - x| ≤ x / 10 ^ 13 ∧
      Gives (fun fuel => mantissa ρ fuel x) m ∧ Gives (fun fuel => exponent ρ fuel x) e := by
  obtain ⟨e, m, h1, h2, h3, h4, h5, h6, h7, h8⟩ := decimal_fp' hr hx h0
  refine ⟨e, m, h1, h2, h3, h4, ?_, h7, h8⟩
  generalize m * 10 ^ e = z at *
  rw [abs_le]
  constructor <;> linarith

/-! ### C105: sqrt -/

theorem C105_sqrt (hr : RoundsToNearest ρ) {x : ℝ} (x1 : 1 / 2 ^ 1074 ≤ x) (x2 : x ≤ 2 ^ 960) :
    ∃ r, Gives (fun fuel => sqrt ρ fuel x) r ∧ IsDouble r ∧ |r - Real.sqrt x| ≤ 51 / 100000 * Real.sqrt x := by
  obtain ⟨r, h1, h2, h3, h4⟩ := sqrt_fp hr x1 (by rw [T]; exact x2)
  refine ⟨r, h4, h1, ?_⟩
  have hx : 0 ≤ x := le_trans (by positivity) x1
  have hs := Real.sqrt_nonneg x
  have hss := Real.mul_self_sqrt hx
  generalize Real.sqrt x = s at *
  rw [← hss] at h3
  clear x1 x2
  obtain ⟨a1, a2⟩ := abs_le.mp h3
  rw [abs_le]
  constructor <;> nlinarith

/-! ### C106: sin and cos -/

theorem C106_sin (hr : RoundsToNearest ρ) {x : ℝ} (hx : |x| ≤ 420) :
    ∃ v, Gives (fun fuel => sin ρ fuel x) v ∧
      |v - Real.sin x| ≤ 2 / 10 ^ 6 * (|x| + 4) + 14 / 10 ^ 8 * (|x| + 5) ^ 2 := sin_fp hr hx

theorem C106_cos (hr : RoundsToNearest ρ) {x : ℝ} (hx : |x| ≤ 400) :
    ∃ v, Gives (fun fuel => cos ρ fuel x) v ∧
      |v - Real.cos x| ≤ 2 / 10 ^ 6 * (|x| + 6) + 14 / 10 ^ 8 * (|x| + 7) ^ 2 := cos_fp hr hx

/-! ### C107: log -/

theorem C107_log (hr : RoundsToNearest ρ) {x : ℝ} (hx : IsDouble x) (h0 : 0 < x) :
    ∃ v, Gives (fun fuel => log ρ fuel x) (LogRes.val v) ∧
      |v - Real.log x| ≤ 12 / 10000 + |Real.log x| / 100000000 := log_fp hr hx h0

/-! ### C108: exp -/

theorem C108_exp (hr : RoundsToNearest ρ) {x : ℝ} (hx : |x| ≤ 700) :
    ∃ v, exp ρ x () = .ok v () ∧ |v - Real.exp x| ≤ 1 / 10000 * Real.exp x := exp_fp hr hx

/-! ### C121: sinh, cosh, atan, atan2 -/

theorem C121_sinh (hr : RoundsToNearest ρ) {x : ℝ} (hx : |x| ≤ 702) :
    ∃ v, Gives (fun fuel => sinh ρ fuel x) v ∧ |v - Real.sinh x| ≤ 4 / 10 ^ 6 * |x| * Real.cosh x := sinh_fp hr hx

theorem C121_cosh (hr : RoundsToNearest ρ) {x : ℝ} (hx : |x| ≤ 331) :
    ∃ v, Gives (fun fuel => cosh ρ fuel x) v ∧ IsDouble v ∧
      |v - Real.cosh x| ≤ (52 / 100000 + 4 / 10 ^ 6 * |x|) * Real.cosh x := cosh_fp hr hx

/-- Every argument, finite and of any size. -/
theorem C121_atan (hr : RoundsToNearest ρ) (x : ℝ) :
    ∃ v, Gives (fun fuel => atan ρ fuel x) v ∧ |v - Real.arctan x| ≤ 1 / 20000 := by
  obtain ⟨v, h, hb⟩ := atan_fp hr x
  refine ⟨v, ⟨4, fun fuel hf => ?_⟩, hb⟩
  obtain ⟨k, rfl⟩ := Nat.exists_eq_add_of_le' hf
  exact h k

/-- Everywhere but at the origin, as long as the quotient `y / x` does not overflow. -/
theorem C121_atan2 (hr : RoundsToNearest ρ) {x y : ℝ} (h : ¬ (x = 0 ∧ y = 0)) (hq : |y| ≤ 2 ^ 1023 * |x| ∨ x = 0) :
    ∃ v, Gives (fun fuel => atan2 ρ fuel y x) v ∧ |v - Complex.arg ⟨x, y⟩| ≤ 1 / 19000 := atan2_fp hr h hq

/-! ### The hypotheses are met -/

example : ∃ ρ : ℝ → ℝ, RoundsToNearest ρ := by
  obtain ⟨ρ, h⟩ := exists_roundsTiesEven (K := ℝ)
  exact ⟨ρ, h.toRoundsToNearest⟩

/-- The smallest positive double. -/
example : IsDouble ((1 : ℝ) / 2 ^ 1074) :=
  ⟨1, -1074, by rw [zpow_neg]; norm_num, by norm_num, by norm_num, by norm_num⟩

/-- The largest finite double. -/
example : IsDouble ((2 ^ 53 - 1) * 2 ^ (971 : ℤ) : ℝ) :=
  ⟨2 ^ 53 - 1, 971, by norm_num, by norm_num, by norm_num, by norm_num⟩

example (hr : RoundsToNearest ρ) : ∃ r, Gives (fun fuel => sqrt ρ fuel (4 : ℝ)) r ∧ 1998 / 1000 < r ∧ r < 2002 / 1000 := by
  obtain ⟨r, h, -, hb⟩ := C105_sqrt hr (x := 4)
    (le_trans (div_le_one_of_le₀ (one_le_pow₀ (by norm_num)) (by positivity)) (by norm_num))
    (le_trans (by norm_num : (4 : ℝ) ≤ 2 ^ 2) (pow_le_pow_right₀ (by norm_num) (by norm_num)))
  refine ⟨r, h, ?_⟩
  rw [show (4 : ℝ) = 2 ^ 2 by norm_num, Real.sqrt_sq (by norm_num), abs_le] at hb
  constructor <;> linarith

example (hr : RoundsToNearest ρ) : ∃ v, Gives (fun fuel => sin ρ fuel (0 : ℝ)) v ∧ |v| ≤ 1 / 10000 := by
  obtain ⟨v, h, hb⟩ := C106_sin hr (x := 0) (by norm_num)
  exact ⟨v, h, by norm_num at hb ⊢; linarith⟩

example (hr : RoundsToNearest ρ) :
    ∃ v, Gives (fun fuel => cos ρ fuel (100 : ℝ)) v ∧ |v - Real.cos 100| ≤ 2 / 1000 := by
  obtain ⟨v, h, hb⟩ := C106_cos hr (x := 100) (by norm_num)
  exact ⟨v, h, hb.trans (by norm_num)⟩

example (hr : RoundsToNearest ρ) : ∃ v, Gives (fun fuel => log ρ fuel (1 : ℝ)) (LogRes.val v) ∧ |v| ≤ 12 / 10000 := by
  obtain ⟨v, h, hb⟩ := C107_log hr (x := 1) (by simpa using isDouble_int (K := ℝ) (k := 1) (by norm_num)) (by norm_num)
  exact ⟨v, h, by simpa using hb⟩

example (hr : RoundsToNearest ρ) : ∃ v, exp ρ (1 : ℝ) () = .ok v () ∧ 2718 / 1000 < v ∧ v < 2719 / 1000 := by
  obtain ⟨v, h, hb⟩ := C108_exp hr (x := 1) (by norm_num)
  have h1 := Real.exp_one_gt_d9
  have h2 := Real.exp_one_lt_d9
  norm_num at h1 h2
  rw [abs_le] at hb
  exact ⟨v, h, by constructor <;> linarith⟩

/-- The computed hyperbolic sine of 1 is right to three decimals. -/
example (hr : RoundsToNearest ρ) : ∃ v, Gives (fun fuel => sinh ρ fuel (1 : ℝ)) v ∧ |v - Real.sinh 1| ≤ 1 / 10000 := by
  obtain ⟨v, h, hb⟩ := C121_sinh hr (x := 1) (by norm_num)
  refine ⟨v, h, hb.trans ?_⟩
  have h1 := Real.exp_one_lt_d9
  have h2 : Real.exp (-1) ≤ 1 := Real.exp_le_one_iff.mpr (by norm_num)
  rw [Real.cosh_eq]
  norm_num at h1 ⊢
  linarith

example (hr : RoundsToNearest ρ) : ∃ v, Gives (fun fuel => cosh ρ fuel (0 : ℝ)) v ∧ |v - 1| ≤ 52 / 100000 := by
  obtain ⟨v, h, -, hb⟩ := C121_cosh hr (x := 0) (by norm_num)
  exact ⟨v, h, by simpa using hb⟩

/-- `atan(1)` is `π/4`. -/
example (hr : RoundsToNearest ρ) : ∃ v, Gives (fun fuel => atan ρ fuel (1 : ℝ)) v ∧ |v - Real.pi / 4| ≤ 1 / 20000 := by
  obtain ⟨v, h, hb⟩ := C121_atan hr 1
  exact ⟨v, h, by rwa [Real.arctan_one] at hb⟩

/-- On the negative real axis the result is `π`, on the negative imaginary axis `-π/2`. -/
example (hr : RoundsToNearest ρ) : ∃ v, Gives (fun fuel => atan2 ρ fuel 0 (-1 : ℝ)) v ∧ |v - Real.pi| ≤ 1 / 19000 := by
  obtain ⟨v, h, hb⟩ := C121_atan2 hr (x := -1) (y := 0) (by norm_num) (Or.inl (by simp))
  rw [show (⟨-1, 0⟩ : ℂ) = -1 by apply Complex.ext <;> simp, Complex.arg_neg_one] at hb
  exact ⟨v, h, hb⟩

example (hr : RoundsToNearest ρ) :
    ∃ v, Gives (fun fuel => atan2 ρ fuel (-1) (0 : ℝ)) v ∧ |v - -(Real.pi / 2)| ≤ 1 / 19000 := by
  obtain ⟨v, h, hb⟩ := C121_atan2 hr (x := 0) (y := -1) (by norm_num) (Or.inr rfl)
  rw [show (⟨0, -1⟩ : ℂ) = -Complex.I by apply Complex.ext <;> simp, Complex.arg_neg_I] at hb
  exact ⟨v, h, hb⟩

end Cest.Fp.Props
