import Verif.Fp.SinAll

/-!
C154: `sin` and `cos` of every double, rounding to nearest with ties to even.  The error of `sin_helper` is an error of
the angle: the value returned is the exact sine of a number close to the argument.
-/

namespace Cest.Fp.Props
open Cest Cest.Cmath Cest.Fp

variable {ρ : ℝ → ℝ}

/-- `sin(x)` is the exact sine of a number within `5.1·10⁻⁷ x` of `x`, for negative `x` within `5.1·10⁻⁷ (|x| + 4)`. -/
theorem C154_sin (h : RoundsTiesEven ρ) {x : ℝ} (hx : IsDouble x) :
    ∃ θ, |θ - x| ≤ 51 / 10 ^ 8 * (if x < 0 then 4 - x else x) ∧ Gives (fun fuel => sin ρ fuel x) (Real.sin θ) := by
  obtain ⟨θ, h1, h2⟩ := sin_sine h hx
  exact ⟨θ, h1, 661, h2⟩

theorem C154_cos (h : RoundsTiesEven ρ) {x : ℝ} (hx : IsDouble x) :
    ∃ θ, |θ - x| ≤ 52 / 10 ^ 8 * (|x| + 6) ∧ Gives (fun fuel => cos ρ fuel x) (Real.cos θ) := by
  obtain ⟨θ, h1, h2⟩ := cos_cosine h hx
  exact ⟨θ, h1, 661, h2⟩

/-- The error of the value. -/
theorem C154_sin_error (h : RoundsTiesEven ρ) {x : ℝ} (hx : IsDouble x) :
    ∃ v, Gives (fun fuel => sin ρ fuel x) v ∧ |v - Real.sin x| ≤ 51 / 10 ^ 8 * (if x < 0 then 4 - x else x) := by
  obtain ⟨θ, h1, h2⟩ := C154_sin h hx
  exact ⟨_, h2, (Real.abs_sin_sub_sin_le θ x).trans h1⟩

theorem C154_cos_error (h : RoundsTiesEven ρ) {x : ℝ} (hx : IsDouble x) :
    ∃ v, Gives (fun fuel => cos ρ fuel x) v ∧ |v - Real.cos x| ≤ 52 / 10 ^ 8 * (|x| + 6) := by
  obtain ⟨θ, h1, h2⟩ := C154_cos h hx
  exact ⟨_, h2, (Real.abs_cos_sub_cos_le θ x).trans h1⟩

/-- `sin` of a million is right to half a unit, `sin` of a thousandth to seven decimal digits more. -/
example (h : RoundsTiesEven ρ) : ∃ v, Gives (fun fuel => sin ρ fuel (1000000 : ℝ)) v ∧ |v - Real.sin 1000000| ≤ 51 / 100 := by
  obtain ⟨v, h1, h2⟩ := C154_sin_error h (x := 1000000) (by simpa using isDouble_int (K := ℝ) (k := 1000000) (by norm_num))
  exact ⟨v, h1, h2.trans (by norm_num)⟩

example (h : RoundsTiesEven ρ) : ∃ v, Gives (fun fuel => cos ρ fuel (-10000 : ℝ)) v ∧ |v - Real.cos (-10000)| ≤ 1 / 100 := by
  obtain ⟨v, h1, h2⟩ := C154_cos_error h (x := -10000) (by simpa using isDouble_int (K := ℝ) (k := -10000) (by norm_num))
  exact ⟨v, h1, h2.trans (by norm_num)⟩

end Cest.Fp.Props
