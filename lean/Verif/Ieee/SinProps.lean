import Verif.Ieee.SinFull
import Verif.Fp.SinProps

/-! C154 in the model with overflow, infinities, NaN and the zeros: no finite double makes `sin` or `cos` overflow. -/

namespace Cest.Ieee.Props
open Cest Cest.Ieee Cest.Ieee.D
open Cest.Cmath (IsDouble RoundsTiesEven Gives)

variable {ρ : ℝ → ℝ}

theorem C154_sin_finite (h : RoundsTiesEven ρ) {A : D} {x : ℝ} (hA : Is A x) (hv : Valid A) :
    ∃ V θ, Is V (Real.sin θ) ∧ Gives (fun fuel => Ieee.sin ρ fuel A) V ∧
      |θ - x| ≤ 51 / 10 ^ 8 * (if x < 0 then 4 - x else x) := by
  obtain ⟨θ, h1, h2⟩ := Fp.Props.C154_sin h (hA.double hv)
  obtain ⟨V, hV, g⟩ := sin_value_all h hA hv h2
  exact ⟨V, θ, hV, g, h1⟩

theorem C154_cos_finite (h : RoundsTiesEven ρ) {A : D} {x : ℝ} (hA : Is A x) (hv : Valid A) :
    ∃ V θ, Is V (Real.cos θ) ∧ Gives (fun fuel => Ieee.cos ρ fuel A) V ∧ |θ - x| ≤ 52 / 10 ^ 8 * (|x| + 6) := by
  obtain ⟨θ, h1, h2⟩ := Fp.Props.C154_cos h (hA.double hv)
  obtain ⟨V, hV, g⟩ := cos_value_all h hA hv h2
  exact ⟨V, θ, hV, g, h1⟩

/-- A thousand, and minus zero. -/
example (h : RoundsTiesEven ρ) : ∃ V v, Is V v ∧ Gives (fun fuel => Ieee.sin ρ fuel (fin 1000)) V ∧
    |v - Real.sin 1000| ≤ 51 / 10 ^ 5 := by
  obtain ⟨V, θ, h1, h2, h3⟩ := C154_sin_finite h (is_fin 1000)
    (valid_fin (by simpa using Cmath.isDouble_int (K := ℝ) (k := 1000) (by norm_num)))
  exact ⟨V, _, h1, h2, (Real.abs_sin_sub_sin_le θ 1000).trans (h3.trans (by norm_num))⟩

example (h : RoundsTiesEven ρ) : ∃ V v, Is V v ∧ Gives (fun fuel => Ieee.cos ρ fuel nzero) V ∧ |v - 1| ≤ 4 / 10 ^ 6 := by
  obtain ⟨V, θ, h1, h2, h3⟩ := C154_cos_finite h (A := nzero) (x := 0) is_nzero (by intro x hx; cases hx)
  have := (Real.abs_cos_sub_cos_le θ 0).trans h3
  rw [Real.cos_zero] at this
  exact ⟨V, _, h1, h2, this.trans (by norm_num)⟩

end Cest.Ieee.Props
