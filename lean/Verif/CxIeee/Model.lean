import Verif.Complex.Model
import Verif.Ieee.Model
import Mathlib.Analysis.Complex.Basic

/-!
`cest::complex<double>` with every value of type `double`: the model of `complex.hpp` (`Verif/Complex/Model.lean`)
instantiated with the arithmetic of `Verif/Ieee/Model.lean`, which has overflow, infinities, NaN and both zeros.

The divisions are modelled again, because dividing by zero is undefined in `Verif/Complex/Model.lean` and gives an
infinity or NaN here, as it does at run time.
-/
namespace Cest.CxIeee
open Cest Cest.Complex Cest.Ieee

/-- A `double`, computed with rounding `ρ`. -/
@[ext]
structure Dbl (ρ : ℝ → ℝ) where
  d : D

variable {ρ : ℝ → ℝ}

noncomputable instance : Zero (Dbl ρ) := ⟨⟨.fin 0⟩⟩
noncomputable instance : One (Dbl ρ) := ⟨⟨.fin 1⟩⟩
noncomputable instance : Add (Dbl ρ) := ⟨fun a b => ⟨D.add ρ a.d b.d⟩⟩
noncomputable instance : Sub (Dbl ρ) := ⟨fun a b => ⟨D.sub ρ a.d b.d⟩⟩
noncomputable instance : Mul (Dbl ρ) := ⟨fun a b => ⟨D.mul ρ a.d b.d⟩⟩
noncomputable instance : Div (Dbl ρ) := ⟨fun a b => ⟨D.div ρ a.d b.d⟩⟩
noncomputable instance : Neg (Dbl ρ) := ⟨fun a => ⟨D.neg a.d⟩⟩

/-- `z /= t` (complex.hpp:223-230). -/
noncomputable def divAssignS (z : Nat) (t : Dbl ρ) : CM (Dbl ρ) Unit := do
  setRe z ((← getRe z) / t)
  setIm z ((← getIm z) / t)
/-- `z /= w` (complex.hpp:279-289). -/
noncomputable def divAssign (z w : Nat) : CM (Dbl ρ) Unit := do
  let r := (← getRe z) * (← getRe w) + (← getIm z) * (← getIm w)
  let n ← norm w
  setIm z (((← getIm z) * (← getRe w) - (← getRe z) * (← getIm w)) / n)
  setRe z (r / n)
/-- `x / y` (complex.hpp:383-390). -/
noncomputable def div (r x y : Nat) : CM (Dbl ρ) (Cx (Dbl ρ)) := do copyCtor r x; divAssign r y; retLocal r
/-- `x / t` (complex.hpp:392-399). -/
noncomputable def divCS (r x : Nat) (t : Dbl ρ) : CM (Dbl ρ) (Cx (Dbl ρ)) := do copyCtor r x; divAssignS r t; retLocal r
/-- `t / y` (complex.hpp:401-408). -/
noncomputable def divSC (r : Nat) (t : Dbl ρ) (y : Nat) : CM (Dbl ρ) (Cx (Dbl ρ)) := do ctor r t; divAssign r y; retLocal r

end Cest.CxIeee
