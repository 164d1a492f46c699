import Verif.Complex.Model
import Verif.Fp.Round
import Mathlib.Analysis.Complex.Basic

/-!
`cest::complex<double>`: the model of `complex.hpp` (`Verif/Complex/Model.lean`) instantiated with binary64
arithmetic.  A `Flt ρ` is a real number on which every addition, subtraction, multiplication and division rounds
its exact result with `ρ`; negation is exact.  As in `Verif/Cmath/Model.lean` there are no infinities, NaNs or
signed zeros, so the theorems bound the operands away from overflow; division by zero is undefined behaviour.
-/
namespace Cest.CxFp
open Cest Cest.Complex Cest.Cmath Cest.Fp

/-- A `double`, computed with rounding `ρ`. -/
@[ext]
structure Flt (ρ : ℝ → ℝ) where
  val : ℝ

variable {ρ : ℝ → ℝ}

noncomputable instance : Zero (Flt ρ) := ⟨⟨0⟩⟩
noncomputable instance : One (Flt ρ) := ⟨⟨1⟩⟩
noncomputable instance : Add (Flt ρ) := ⟨fun a b => ⟨ρ (a.val + b.val)⟩⟩
noncomputable instance : Sub (Flt ρ) := ⟨fun a b => ⟨ρ (a.val - b.val)⟩⟩
noncomputable instance : Mul (Flt ρ) := ⟨fun a b => ⟨ρ (a.val * b.val)⟩⟩
noncomputable instance : Div (Flt ρ) := ⟨fun a b => ⟨ρ (a.val / b.val)⟩⟩
noncomputable instance : Neg (Flt ρ) := ⟨fun a => ⟨-a.val⟩⟩
noncomputable instance : DecidableEq (Flt ρ) := Classical.decEq _

/-- The complex number a `complex<double>` stands for. -/
def cval (z : Cx (Flt ρ)) : ℂ := ⟨z.re.val, z.im.val⟩

/-- Both parts are binary64 numbers. -/
def IsDbl (z : Cx (Flt ρ)) : Prop := IsDouble z.re.val ∧ IsDouble z.im.val

/-- The state in which `z` holds `v` and nothing else differs. -/
def set (st : CSt (Flt ρ)) (z : Nat) (v : Cx (Flt ρ)) : CSt (Flt ρ) :=
  { st with objs := upd st.objs z (some v) }

/-- Slots for local variables, unused and pairwise different. -/
def Unused (st : CSt (Flt ρ)) (l : List Nat) : Prop := l.Nodup ∧ ∀ k ∈ l, st.objs k = none

end Cest.CxFp
