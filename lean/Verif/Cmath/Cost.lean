import Verif.Cmath.Model

/-! The cost of `sin_helper` and `sinh_helper`: the same recursions with the number of calls as a second result. -/
namespace Cest.Cmath
open Cest

section
variable {K : Type} [Field K] [LinearOrder K] [FloorRing K] (ρ : K → K)

/-- `sin_helper(x)` (cmath.hpp:35-37) and the number of calls of `sin_helper` made, this one included. -/
def sinHelperC : Nat → K → FM (K × Nat)
  | 0, _ => M.timeout
  | fuel+1, x =>
    if x < tol ρ then pure (x, 1)
    else do
      let a ← sinHelperC fuel (← fdiv ρ x 3)
      let b ← sinHelperC fuel (← fdiv ρ x 3)
      return (fsub ρ (fmul ρ 3 a.1) (fmul ρ 4 (cube ρ b.1)), a.2 + b.2 + 1)

/-- `sinh_helper(x)` (cmath.hpp:39-41) and the number of calls of `sinh_helper` made. -/
def sinhHelperC : Nat → K → FM (K × Nat)
  | 0, _ => M.timeout
  | fuel+1, x =>
    if x < tol ρ then pure (x, 1)
    else do
      let a ← sinhHelperC fuel (← fdiv ρ x 3)
      let b ← sinhHelperC fuel (← fdiv ρ x 3)
      return (fadd ρ (fmul ρ 3 a.1) (fmul ρ 4 (cube ρ b.1)), a.2 + b.2 + 1)

/-- `sin(x)` (cmath.hpp:147-149) and the number of calls of `sin_helper`. -/
def sinC (fuel : Nat) (x : K) : FM (K × Nat) :=
  sinHelperC ρ fuel (if x < 0 then fadd ρ (-x) (mPi ρ) else x)

/-- `sinh(x)` (cmath.hpp:151-153) and the number of calls of `sinh_helper`. -/
def sinhC (fuel : Nat) (x : K) : FM (K × Nat) :=
  if x < 0 then do
    let r ← sinhHelperC ρ fuel (-x)
    return (-r.1, r.2)
  else sinhHelperC ρ fuel x

end
end Cest.Cmath
