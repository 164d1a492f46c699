import Verif.ComplexFn.Model
import Verif.Ieee.Model

/-!
The transcendental functions of `include/cest/complex.hpp` for every value of type `double`: the functions of
`ComplexFn/Model.lean` again, over the model of `cmath.hpp` that has overflow, infinities, NaN and both zeros
(`Ieee/Model.lean`).  The provisos of `Cmath.complexAbs` and `ComplexFn.complexSqrt` apply.
-/
namespace Cest.ComplexFn.Ieee
open Cest Cest.Ieee Cest.Ieee.D
open Cest.Cmath (FM)
open Classical

variable (ρ : ℝ → ℝ)

/-- `__complex_arg(z)` (complex.hpp:599-602). -/
noncomputable def complexArg (fuel : Nat) (x y : D) : FM D := atan2 ρ fuel y x

/-- `polar(rho, theta)` (complex.hpp:663-669). -/
noncomputable def polar (fuel : Nat) (rho theta : D) : FM (D × D) := do
  let c ← cos ρ fuel theta
  let s ← sin ρ fuel theta
  return (mul ρ rho c, mul ρ rho s)

/-- `__complex_exp(z)` (complex.hpp:739-742). -/
noncomputable def complexExp (fuel : Nat) (x y : D) : FM (D × D) := do polar ρ fuel (← exp ρ x) y

/-- `__complex_cos(z)` (complex.hpp:679-686). -/
noncomputable def complexCos (fuel : Nat) (x y : D) : FM (D × D) := do
  let c ← cos ρ fuel x
  let ch ← cosh ρ fuel y
  let s ← sin ρ fuel x
  let sh ← sinh ρ fuel y
  return (mul ρ c ch, mul ρ (neg s) sh)

/-- `__complex_cosh(z)` (complex.hpp:709-716). -/
noncomputable def complexCosh (fuel : Nat) (x y : D) : FM (D × D) := do
  let ch ← cosh ρ fuel x
  let c ← cos ρ fuel y
  let sh ← sinh ρ fuel x
  let s ← sin ρ fuel y
  return (mul ρ ch c, mul ρ sh s)

/-- `__complex_log(z)` (complex.hpp:766-769). -/
noncomputable def complexLog (fuel : Nat) (x y : D) : FM (D × D) := do
  let a ← complexAbs ρ fuel x y
  let l ← log ρ fuel a
  let t ← complexArg ρ fuel x y
  return (l, t)

/-- `__complex_sin(z)` (complex.hpp:797-804). -/
noncomputable def complexSin (fuel : Nat) (x y : D) : FM (D × D) := do
  let s ← sin ρ fuel x
  let ch ← cosh ρ fuel y
  let c ← cos ρ fuel x
  let sh ← sinh ρ fuel y
  return (mul ρ s ch, mul ρ c sh)

/-- `__complex_sinh(z)` (complex.hpp:827-834). -/
noncomputable def complexSinh (fuel : Nat) (x y : D) : FM (D × D) := do
  let sh ← sinh ρ fuel x
  let c ← cos ρ fuel y
  let ch ← cosh ρ fuel x
  let s ← sin ρ fuel y
  return (mul ρ sh c, mul ρ ch s)

/-- `__complex_sqrt(z)` (complex.hpp:858-878), with `cest::abs(z)` for `std::abs(z)`. -/
noncomputable def complexSqrt (fuel : Nat) (x y : D) : FM (D × D) :=
  if eq x (fin 0) then do
    let t ← sqrt ρ fuel (div ρ (abs y) (fin 2))
    return (t, if lt y (fin 0) then neg t else t)
  else do
    let a ← complexAbs ρ fuel x y
    let t ← sqrt ρ fuel (mul ρ (fin 2) (add ρ a (abs x)))
    let u := div ρ t (fin 2)
    if lt (fin 0) x then return (u, div ρ y t)
    else return (div ρ (abs y) t, if lt y (fin 0) then neg u else u)

end Cest.ComplexFn.Ieee
