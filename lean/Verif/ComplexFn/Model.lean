import Verif.Cmath.Model

/-!
The transcendental functions of `include/cest/complex.hpp` for `double`, on the real and imaginary parts of their
argument, over the model of `cmath.hpp`.  As for `complexAbs` and `complexExp`, the calls of `sin`, `cos`, … are
those of `cmath.hpp` when that header is included first.

`log10`, `tan`, `tanh` and the `pow` overloads with a non-integer exponent call `std::` functions on
`cest::complex` arguments (complex.hpp:794, 905, 933, 1001, 1008, 1040); no such overloads exist, so these templates
cannot be instantiated and are not modelled.  `__complex_sqrt` calls `std::abs(z)` (complex.hpp:872) and has the same
defect; it is modelled with `cest::abs(z)` in that place, as the rest of the file does.
-/
namespace Cest.ComplexFn
open Cest Cest.Cmath

variable {K : Type} [Field K] [LinearOrder K] [FloorRing K] (ρ : K → K)

/-- `__complex_cos(z)` (complex.hpp:679-686). -/
def complexCos (fuel : Nat) (x y : K) : FM (K × K) := do
  let c ← cos ρ fuel x
  let ch ← cosh ρ fuel y
  let s ← sin ρ fuel x
  let sh ← sinh ρ fuel y
  return (fmul ρ c ch, fmul ρ (-s) sh)

/-- `__complex_cosh(z)` (complex.hpp:709-716). -/
def complexCosh (fuel : Nat) (x y : K) : FM (K × K) := do
  let ch ← cosh ρ fuel x
  let c ← cos ρ fuel y
  let sh ← sinh ρ fuel x
  let s ← sin ρ fuel y
  return (fmul ρ ch c, fmul ρ sh s)

/-- `__complex_log(z)` (complex.hpp:766-769). -/
def complexLog (fuel : Nat) (x y : K) : FM (LogRes K × K) := do
  let a ← complexAbs ρ fuel x y
  let l ← log ρ fuel a
  let t ← complexArg ρ fuel x y
  return (l, t)

/-- `__complex_sin(z)` (complex.hpp:797-804). -/
def complexSin (fuel : Nat) (x y : K) : FM (K × K) := do
  let s ← sin ρ fuel x
  let ch ← cosh ρ fuel y
  let c ← cos ρ fuel x
  let sh ← sinh ρ fuel y
  return (fmul ρ s ch, fmul ρ c sh)

/-- `__complex_sinh(z)` (complex.hpp:827-834). -/
def complexSinh (fuel : Nat) (x y : K) : FM (K × K) := do
  let sh ← sinh ρ fuel x
  let c ← cos ρ fuel y
  let ch ← cosh ρ fuel x
  let s ← sin ρ fuel y
  return (fmul ρ sh c, fmul ρ ch s)

/-- `__complex_sqrt(z)` (complex.hpp:858-878), with `cest::abs(z)` for `std::abs(z)`. -/
def complexSqrt (fuel : Nat) (x y : K) : FM (K × K) :=
  if x = 0 then do
    let t ← sqrt ρ fuel (← fdiv ρ (Cmath.abs y) 2)
    return (t, if y < 0 then -t else t)
  else do
    let a ← complexAbs ρ fuel x y
    let t ← sqrt ρ fuel (fmul ρ 2 (fadd ρ a (Cmath.abs x)))
    let u ← fdiv ρ t 2
    if x > 0 then return (u, ← fdiv ρ y t)
    else return (← fdiv ρ (Cmath.abs y) t, if y < 0 then -u else u)

end Cest.ComplexFn
