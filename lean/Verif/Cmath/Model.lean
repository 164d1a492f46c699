import Verif.Core.Mem
import Mathlib.Algebra.Order.Floor.Ring
import Mathlib.Algebra.Order.Field.Basic

/-!
Model of `include/cest/cmath.hpp` and `include/cest/bits/abs.hpp`.

A `double` is an element of a linearly ordered field `K`; `ρ : K → K` is the rounding applied to the result of
every addition, subtraction, multiplication and division and to every inexact literal.  `ρ = id` is exact
arithmetic; the other theorems say which properties of `ρ` they need (see `Spec.lean` for IEEE binary64).
Negation and the conversion of an `int` to `double` are exact, as in IEEE arithmetic.

Outcomes are those of the machine (`Verif.Core.Mem`) with no memory: a value, undefined behaviour (converting a
number outside the range of `int`, overflowing `int` arithmetic, dividing by zero, which constant evaluation
rejects), or running out of fuel.  Recursive functions whose recursion is not on an integer take `fuel`, the
number of nested calls the model allows; the theorems about values quantify over all sufficiently large fuel, the
divergence theorems over every fuel.

Simplifications: no infinities, NaNs, signed zeros, overflow or underflow of `double`.
-/
namespace Cest.Cmath

abbrev FM (α : Type) := M Unit α

section
variable {K : Type} [Field K] [LinearOrder K] [FloorRing K]

/-- `abs(x)` (bits/abs.hpp:6). -/
def abs {A : Type} [Zero A] [Neg A] [LT A] [DecidableRel (fun a b : A => a < b)] (x : A) : A :=
  if x < 0 then -x else x
/-- `fabs(x)` (bits/abs.hpp:7). -/
def fabs {A : Type} [Zero A] [Neg A] [LT A] [DecidableRel (fun a b : A => a < b)] (x : A) : A := abs x

/-- Largest and smallest `int`. -/
def intMax : Int := 2147483647
def intMin : Int := -2147483648

/-- Discarding the fractional part. -/
def trunc (x : K) : Int := if 0 ≤ x then ⌊x⌋ else ⌈x⌉
/-- Conversion `(int)x`, explicit or implicit; undefined when the truncated value does not fit. -/
def toInt (x : K) : FM Int :=
  if intMin ≤ trunc x ∧ trunc x ≤ intMax then pure (trunc x) else M.ub .precond
/-- A value of type `int`, undefined on overflow. -/
def int (i : Int) : FM Int := if intMin ≤ i ∧ i ≤ intMax then pure i else M.ub .precond

variable (ρ : K → K)

/-- Floating-point operations: the exact result, rounded. -/
def fadd (a b : K) : K := ρ (a + b)
def fsub (a b : K) : K := ρ (a - b)
def fmul (a b : K) : K := ρ (a * b)
def fdiv (a b : K) : FM K := if b = 0 then M.ub .precond else pure (ρ (a / b))

/-- `CEST_M_PI`, `CEST_M_PI_2`, `CEST_M_E` (cmath.hpp:8-10) and `tol` (cmath.hpp:20). -/
def mPi : K := ρ (3141592653589793 / 1000000000000000)
def mPi2 : K := ρ (1570796326794897 / 1000000000000000)
def mE : K := ρ (2718281828459045 / 1000000000000000)
def tol : K := ρ (1 / 1000)

/-- `square` (cmath.hpp:22-24). -/
def square (x : K) : K := fmul ρ x x
/-- `cube` (cmath.hpp:26-28). -/
def cube (x : K) : K := fmul ρ (fmul ρ x x) x

/-- `pow(base, exponent)` for an exponent that is not negative (cmath.hpp:138-140). -/
def powNN (base : K) : Nat → K
  | 0 => 1
  | 1 => base
  | n+2 => fmul ρ base (powNN base (n+1))
/-- `pow(base, exponent)` (cmath.hpp:136-141). -/
def pow (base : K) (exponent : Int) : FM K :=
  if exponent < 0 then do
    let e ← int (-exponent)
    fdiv ρ 1 (powNN ρ base e.toNat)
  else pure (powNN ρ base exponent.toNat)

/-- `sqrt_helper(x, g)` (cmath.hpp:31-33). -/
def sqrtHelper : Nat → K → K → FM K
  | 0, _, _ => M.timeout
  | fuel+1, x, g => do
    let q ← fdiv ρ x g
    if abs (fsub ρ g q) < fmul ρ (tol ρ) g then pure g
    else do
      let q ← fdiv ρ x g
      let g' ← fdiv ρ (fadd ρ g q) 2
      sqrtHelper fuel x g'
/-- `sqrt(x)` (cmath.hpp:143-145). -/
def sqrt (fuel : Nat) (x : K) : FM K := sqrtHelper ρ fuel x 1

/-- `sin_helper(x)` (cmath.hpp:35-37). -/
def sinHelper : Nat → K → FM K
  | 0, _ => M.timeout
  | fuel+1, x =>
    if x < tol ρ then pure x
    else do
      let a ← sinHelper fuel (← fdiv ρ x 3)
      let b ← sinHelper fuel (← fdiv ρ x 3)
      return fsub ρ (fmul ρ 3 a) (fmul ρ 4 (cube ρ b))
/-- `sin(x)` (cmath.hpp:147-149). -/
def sin (fuel : Nat) (x : K) : FM K := sinHelper ρ fuel (if x < 0 then fadd ρ (-x) (mPi ρ) else x)
/-- `cos(x)` (cmath.hpp:124-126). -/
def cos (fuel : Nat) (x : K) : FM K := sin ρ fuel (fsub ρ (mPi2 ρ) x)

/-- `sinh_helper(x)` (cmath.hpp:39-41). -/
def sinhHelper : Nat → K → FM K
  | 0, _ => M.timeout
  | fuel+1, x =>
    if x < tol ρ then pure x
    else do
      let a ← sinhHelper fuel (← fdiv ρ x 3)
      let b ← sinhHelper fuel (← fdiv ρ x 3)
      return fadd ρ (fmul ρ 3 a) (fmul ρ 4 (cube ρ b))
/-- `sinh(x)` (cmath.hpp:151-153). -/
def sinh (fuel : Nat) (x : K) : FM K :=
  if x < 0 then do return -(← sinhHelper ρ fuel (-x)) else sinhHelper ρ fuel x
/-- `cosh(x)` (cmath.hpp:128-130). -/
def cosh (fuel : Nat) (x : K) : FM K := do
  sqrt ρ fuel (fadd ρ 1 (square ρ (← sinh ρ fuel x)))

/-- `atan_poly_helper` (cmath.hpp:45-50). -/
def atanPolyHelper : Nat → K → K → K → K → FM K
  | 0, _, _, _, _ => M.timeout
  | fuel+1, res, num1, den1, delta =>
    if res < tol ρ then pure res
    else do
      let p ← fdiv ρ (fmul ρ num1 delta) (fadd ρ den1 2)
      let q ← fdiv ρ num1 den1
      let r ← atanPolyHelper fuel (fsub ρ p q) (fmul ρ (fmul ρ num1 delta) delta) (fadd ρ den1 4) delta
      return fadd ρ res r
/-- `atan_poly(x)` (cmath.hpp:52-54). -/
def atanPoly (fuel : Nat) (x : K) : FM K := do
  let p ← fdiv ρ (← pow ρ x 5) 5
  let q ← fdiv ρ (← pow ρ x 3) 3
  let h ← atanPolyHelper ρ fuel (fsub ρ p q) (← pow ρ x 7) 7 (fmul ρ x x)
  return fadd ρ x h
/-- `atan_identity(x)` (cmath.hpp:56-59). -/
def atanIdentity (fuel : Nat) (x : K) : FM K := do
  let s ← sqrt ρ fuel 3
  if x ≤ fsub ρ 2 s then atanPoly ρ fuel x
  else do
    let c ← fdiv ρ (mPi2 ρ) 3
    let s ← sqrt ρ fuel 3
    let s' ← sqrt ρ fuel 3
    let y ← fdiv ρ (fsub ρ (fmul ρ s x) 1) (fadd ρ s' x)
    return fadd ρ c (← atanPoly ρ fuel y)
/-- `atan_cmplmntry(x)` (cmath.hpp:61-63). -/
def atanCmplmntry (fuel : Nat) (x : K) : FM K :=
  if x < 1 then atanIdentity ρ fuel x
  else do
    let y ← fdiv ρ 1 x
    return fsub ρ (mPi2 ρ) (← atanIdentity ρ fuel y)
/-- `atan(x)` (cmath.hpp:108-110). -/
def atan (fuel : Nat) (x : K) : FM K :=
  if 0 ≤ x then atanCmplmntry ρ fuel x else do return -(← atanCmplmntry ρ fuel (-x))
/-- `atan2(y, x)` (cmath.hpp:112-118). -/
def atan2 (fuel : Nat) (y x : K) : FM K :=
  if 0 < x then do atan ρ fuel (← fdiv ρ y x)
  else if 0 ≤ y ∧ x < 0 then do return fadd ρ (← atan ρ fuel (← fdiv ρ y x)) (mPi ρ)
  else if y < 0 ∧ x < 0 then do return fsub ρ (← atan ρ fuel (← fdiv ρ y x)) (mPi ρ)
  else if 0 < y ∧ x = 0 then pure (mPi2 ρ)
  else if y < 0 ∧ x = 0 then pure (-(mPi2 ρ))
  else pure 0

/-- `exp_helper(r)` (cmath.hpp:65-69). -/
def expHelper (r : K) : FM K := do
  let s := fadd ρ 1 r
  let s := fadd ρ s (← fdiv ρ (← pow ρ r 2) 2)
  let s := fadd ρ s (← fdiv ρ (← pow ρ r 3) 6)
  let s := fadd ρ s (← fdiv ρ (← pow ρ r 4) 24)
  let s := fadd ρ s (← fdiv ρ (← pow ρ r 5) 120)
  let s := fadd ρ s (← fdiv ρ (← pow ρ r 6) 720)
  return fadd ρ s (← fdiv ρ (← pow ρ r 7) 5040)
/-- `nearest(x)` (cmath.hpp:97-99); the result is an `int` converted to `double`. -/
def nearest (x : K) : FM K := do
  let i ← toInt x
  if fsub ρ x (1 / 2) > (i : K) then do
    let j ← toInt (fadd ρ x (1 / 2))
    return (j : K)
  else do
    let j ← toInt x
    return (j : K)
/-- `fraction(x)` (cmath.hpp:101-104). -/
def fraction (x : K) : FM K := do
  let i ← toInt x
  if fsub ρ x (1 / 2) > (i : K) then do
    let j ← toInt (fadd ρ x (1 / 2))
    return -(fsub ρ (j : K) x)
  else do
    let j ← toInt x
    return fsub ρ x (j : K)
/-- `exp(x)` (cmath.hpp:157-159); the second argument of `pow` is converted to `int`. -/
def exp (x : K) : FM K := do
  let n ← toInt (← nearest ρ x)
  let p ← pow ρ (mE ρ) n
  let h ← expHelper ρ (← fraction ρ x)
  return fmul ρ p h

/-- `exponent_helper(x, e)` (cmath.hpp:71-75).  `e` is not bounded here: the theorems show
`10^e ≤ x < 10^(e+1)`, so for a `double` it stays within ±324. -/
def exponentHelper : Nat → K → Int → FM Int
  | 0, _, _ => M.timeout
  | fuel+1, x, e =>
    if 10 ≤ x then exponentHelper fuel (fmul ρ x (ρ (1 / 10))) (e + 1)
    else if x < 1 then exponentHelper fuel (fmul ρ x 10) (e - 1)
    else pure e
/-- `exponent(x)` (cmath.hpp:77-79). -/
def exponent (fuel : Nat) (x : K) : FM Int := exponentHelper ρ fuel x 0
/-- `mantissa(x)` (cmath.hpp:81-85). -/
def mantissa : Nat → K → FM K
  | 0, _ => M.timeout
  | fuel+1, x =>
    if 10 ≤ x then mantissa fuel (fmul ρ x (ρ (1 / 10)))
    else if x < 1 then mantissa fuel (fmul ρ x 10)
    else pure x
/-- `log_helper2(y)` (cmath.hpp:87-90). -/
def logHelper2 (y : K) : FM K := do
  let s := y
  let s := fadd ρ s (← fdiv ρ (← pow ρ y 3) 3)
  let s := fadd ρ s (← fdiv ρ (← pow ρ y 5) 5)
  let s := fadd ρ s (← fdiv ρ (← pow ρ y 7) 7)
  let s := fadd ρ s (← fdiv ρ (← pow ρ y 9) 9)
  let s := fadd ρ s (← fdiv ρ (← pow ρ y 11) 11)
  return fmul ρ 2 s
/-- `log_helper(x)` (cmath.hpp:93-95). -/
def logHelper (x : K) : FM K := do logHelper2 ρ (← fdiv ρ (fsub ρ x 1) (fadd ρ x 1))

/-- Results of `log`: a number, minus infinity or NaN. -/
inductive LogRes (K : Type) where
  | val (x : K)
  | negInf
  | nan

/-- `log(x)` (cmath.hpp:161-165). -/
def log (fuel : Nat) (x : K) : FM (LogRes K) :=
  if x = 0 then pure .negInf
  else if x < 0 then pure .nan
  else do
    let m ← mantissa ρ fuel x
    let s ← sqrt ρ fuel m
    let l ← logHelper ρ s
    let e ← exponent ρ fuel x
    return .val (fadd ρ (fmul ρ 2 l) (fmul ρ (ρ (23025851 / 10000000)) (e : K)))

/-- `ceil(v)` (cmath.hpp:120-122). -/
def ceil (v : K) : FM Int := do
  let i ← toInt v
  if (i : K) ≠ v ∧ 0 < v then toInt (fadd ρ v 1) else toInt v
/-- `floor(v)` (cmath.hpp:132-134). -/
def floor (v : K) : FM Int := do
  let i ← toInt v
  if (i : K) ≠ v ∧ v < 0 then toInt (fsub ρ v 1) else toInt v

/-- `__complex_abs(z)` (complex.hpp:563-575) for `double`, on the real and imaginary parts of `z`.  The calls of
`abs` and `sqrt` are those of `cmath.hpp` when that header is included first (`complex.hpp` does not include it,
and the arguments have no associated namespace); `max` is `std::max`. -/
def complexAbs (fuel : Nat) (re im : K) : FM K := do
  let s := max (abs re) (abs im)
  if s = 0 then pure s
  else do
    let x ← fdiv ρ re s
    let y ← fdiv ρ im s
    return fmul ρ s (← sqrt ρ fuel (fadd ρ (fmul ρ x x) (fmul ρ y y)))
/-- `__complex_arg(z)` (complex.hpp:599-602), under the same proviso. -/
def complexArg (fuel : Nat) (re im : K) : FM K := atan2 ρ fuel im re
/-- `polar(rho, theta)` (complex.hpp:663-669), under the same proviso: the real and imaginary parts.  The
assertion macro is empty unless assertions are requested. -/
def polar (fuel : Nat) (rho theta : K) : FM (K × K) := do
  let c ← cos ρ fuel theta
  let s ← sin ρ fuel theta
  return (fmul ρ rho c, fmul ρ rho s)
/-- `__complex_exp(z)` (complex.hpp:739-742), under the same proviso. -/
def complexExp (fuel : Nat) (re im : K) : FM (K × K) := do polar ρ fuel (← exp ρ re) im

end
end Cest.Cmath
