import Verif.Cmath.Spec
import Mathlib.Data.EReal.Basic

/-!
Second model of `include/cest/cmath.hpp` (and of `__complex_abs`), with every value of type `double`: infinities,
NaN, both zeros, overflow and underflow.  `Verif.Cmath.Model` leaves these out; this model is what the functions
do at run time, where the arithmetic is that of IEEE 754 and dividing by zero is defined.  (In a constant
expression a NaN or an infinite result, and a division by zero, are rejected by the compiler.)

`ρ : ℝ → ℝ` is the rounding to the finite binary64 numbers of `Verif.Cmath.Spec`; an exact result of absolute
value `2^1024 - 2^970` (the largest finite number plus half a unit in its last place) or more overflows to an
infinity.  One NaN is kept: the sign and payload of a NaN are not observable through these functions.

Outcomes, `fuel` and the type `FM` are those of `Verif.Cmath.Model`.
-/
namespace Cest.Ieee
open Cest.Cmath (FM intMin intMax trunc)

/-- A value of type `double`: not a number, an infinity (`true` is the negative one), negative zero, or a finite
number, where `fin 0` is positive zero. -/
inductive D where
  | nan
  | inf (neg : Bool)
  | nzero
  | fin (x : ℝ)

namespace D

/-- The value as an extended real (NaN has none; it is given 0 and never consulted). -/
noncomputable def ext : D → EReal
  | nan => 0
  | inf true => ⊥
  | inf false => ⊤
  | nzero => 0
  | fin x => (x : EReal)

/-- The real value of a finite number. -/
def val : D → ℝ
  | fin x => x
  | _ => 0

open Classical in
/-- The sign bit (of NaN: not observable). -/
noncomputable def sign : D → Bool
  | nan => false
  | inf s => s
  | nzero => true
  | fin x => decide (x < 0)

/-- A zero with the given sign. -/
def zero (s : Bool) : D := if s then nzero else fin 0

/-- Comparisons: false when one side is NaN; the two zeros are equal. -/
def lt (a b : D) : Prop := a ≠ nan ∧ b ≠ nan ∧ a.ext < b.ext
def le (a b : D) : Prop := a ≠ nan ∧ b ≠ nan ∧ a.ext ≤ b.ext
def eq (a b : D) : Prop := a ≠ nan ∧ b ≠ nan ∧ a.ext = b.ext

/-- Exact results from here on overflow. -/
noncomputable def lim : ℝ := 2 ^ 1024 - 2 ^ 970

section
variable (ρ : ℝ → ℝ)
open Classical

/-- The double nearest to the exact result `r`; `s` is the sign of the result when it is zero or infinite. -/
noncomputable def pack (s : Bool) (r : ℝ) : D :=
  if lim ≤ |r| then inf s else if ρ r = 0 then zero s else fin (ρ r)

/-- `-a`. -/
noncomputable def neg : D → D
  | nan => nan
  | inf s => inf (!s)
  | nzero => fin 0
  | fin x => if x = 0 then nzero else fin (-x)

/-- `a + b` for finite numbers. -/
noncomputable def addF (a b : D) : D :=
  if a.val + b.val = 0 then zero (a.sign && b.sign) else pack ρ (decide (a.val + b.val < 0)) (a.val + b.val)
/-- `a + b`. -/
noncomputable def add : D → D → D
  | nan, _ => nan
  | _, nan => nan
  | inf s, inf t => if s = t then inf s else nan
  | inf s, _ => inf s
  | _, inf t => inf t
  | a, b => addF ρ a b
/-- `a - b`. -/
noncomputable def sub (a b : D) : D := add ρ a (neg b)
/-- `a * b`. -/
noncomputable def mul : D → D → D
  | nan, _ => nan
  | _, nan => nan
  | inf s, inf t => inf (xor s t)
  | inf s, b => if b.val = 0 then nan else inf (xor s b.sign)
  | a, inf t => if a.val = 0 then nan else inf (xor a.sign t)
  | a, b => pack ρ (xor a.sign b.sign) (a.val * b.val)
/-- `a / b`. -/
noncomputable def div : D → D → D
  | nan, _ => nan
  | _, nan => nan
  | inf _, inf _ => nan
  | inf s, b => inf (xor s b.sign)
  | a, inf t => zero (xor a.sign t)
  | a, b =>
    if b.val = 0 then (if a.val = 0 then nan else inf (xor a.sign b.sign))
    else pack ρ (xor a.sign b.sign) (a.val / b.val)

end

open Classical in
/-- `abs(x)` (bits/abs.hpp:6). -/
noncomputable def abs (x : D) : D := if lt x (fin 0) then neg x else x

/-- Conversion `(int)x`; undefined for NaN, an infinity and a truncated value that does not fit. -/
noncomputable def toInt : D → FM Int
  | nan => M.ub .precond
  | inf _ => M.ub .precond
  | a => Cmath.toInt a.val
/-- Conversion of an `int` to `double`. -/
noncomputable def ofInt (i : Int) : D := fin (i : ℝ)

/-- The values of the type: a finite one is a binary64 number. -/
def Valid (a : D) : Prop := ∀ x, a = fin x → Cmath.IsDouble x

/-- Neither NaN nor an infinity. -/
def Finite (a : D) : Prop := a = nzero ∨ ∃ x, a = fin x

end D

open D Classical

variable (ρ : ℝ → ℝ)

/-- `CEST_M_PI`, `CEST_M_PI_2`, `CEST_M_E` (cmath.hpp:8-10) and `tol` (cmath.hpp:20). -/
noncomputable def mPi : D := fin (Cmath.mPi ρ)
noncomputable def mPi2 : D := fin (Cmath.mPi2 ρ)
noncomputable def mE : D := fin (Cmath.mE ρ)
noncomputable def tol : D := fin (Cmath.tol ρ)

/-- `square` (cmath.hpp:22-24). -/
noncomputable def square (x : D) : D := mul ρ x x
/-- `cube` (cmath.hpp:26-28). -/
noncomputable def cube (x : D) : D := mul ρ (mul ρ x x) x

/-- `pow(base, exponent)` for an exponent that is not negative (cmath.hpp:138-140). -/
noncomputable def powNN (base : D) : Nat → D
  | 0 => fin 1
  | 1 => base
  | n+2 => mul ρ base (powNN base (n+1))
/-- `pow(base, exponent)` (cmath.hpp:136-141). -/
noncomputable def pow (base : D) (exponent : Int) : FM D :=
  if exponent < 0 then do
    let e ← Cmath.int (-exponent)
    return div ρ (fin 1) (powNN ρ base e.toNat)
  else pure (powNN ρ base exponent.toNat)

/-- `sqrt_helper(x, g)` (cmath.hpp:31-33). -/
noncomputable def sqrtHelper : Nat → D → D → FM D
  | 0, _, _ => M.timeout
  | fuel+1, x, g =>
    if lt (abs (sub ρ g (div ρ x g))) (mul ρ (tol ρ) g) then pure g
    else sqrtHelper fuel x (div ρ (add ρ g (div ρ x g)) (fin 2))
/-- `sqrt(x)` (cmath.hpp:143-145). -/
noncomputable def sqrt (fuel : Nat) (x : D) : FM D := sqrtHelper ρ fuel x (fin 1)

/-- `sin_helper(x)` (cmath.hpp:35-37). -/
noncomputable def sinHelper : Nat → D → FM D
  | 0, _ => M.timeout
  | fuel+1, x =>
    if lt x (tol ρ) then pure x
    else do
      let a ← sinHelper fuel (div ρ x (fin 3))
      let b ← sinHelper fuel (div ρ x (fin 3))
      return sub ρ (mul ρ (fin 3) a) (mul ρ (fin 4) (cube ρ b))
/-- `sin(x)` (cmath.hpp:147-149). -/
noncomputable def sin (fuel : Nat) (x : D) : FM D :=
  sinHelper ρ fuel (if lt x (fin 0) then add ρ (neg x) (mPi ρ) else x)
/-- `cos(x)` (cmath.hpp:124-126). -/
noncomputable def cos (fuel : Nat) (x : D) : FM D := sin ρ fuel (sub ρ (mPi2 ρ) x)

/-- `sinh_helper(x)` (cmath.hpp:39-41). -/
noncomputable def sinhHelper : Nat → D → FM D
  | 0, _ => M.timeout
  | fuel+1, x =>
    if lt x (tol ρ) then pure x
    else do
      let a ← sinhHelper fuel (div ρ x (fin 3))
      let b ← sinhHelper fuel (div ρ x (fin 3))
      return add ρ (mul ρ (fin 3) a) (mul ρ (fin 4) (cube ρ b))
/-- `sinh(x)` (cmath.hpp:151-153). -/
noncomputable def sinh (fuel : Nat) (x : D) : FM D :=
  if lt x (fin 0) then do return neg (← sinhHelper ρ fuel (neg x)) else sinhHelper ρ fuel x
/-- `cosh(x)` (cmath.hpp:128-130). -/
noncomputable def cosh (fuel : Nat) (x : D) : FM D := do
  sqrt ρ fuel (add ρ (fin 1) (square ρ (← sinh ρ fuel x)))

/-- `atan_poly_helper` (cmath.hpp:45-50). -/
noncomputable def atanPolyHelper : Nat → D → D → D → D → FM D
  | 0, _, _, _, _ => M.timeout
  | fuel+1, res, num1, den1, delta =>
    if lt res (tol ρ) then pure res
    else do
      let r ← atanPolyHelper fuel
        (sub ρ (div ρ (mul ρ num1 delta) (add ρ den1 (fin 2))) (div ρ num1 den1))
        (mul ρ (mul ρ num1 delta) delta) (add ρ den1 (fin 4)) delta
      return add ρ res r
/-- `atan_poly(x)` (cmath.hpp:52-54). -/
noncomputable def atanPoly (fuel : Nat) (x : D) : FM D := do
  let p ← pow ρ x 5
  let q ← pow ρ x 3
  let h ← atanPolyHelper ρ fuel (sub ρ (div ρ p (fin 5)) (div ρ q (fin 3))) (← pow ρ x 7) (fin 7) (mul ρ x x)
  return add ρ x h
/-- `atan_identity(x)` (cmath.hpp:56-59). -/
noncomputable def atanIdentity (fuel : Nat) (x : D) : FM D := do
  let s ← sqrt ρ fuel (fin 3)
  if le x (sub ρ (fin 2) s) then atanPoly ρ fuel x
  else do
    let s ← sqrt ρ fuel (fin 3)
    let s' ← sqrt ρ fuel (fin 3)
    let y := div ρ (sub ρ (mul ρ s x) (fin 1)) (add ρ s' x)
    return add ρ (div ρ (mPi2 ρ) (fin 3)) (← atanPoly ρ fuel y)
/-- `atan_cmplmntry(x)` (cmath.hpp:61-63). -/
noncomputable def atanCmplmntry (fuel : Nat) (x : D) : FM D :=
  if lt x (fin 1) then atanIdentity ρ fuel x
  else do return sub ρ (mPi2 ρ) (← atanIdentity ρ fuel (div ρ (fin 1) x))
/-- `atan(x)` (cmath.hpp:108-110). -/
noncomputable def atan (fuel : Nat) (x : D) : FM D :=
  if le (fin 0) x then atanCmplmntry ρ fuel x else do return neg (← atanCmplmntry ρ fuel (neg x))
/-- `atan2(y, x)` (cmath.hpp:112-118). -/
noncomputable def atan2 (fuel : Nat) (y x : D) : FM D :=
  if lt (fin 0) x then atan ρ fuel (div ρ y x)
  else if le (fin 0) y ∧ lt x (fin 0) then do return add ρ (← atan ρ fuel (div ρ y x)) (mPi ρ)
  else if lt y (fin 0) ∧ lt x (fin 0) then do return sub ρ (← atan ρ fuel (div ρ y x)) (mPi ρ)
  else if lt (fin 0) y ∧ eq x (fin 0) then pure (mPi2 ρ)
  else if lt y (fin 0) ∧ eq x (fin 0) then pure (neg (mPi2 ρ))
  else pure (fin 0)

/-- `exp_helper(r)` (cmath.hpp:65-69). -/
noncomputable def expHelper (r : D) : FM D := do
  let s := add ρ (fin 1) r
  let s := add ρ s (div ρ (← pow ρ r 2) (fin 2))
  let s := add ρ s (div ρ (← pow ρ r 3) (fin 6))
  let s := add ρ s (div ρ (← pow ρ r 4) (fin 24))
  let s := add ρ s (div ρ (← pow ρ r 5) (fin 120))
  let s := add ρ s (div ρ (← pow ρ r 6) (fin 720))
  return add ρ s (div ρ (← pow ρ r 7) (fin 5040))
/-- `nearest(x)` (cmath.hpp:97-99). -/
noncomputable def nearest (x : D) : FM D := do
  let i ← toInt x
  if lt (ofInt i) (sub ρ x (fin (1 / 2))) then do
    let j ← toInt (add ρ x (fin (1 / 2)))
    return ofInt j
  else do
    let j ← toInt x
    return ofInt j
/-- `fraction(x)` (cmath.hpp:101-104). -/
noncomputable def fraction (x : D) : FM D := do
  let i ← toInt x
  if lt (ofInt i) (sub ρ x (fin (1 / 2))) then do
    let j ← toInt (add ρ x (fin (1 / 2)))
    return neg (sub ρ (ofInt j) x)
  else do
    let j ← toInt x
    return sub ρ x (ofInt j)
/-- `exp(x)` (cmath.hpp:157-159). -/
noncomputable def exp (x : D) : FM D := do
  let n ← toInt (← nearest ρ x)
  let p ← pow ρ (mE ρ) n
  let h ← expHelper ρ (← fraction ρ x)
  return mul ρ p h

/-- `exponent_helper(x, e)` (cmath.hpp:71-75), with `e` unbounded as in `Cmath.exponentHelper`: the function
returns only for positive finite numbers, where the two agree. -/
noncomputable def exponentHelper : Nat → D → Int → FM Int
  | 0, _, _ => M.timeout
  | fuel+1, x, e =>
    if le (fin 10) x then exponentHelper fuel (mul ρ x (fin (ρ (1 / 10)))) (e + 1)
    else if lt x (fin 1) then exponentHelper fuel (mul ρ x (fin 10)) (e - 1)
    else pure e
/-- `exponent(x)` (cmath.hpp:77-79). -/
noncomputable def exponent (fuel : Nat) (x : D) : FM Int := exponentHelper ρ fuel x 0
/-- `mantissa(x)` (cmath.hpp:81-85). -/
noncomputable def mantissa : Nat → D → FM D
  | 0, _ => M.timeout
  | fuel+1, x =>
    if le (fin 10) x then mantissa fuel (mul ρ x (fin (ρ (1 / 10))))
    else if lt x (fin 1) then mantissa fuel (mul ρ x (fin 10))
    else pure x
/-- `log_helper2(y)` (cmath.hpp:87-90). -/
noncomputable def logHelper2 (y : D) : FM D := do
  let s := y
  let s := add ρ s (div ρ (← pow ρ y 3) (fin 3))
  let s := add ρ s (div ρ (← pow ρ y 5) (fin 5))
  let s := add ρ s (div ρ (← pow ρ y 7) (fin 7))
  let s := add ρ s (div ρ (← pow ρ y 9) (fin 9))
  let s := add ρ s (div ρ (← pow ρ y 11) (fin 11))
  return mul ρ (fin 2) s
/-- `log_helper(x)` (cmath.hpp:93-95). -/
noncomputable def logHelper (x : D) : FM D := logHelper2 ρ (div ρ (sub ρ x (fin 1)) (add ρ x (fin 1)))
/-- `log(x)` (cmath.hpp:161-165). -/
noncomputable def log (fuel : Nat) (x : D) : FM D :=
  if eq x (fin 0) then pure (inf true)
  else if lt x (fin 0) then pure nan
  else do
    let m ← mantissa ρ fuel x
    let s ← sqrt ρ fuel m
    let l ← logHelper ρ s
    let e ← exponent ρ fuel x
    return add ρ (mul ρ (fin 2) l) (mul ρ (fin (ρ (23025851 / 10000000))) (ofInt e))

/-- `ceil(v)` (cmath.hpp:120-122). -/
noncomputable def ceil (v : D) : FM Int := do
  let i ← toInt v
  if ¬ eq (ofInt i) v ∧ lt (fin 0) v then toInt (add ρ v (fin 1)) else toInt v
/-- `floor(v)` (cmath.hpp:132-134). -/
noncomputable def floor (v : D) : FM Int := do
  let i ← toInt v
  if ¬ eq (ofInt i) v ∧ lt v (fin 0) then toInt (sub ρ v (fin 1)) else toInt v

/-- `std::max(a, b)`. -/
noncomputable def stdMax (a b : D) : D := if lt a b then b else a
/-- `__complex_abs(z)` (complex.hpp:563-575) for `double`, under the proviso of `Cmath.complexAbs`. -/
noncomputable def complexAbs (fuel : Nat) (re im : D) : FM D :=
  let s := stdMax (abs re) (abs im)
  if eq s (fin 0) then pure s
  else do
    let x := div ρ re s
    let y := div ρ im s
    return mul ρ s (← sqrt ρ fuel (add ρ (mul ρ x x) (mul ρ y y)))

end Cest.Ieee
