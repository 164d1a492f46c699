import Verif.Core.Mem
import Mathlib.Algebra.Notation.Defs

/-!
Model of `cest::complex<T>` (include/cest/complex.hpp).

Variables of type `complex<T>` are named objects of the machine, so that an operand passed by reference
is re-read at every use and a compound assignment whose operand is the object itself (`z *= z`) sees the
members it has already overwritten.  Local variables and temporaries live in slots given as parameters
(`r`, `t`, ...), which the theorems require to be unused on entry; they are destroyed on exit.

`T` is any type with the operations `+ - * /` and constants 0 and 1.  The theorems of `Complex/Props.lean` are about exact
number types (a commutative ring, a field for `/`), those of `CxFp/Props.lean` about binary64.

Simplifications: both operands have the same component type; scalars are passed as values (`real()`/`imag()` return by value, complex.hpp:111-120, so
a scalar operand cannot be a member of the object).  Dividing by zero is undefined behaviour.
-/
namespace Cest.Complex

/-- The two data members, `_M_real` and `_M_imag` (complex.hpp:197-199). -/
@[ext]
structure Cx (T : Type) where
  re : T
  im : T
  deriving DecidableEq

abbrev CSt (T : Type) := St (Cx T) Unit
abbrev CM (T : Type) (α : Type) := M (CSt T) α

section ring
variable {T : Type} [Zero T] [One T] [Add T] [Sub T] [Mul T] [Neg T]

/-- `z.real()` (complex.hpp:115-116). -/
def getRe (z : Nat) : CM T T := do return (← getObj z).re
/-- `z.imag()` (complex.hpp:119-120). -/
def getIm (z : Nat) : CM T T := do return (← getObj z).im
/-- `z.real(v)` and every assignment to the member `_M_real` (complex.hpp:142-143). -/
def setRe (z : Nat) (v : T) : CM T Unit := do let o ← getObj z; setObj z { o with re := v }
/-- `z.imag(v)` and every assignment to the member `_M_imag` (complex.hpp:145-146). -/
def setIm (z : Nat) (v : T) : CM T Unit := do let o ← getObj z; setObj z { o with im := v }

/-- `complex z(r, i)` (complex.hpp:98-99); the defaults for missing arguments are `T()`, that is 0. -/
def ctor (z : Nat) (r : T := 0) (i : T := 0) : CM T Unit := newObj z ⟨r, i⟩
/-- Copy constructor `complex z = x` (defaulted, complex.hpp:103). -/
def copyCtor (z x : Nat) : CM T Unit := do let o ← getObj x; newObj z o
/-- End of scope of a local variable whose value is returned. -/
def retLocal (r : Nat) : CM T (Cx T) := do let o ← getObj r; delObj r; return o

/-- `z = t`, scalar assignment (complex.hpp:203-210). -/
def assignS (z : Nat) (t : T) : CM T Unit := do setRe z t; setIm z 0
/-- `z += t` (complex.hpp:153-157). -/
def addAssignS (z : Nat) (t : T) : CM T Unit := do setRe z ((← getRe z) + t)
/-- `z -= t` (complex.hpp:162-166). -/
def subAssignS (z : Nat) (t : T) : CM T Unit := do setRe z ((← getRe z) - t)
/-- `z *= t` (complex.hpp:213-220). -/
def mulAssignS (z : Nat) (t : T) : CM T Unit := do
  setRe z ((← getRe z) * t)
  setIm z ((← getIm z) * t)

/-- `z = w` (complex.hpp:232-240). -/
def assign (z w : Nat) : CM T Unit := do
  setRe z (← getRe w)
  setIm z (← getIm w)
/-- `z += w` (complex.hpp:243-251). -/
def addAssign (z w : Nat) : CM T Unit := do
  setRe z ((← getRe z) + (← getRe w))
  setIm z ((← getIm z) + (← getIm w))
/-- `z -= w` (complex.hpp:254-262). -/
def subAssign (z w : Nat) : CM T Unit := do
  setRe z ((← getRe z) - (← getRe w))
  setIm z ((← getIm z) - (← getIm w))
/-- `z *= w` (complex.hpp:266-275). -/
def mulAssign (z w : Nat) : CM T Unit := do
  let r := (← getRe z) * (← getRe w) - (← getIm z) * (← getIm w)
  setIm z ((← getRe z) * (← getIm w) + (← getIm z) * (← getRe w))
  setRe z r

/-- `norm(z)` (complex.hpp:629-661; both `_Norm_helper` variants compute the same expression). -/
def norm (z : Nat) : CM T T := do
  let x ← getRe z
  let y ← getIm z
  return x * x + y * y
/-- `conj(z)` (complex.hpp:671-674). -/
def conj (z : Nat) : CM T (Cx T) := do return ⟨← getRe z, -(← getIm z)⟩

/-- `x + y` (complex.hpp:293-300). -/
def add (r x y : Nat) : CM T (Cx T) := do copyCtor r x; addAssign r y; retLocal r
/-- `x + t` (complex.hpp:302-309). -/
def addCS (r x : Nat) (t : T) : CM T (Cx T) := do copyCtor r x; addAssignS r t; retLocal r
/-- `t + y` (complex.hpp:311-318). -/
def addSC (r : Nat) (t : T) (y : Nat) : CM T (Cx T) := do copyCtor r y; addAssignS r t; retLocal r

/-- Unary `+x` (complex.hpp:412-415). -/
def pos (x : Nat) : CM T (Cx T) := getObj x
/-- Unary `-x` (complex.hpp:418-421). -/
def neg (x : Nat) : CM T (Cx T) := do return ⟨-(← getRe x), -(← getIm x)⟩

/-- `x - y` (complex.hpp:323-330). -/
def sub (r x y : Nat) : CM T (Cx T) := do copyCtor r x; subAssign r y; retLocal r
/-- `x - t` (complex.hpp:332-339). -/
def subCS (r x : Nat) (t : T) : CM T (Cx T) := do copyCtor r x; subAssignS r t; retLocal r
/-- `t - y` (complex.hpp:341-348): negates a copy and adds the scalar. -/
def subSC (r : Nat) (t : T) (y : Nat) : CM T (Cx T) := do
  newObj r (← neg y); addAssignS r t; retLocal r

/-- `x * y` (complex.hpp:353-360). -/
def mul (r x y : Nat) : CM T (Cx T) := do copyCtor r x; mulAssign r y; retLocal r
/-- `x * t` (complex.hpp:362-369). -/
def mulCS (r x : Nat) (t : T) : CM T (Cx T) := do copyCtor r x; mulAssignS r t; retLocal r
/-- `t * y` (complex.hpp:371-378). -/
def mulSC (r : Nat) (t : T) (y : Nat) : CM T (Cx T) := do copyCtor r y; mulAssignS r t; retLocal r

/-- The body of `while (__n >>= 1) { __x *= __x; if (__n % 2) __y *= __x; }`
(complex.hpp:965-970); `fuel` bounds the number of iterations of the model, not of the program. -/
def powLoop (x y : Nat) : Nat → UInt32 → CM T Unit
  | 0, _ => M.timeout
  | fuel+1, n =>
    let n := n >>> 1
    if n = 0 then pure ()
    else do
      mulAssign x x
      if n % 2 ≠ 0 then mulAssign y x
      powLoop x y fuel n

/-- `__complex_pow_unsigned(z, n)` (complex.hpp:959-973).  The parameter `__x` is by value (slot `x`), the
accumulator `__y` lives in slot `y`. -/
def powUnsigned (x y z : Nat) (n : UInt32) : CM T (Cx T) := do
  copyCtor x z
  if n % 2 ≠ 0 then copyCtor y x else ctor y 1
  powLoop x y 33 n
  let v ← retLocal y
  delObj x
  return v

variable [DecidableEq T]

/-- `x == y` (complex.hpp:425-428). -/
def eqCC (x y : Nat) : CM T Bool := do
  if (← getRe x) = (← getRe y) then return (← getIm x) = (← getIm y) else return false
/-- `x == t` (complex.hpp:430-433). -/
def eqCS (x : Nat) (t : T) : CM T Bool := do
  if (← getRe x) = t then return (← getIm x) = 0 else return false
/-- `t == y` (complex.hpp:436-439). -/
def eqSC (t : T) (y : Nat) : CM T Bool := do
  if t = (← getRe y) then return (0 : T) = (← getIm y) else return false
/-- `x != y` (complex.hpp:444-447). -/
def neCC (x y : Nat) : CM T Bool := do
  if (← getRe x) ≠ (← getRe y) then return true else return (← getIm x) ≠ (← getIm y)
/-- `x != t` (complex.hpp:449-452). -/
def neCS (x : Nat) (t : T) : CM T Bool := do
  if (← getRe x) ≠ t then return true else return (← getIm x) ≠ 0
/-- `t != y` (complex.hpp:454-457). -/
def neSC (t : T) (y : Nat) : CM T Bool := do
  if t ≠ (← getRe y) then return true else return (0 : T) ≠ (← getIm y)

end ring

section field
variable {T : Type} [Zero T] [One T] [Add T] [Sub T] [Mul T] [Neg T] [Div T] [DecidableEq T]

/-- Division of components. -/
def divT (a b : T) : CM T T := if b = 0 then M.ub .precond else pure (a / b)

/-- `z /= t` (complex.hpp:223-230). -/
def divAssignS (z : Nat) (t : T) : CM T Unit := do
  setRe z (← divT (← getRe z) t)
  setIm z (← divT (← getIm z) t)
/-- `z /= w` (complex.hpp:279-289). -/
def divAssign (z w : Nat) : CM T Unit := do
  let r := (← getRe z) * (← getRe w) + (← getIm z) * (← getIm w)
  let n ← norm w
  setIm z (← divT ((← getIm z) * (← getRe w) - (← getRe z) * (← getIm w)) n)
  setRe z (← divT r n)

/-- `x / y` (complex.hpp:383-390). -/
def div (r x y : Nat) : CM T (Cx T) := do copyCtor r x; divAssign r y; retLocal r
/-- `x / t` (complex.hpp:392-399). -/
def divCS (r x : Nat) (t : T) : CM T (Cx T) := do copyCtor r x; divAssignS r t; retLocal r
/-- `t / y` (complex.hpp:401-408). -/
def divSC (r : Nat) (t : T) (y : Nat) : CM T (Cx T) := do ctor r t; divAssign r y; retLocal r

/-- `pow(z, n)` (complex.hpp:981-988).  `a` and `b` are the temporaries `complex(1)` and the result of
`__complex_pow_unsigned`; `-(unsigned)__n` is negation modulo 2³². -/
def pow (x y a b z : Nat) (n : Int32) : CM T (Cx T) :=
  if n < 0 then do
    ctor a 1
    newObj b (← powUnsigned x y z (-n.toUInt32))
    let v ← div x a b
    delObj b
    delObj a
    return v
  else powUnsigned x y z n.toUInt32

end field

end Cest.Complex
