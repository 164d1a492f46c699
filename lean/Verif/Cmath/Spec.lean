import Verif.Cmath.Model
import Mathlib.Algebra.Order.Field.Power
import Mathlib.Data.Int.Interval
import Mathlib.Data.Finset.Max
import Mathlib.Tactic.Linarith
import Mathlib.Tactic.NormNum
import Mathlib.Tactic.Ring
import Mathlib.Tactic.FieldSimp
import Mathlib.Tactic.Push
import Mathlib.Tactic.Positivity
import Mathlib.Algebra.Order.Archimedean.Basic

/-!
Vocabulary for the properties of `cmath.hpp`: IEEE binary64 numbers and roundings.
-/
namespace Cest.Cmath

variable {K : Type} [Field K] [LinearOrder K] [IsStrictOrderedRing K]

/-- The finite IEEE binary64 numbers: a 53-bit significand times a power of two. -/
def IsDouble (d : K) : Prop :=
  ∃ m e : ℤ, d = m * 2 ^ e ∧ |m| < 2 ^ 53 ∧ -1074 ≤ e ∧ e ≤ 971

/-- The last bit of the 53-bit significand is zero.  (The significand is normalised, except that of
subnormal numbers.) -/
def EvenDouble (d : K) : Prop :=
  ∃ m e : ℤ, d = m * 2 ^ e ∧ Even m ∧ |m| < 2 ^ 53 ∧ -1074 ≤ e ∧ e ≤ 971 ∧ (2 ^ 52 ≤ |m| ∨ e = -1074)

/-- `ρ` rounds to a nearest binary64 number. -/
structure RoundsToNearest (ρ : K → K) : Prop where
  double : ∀ x, IsDouble (ρ x)
  nearest : ∀ x d, IsDouble d → |x - ρ x| ≤ |x - d|

/-- `ρ` is the IEEE default rounding, "to nearest, ties to even": a nearest binary64 number, and among the
nearest ones an even one if there is one.  (Values beyond the largest finite number are outside the model.) -/
structure RoundsTiesEven (ρ : K → K) : Prop extends RoundsToNearest ρ where
  ties : ∀ x d, EvenDouble d → |x - d| = |x - ρ x| → EvenDouble (ρ x)

/-- `ρ` has relative error at most `u`: the standard model of floating-point arithmetic. -/
def RelErr (u : K) (ρ : K → K) : Prop := ∀ x, |ρ x - x| ≤ u * |x|

/-- A computation gives value `v` with every sufficiently large fuel. -/
def Gives {α : Type} (f : Nat → FM α) (v : α) : Prop := ∃ N, ∀ fuel, N ≤ fuel → f fuel () = .ok v ()

end Cest.Cmath
