import Mathlib.Analysis.SpecialFunctions.Trigonometric.Basic

/-! The error bounds of C122 and C123. -/
namespace Cest.ComplexFn

/-- A bound on the error of `sin(t)` and `cos(t)` for `|t| ≤ 400` (C106). -/
noncomputable def trigFp (t : ℝ) : ℝ := 2 / 10 ^ 6 * (|t| + 6) + 14 / 10 ^ 8 * (|t| + 7) ^ 2

/-- The bound for the circular functions: argument `t` of the trigonometric factor, `h` of the hyperbolic one. -/
noncomputable def trigBoundFp (t h : ℝ) : ℝ :=
  (11 / 10 * trigFp t + 53 / 100000 + 4 / 10 ^ 6 * |h|) * Real.cosh h

end Cest.ComplexFn
