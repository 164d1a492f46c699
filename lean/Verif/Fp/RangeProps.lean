import Verif.Fp.Range

/-! C145: the ranges of the elementary functions of `cmath.hpp`, and which square roots are exact.

The bounds of `sin`, `cos`, `sqrt` and `cosh` hold for every argument for which the function returns, without any
limit on its size.  That square roots of squares are exact is false. -/

namespace Cest.Fp.Props
open Cest Cest.Cmath

variable {ρ : ℝ → ℝ}

/-- `|sin(x)| ≤ 1` in binary64 with ties to even, for every double `x`. -/
theorem C145_sin (h : RoundsTiesEven ρ) {fuel : ℕ} {x v : ℝ} (dx : IsDouble x)
    (hv : sin ρ fuel x () = .ok v ()) : |v| ≤ 1 := (sin_le h dx hv).2

/-- `|cos(x)| ≤ 1` in binary64 with ties to even, for every double `x`. -/
theorem C145_cos (h : RoundsTiesEven ρ) {fuel : ℕ} {x v : ℝ}
    (hv : cos ρ fuel x () = .ok v ()) : |v| ≤ 1 := (sin_le h (h.toRoundsToNearest.double _) hv).2

/-- `sqrt(x) ≥ 1` for `x ≥ 1`, with any rounding to nearest. -/
theorem C145_sqrt_ge_one (hr : RoundsToNearest ρ) {fuel : ℕ} {x r : ℝ} (hx : 1 ≤ x)
    (h : sqrt ρ fuel x () = .ok r ()) : 1 ≤ r := sqrt_ge_one hr hx h

/-- `cosh(x) ≥ 1`, with any rounding to nearest.  (As everywhere in the model of binary64, nothing is said about
arguments for which a result is beyond the largest double.) -/
theorem C145_cosh_ge_one (hr : RoundsToNearest ρ) {fuel : ℕ} {x v : ℝ}
    (h : cosh ρ fuel x () = .ok v ()) : 1 ≤ v := by
  rw [cosh, M.bind_apply] at h
  rcases q : sinh ρ fuel x () with ⟨s, ⟨⟩⟩ | _ | _ | _
  · simp only [q] at h
    refine sqrt_ge_one hr ?_ h
    have : 0 ≤ ρ (s * s) := round_nonneg hr (mul_self_nonneg s)
    exact hr.ge_of_ge (by simpa using isDouble_int (K := ℝ) (k := 1) (by norm_num)) (by
      change (1 : ℝ) ≤ 1 + ρ (s * s); linarith)
  all_goals simp [q] at h

/-- `exp(x) > 0`. -/
theorem C145_exp_pos (hr : RoundsToNearest ρ) {x : ℝ} (hx : |x| ≤ 700) : ∃ v, exp ρ x () = .ok v () ∧ 0 < v := by
  obtain ⟨v, h, b⟩ := C108_exp hr hx
  refine ⟨v, h, ?_⟩
  have := Real.exp_pos x
  rw [abs_le] at b
  linarith

/-- In exact arithmetic the result is above the root, unless it is the first guess. -/
theorem C145_sqrt_above {fuel : ℕ} {x r : ℝ} (hx : 0 < x) (h : sqrt id fuel x () = .ok r ()) :
    (r = 1 ∧ |1 - x| < 1 / 1000) ∨ Real.sqrt x < r := by
  rcases sqrtHelper_above hx fuel 1 r one_pos h with ⟨h1, h2⟩ | ⟨h1, h2⟩
  · left
    rw [div_one, mul_one] at h2
    exact ⟨h1, h2⟩
  · right
    rw [Real.sqrt_lt' h1]
    exact h2

/-- In exact arithmetic `sqrt(x)` is the square root of `x` for `x = 1` only. -/
theorem C145_sqrt_exact_iff {fuel : ℕ} {x r : ℝ} (hx : 0 < x) (h : sqrt id fuel x () = .ok r ()) :
    r = Real.sqrt x ↔ x = 1 := by
  rcases sqrtHelper_above hx fuel 1 r one_pos h with ⟨h1, h2⟩ | ⟨h1, h2⟩
  · rw [h1]
    constructor
    · intro e
      have := Real.sq_sqrt hx.le
      rw [← e] at this
      linarith
    · rintro rfl; simp
  · have lt : Real.sqrt x < r := by rw [Real.sqrt_lt' h1]; exact h2
    constructor
    · intro e; exact absurd e lt.ne'
    · rintro rfl
      exfalso
      have s : sqrt id fuel (1 : ℝ) () = .ok r () := h
      cases fuel with
      | zero => cases s
      | succ n =>
        rw [sqrt, sqrtHelper_stop one_ne_zero (by norm_num)] at s
        injection s with s
        rw [← s] at lt
        simp at lt

/-- Full statement: `sqrt(n * n) = n` for the integers `n` whose square is a double.  Refuted: `sqrt(4) > 2.0006`. -/
theorem C145_sqrt_square_refuted (hr : RoundsToNearest ρ) :
    ∃ r, Gives (fun fuel => sqrt ρ fuel 4) r ∧ 20006 / 10000 < r := by
  obtain ⟨k, kb, h1⟩ := sqrt_four_two hr
  obtain ⟨r, r1, r2, h2⟩ := sqrt_four_third hr kb
  refine ⟨r, ⟨4, fun fuel hf => ?_⟩, r1⟩
  obtain ⟨n, rfl⟩ := Nat.exists_eq_add_of_le' hf
  change sqrt ρ (n + 4) 4 () = _
  rw [h1 (n + 2), h2 (n + 1), sqrt_four_test hr r1 r2]

/-! ### The hypotheses are met -/

/-- `sin` and `cos` return for arguments of moderate size, and then lie between -1 and 1. -/
example : ∃ ρ : ℝ → ℝ, RoundsTiesEven ρ ∧ ∀ n : ℕ, n ≤ 400 → ∃ v w fuel,
    sin ρ fuel (n : ℝ) () = .ok v () ∧ cos ρ fuel (n : ℝ) () = .ok w () ∧ |v| ≤ 1 ∧ |w| ≤ 1 := by
  obtain ⟨ρ, h⟩ := exists_roundsTiesEven (K := ℝ)
  refine ⟨ρ, h, fun n hn => ?_⟩
  have hn' : (n : ℝ) ≤ 400 := by exact_mod_cast hn
  have dn : IsDouble (n : ℝ) := by
    simpa using isDouble_int (K := ℝ) (k := n) (by rw [abs_of_nonneg (by omega)]; omega)
  obtain ⟨v, ⟨N, hv⟩, -⟩ := C106_sin h.toRoundsToNearest (x := n) (by rw [abs_of_nonneg (by positivity)]; linarith)
  obtain ⟨w, ⟨L, hw⟩, -⟩ := C106_cos h.toRoundsToNearest (x := n) (by rw [abs_of_nonneg (by positivity)]; linarith)
  have hv := hv (max N L) (le_max_left _ _)
  have hw := hw (max N L) (le_max_right _ _)
  exact ⟨v, w, max N L, hv, hw, C145_sin h dn hv, C145_cos h hw⟩

/-- `cosh(1) ≥ 1`. -/
example (hr : RoundsToNearest ρ) : ∃ v fuel, cosh ρ fuel 1 () = .ok v () ∧ 1 ≤ v := by
  obtain ⟨v, ⟨N, h⟩, -⟩ := C121_cosh hr (x := 1) (by norm_num)
  exact ⟨v, N, h N le_rfl, C145_cosh_ge_one hr (h N le_rfl)⟩

/-- In exact arithmetic `sqrt(9) > 3`. -/
example : ∃ r, Gives (fun fuel => sqrt id fuel (9 : ℝ)) r ∧ 3 < r := by
  obtain ⟨r, -, -, -, N, h⟩ := sqrt_val (x := 9) (by norm_num)
  refine ⟨r, ⟨N, h⟩, ?_⟩
  rcases C145_sqrt_above (by norm_num) (h N le_rfl) with ⟨-, c⟩ | c
  · norm_num at c
  · have : Real.sqrt 9 = 3 := by rw [show (9 : ℝ) = 3 ^ 2 by norm_num, Real.sqrt_sq (by norm_num)]
    linarith

end Cest.Fp.Props
