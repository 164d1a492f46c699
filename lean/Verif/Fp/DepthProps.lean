import Verif.Fp.Depth
import Verif.Fp.DepthBig
import Verif.Fp.Props

/-! C125 and C126: what the recursions of `cmath.hpp` need when they are evaluated at compile time.  The fuel of the
model is the depth of the recursion of the helper functions.  GCC and Clang allow 512 nested calls by default
(`-fconstexpr-depth`), and GCC allows 33554432 = 2^25 operations (`-fconstexpr-ops-limit`). -/

namespace Cest.Fp.Props
open Cest Cest.Cmath

variable {ρ : ℝ → ℝ}

/-! ### C125: depth -/

/-- For numbers that are not very small or very large 508 levels of `sqrt_helper` are enough.  The full property, for
every positive double, is false: `C125_sqrt_refuted`, `C125_sqrt_big_refuted`. -/
theorem C125_sqrt_partial (hr : RoundsToNearest ρ) {x : ℝ} (x1 : 1 / 2 ^ 980 ≤ x) (x2 : x ≤ 2 ^ 960) :
    ∃ r, (∀ fuel, 508 ≤ fuel → sqrt ρ fuel x () = .ok r ()) ∧ |r - Real.sqrt x| ≤ 51 / 100000 * Real.sqrt x := by
  obtain ⟨r, h1, h2, h3, h4⟩ := sqrt_within hr x1 (by rw [T]; exact x2)
  obtain ⟨r', ⟨N, h5⟩, -, h6⟩ := C105_sqrt hr (x := x)
    (le_trans (one_div_le_one_div_of_le (by positivity) (pow_le_pow_right₀ (by norm_num) (by norm_num))) x1) x2
  refine ⟨r, h4, ?_⟩
  have a := h4 (max N 508) (le_max_right _ _)
  have b := h5 (max N 508) (le_max_left _ _)
  simp only [a] at b
  injection b with b
  rwa [b]

/-- For the subnormal numbers 512 levels are not enough: the evaluation fails. -/
theorem C125_sqrt_refuted (hr : RoundsToNearest ρ) {x : ℝ} (x0 : 0 < x) (hx : x ≤ 1 / 2 ^ 1023) {fuel : ℕ}
    (hf : fuel ≤ 512) : sqrt ρ fuel x () = .timeout :=
  sqrtHelper_slow hr x0.le hx fuel 0 1 (by omega) (by norm_num)

/-- Nor for the largest numbers, from 2^1020 on. -/
theorem C125_sqrt_big_refuted (hr : RoundsToNearest ρ) {x : ℝ} (hx : IsDouble x) (h : 2 ^ 1020 ≤ x) {fuel : ℕ}
    (hf : fuel ≤ 512) : sqrt ρ fuel x () = .timeout :=
  sqrt_slow_big hr hx h hf

/-- The decimal decomposition and the logarithm need at most 359 levels for every positive double. -/
theorem C125_log (hr : RoundsToNearest ρ) {x : ℝ} (hx : IsDouble x) (h0 : 0 < x) :
    (∃ m, ∀ fuel, 359 ≤ fuel → mantissa ρ fuel x () = .ok m ()) ∧
    (∃ e, ∀ fuel, 359 ≤ fuel → exponent ρ fuel x () = .ok e ()) ∧
    ∃ v, (∀ fuel, 359 ≤ fuel → log ρ fuel x () = .ok (.val v) ()) ∧
      |v - Real.log x| ≤ 12 / 10000 + |Real.log x| / 100000000 := by
  obtain ⟨e, m, -, -, -, -, -, -, h7, h8⟩ := decimal_depth hr hx h0
  exact ⟨⟨m, h7⟩, ⟨e, h8⟩, log_depth hr hx h0⟩

theorem C125_sinh (hr : RoundsToNearest ρ) {x : ℝ} (hx : |x| ≤ 702) :
    ∃ v, (∀ fuel, 21 ≤ fuel → sinh ρ fuel x () = .ok v ()) ∧ |v - Real.sinh x| ≤ 4 / 10 ^ 6 * |x| * Real.cosh x :=
  sinh_depth hr hx

theorem C125_cosh (hr : RoundsToNearest ρ) {x : ℝ} (hx : |x| ≤ 331) :
    ∃ v, (∀ fuel, 508 ≤ fuel → cosh ρ fuel x () = .ok v ()) ∧
      |v - Real.cosh x| ≤ (52 / 100000 + 4 / 10 ^ 6 * |x|) * Real.cosh x := by
  obtain ⟨v, h, -, hb⟩ := cosh_depth hr hx
  exact ⟨v, h, hb⟩

theorem C125_atan (hr : RoundsToNearest ρ) (x : ℝ) :
    ∃ v, (∀ fuel, 4 ≤ fuel → atan ρ fuel x () = .ok v ()) ∧ |v - Real.arctan x| ≤ 1 / 20000 := by
  obtain ⟨v, h, hb⟩ := atan_fp hr x
  refine ⟨v, fun fuel hf => ?_, hb⟩
  obtain ⟨k, rfl⟩ : ∃ k, fuel = k + 4 := ⟨fuel - 4, by omega⟩
  exact h k

/-! ### C126: number of calls -/

/-- The functions that count calls compute what `sin` and `sinh` compute. -/
theorem C126_counts (fuel : ℕ) (x v : ℝ) (n : ℕ) :
    (sinC ρ fuel x () = .ok (v, n) () → sin ρ fuel x () = .ok v ()) ∧
    (sinhC ρ fuel x () = .ok (v, n) () → sinh ρ fuel x () = .ok v ()) := by
  constructor
  · exact sinHelperC_forget fuel _ v n
  · intro h
    by_cases c : x < 0
    · simp only [sinhC, c, if_true, M.bind_apply] at h
      simp only [sinh, c, if_true, M.bind_apply]
      rcases e : sinhHelperC ρ fuel (-x) () with ⟨⟨a, k⟩, ⟨⟩⟩ | _ | _ | _
      · simp only [e, M.pure_apply] at h
        injection h with h
        simp only [sinhHelperC_forget fuel _ _ _ e, M.pure_apply, (Prod.mk.inj h).1]
      all_goals simp [e] at h
    · simp only [sinhC, c, if_false] at h
      simp only [sinh, c, if_false]
      exact sinhHelperC_forget fuel _ _ _ h

/-- Upper bounds: when `1010 (|x| + 5) ≤ 3^d`, at most `2^(d+1) - 1` calls are made, nested at most `d + 1` deep. -/
theorem C126_sin_upper (hr : RoundsToNearest ρ) {x : ℝ} {d : ℕ} (hd : d ≤ 30) (hx : 1010 * (|x| + 5) ≤ 3 ^ d) :
    ∃ v n, n < 2 ^ (d + 1) ∧ ∀ fuel, d < fuel → sinC ρ fuel x () = .ok (v, n) () := by
  have hu := u_pos
  have hu1 := u_lt
  norm_num at hu1
  have d1 : (3:ℝ) ^ d ≤ 3 ^ 30 := pow_le_pow_right₀ (by norm_num) hd
  norm_num at d1
  obtain ⟨a0, a1⟩ := sin_arg hr (x := x) (by norm_num; linarith)
  have a2 := third_small hr hd a0 (by nlinarith [abs_nonneg x])
  obtain ⟨v, n, h⟩ := sin_ends d _ a2
  refine ⟨v, n, ?_, h⟩
  obtain ⟨k, k1, -, -, k4⟩ := sin_calls (d + 1) _ _ _ (h (d + 1) (by omega))
  have : 2 ^ (k + 1) ≤ 2 ^ (d + 1) := Nat.pow_le_pow_right (by norm_num) (by omega)
  omega

theorem C126_sinh_upper (hr : RoundsToNearest ρ) {x : ℝ} {d : ℕ} (hd : d ≤ 30) (hx : 1010 * |x| ≤ 3 ^ d) :
    ∃ v n, n < 2 ^ (d + 1) ∧ ∀ fuel, d < fuel → sinhC ρ fuel x () = .ok (v, n) () := by
  have a2 := third_small hr hd (abs_nonneg x) hx
  obtain ⟨v, n, h⟩ := sinh_ends d _ a2
  have hn : n < 2 ^ (d + 1) := by
    obtain ⟨k, k1, -, -, k4⟩ := sinh_calls (d + 1) _ _ _ (h (d + 1) (by omega))
    have : 2 ^ (k + 1) ≤ 2 ^ (d + 1) := Nat.pow_le_pow_right (by norm_num) (by omega)
    omega
  by_cases c : x < 0
  · refine ⟨-v, n, hn, fun fuel hf => ?_⟩
    have := h fuel hf
    rw [abs_of_neg c] at this
    simp only [sinhC, c, if_true, M.bind_apply, this, M.pure_apply]
  · refine ⟨v, n, hn, fun fuel hf => ?_⟩
    have := h fuel hf
    rw [abs_of_nonneg (not_lt.mp c)] at this
    simp only [sinhC, c, if_false, this]

/-- Lower bounds: when `3^d ≤ 990 x`, at least `2^(d+2) - 1` calls are made.  Both recursive calls compute the same
number, so one call per level would do; the number of calls grows like a power of `x` instead of its logarithm. -/
theorem C126_sin_lower (hr : RoundsToNearest ρ) {x : ℝ} {d : ℕ} (hd : d ≤ 30) (hx : 3 ^ d ≤ 990 * x) {fuel n : ℕ}
    {v : ℝ} (h : sinC ρ fuel x () = .ok (v, n) ()) : 2 ^ (d + 2) ≤ n + 1 := by
  have h3 : (0:ℝ) < 3 ^ d := by positivity
  have c : ¬ x < 0 := by linarith
  simp only [sinC, c, if_false] at h
  obtain ⟨k, k1, -, k3, k4⟩ := sin_calls fuel _ _ _ h
  have : ¬ k ≤ d := fun hk => absurd k3 (not_lt.mpr (third_large hr hd hx hk))
  rw [k4]
  exact Nat.pow_le_pow_right (by norm_num) (by omega)

theorem C126_sinh_lower (hr : RoundsToNearest ρ) {x : ℝ} {d : ℕ} (hd : d ≤ 30) (hx : 3 ^ d ≤ 990 * |x|) {fuel n : ℕ}
    {v : ℝ} (h : sinhC ρ fuel x () = .ok (v, n) ()) : 2 ^ (d + 2) ≤ n + 1 := by
  have key : ∀ {w : ℝ}, sinhHelperC ρ fuel |x| () = .ok (w, n) () → 2 ^ (d + 2) ≤ n + 1 := by
    intro w h
    obtain ⟨k, k1, -, k3, k4⟩ := sinh_calls fuel _ _ _ h
    have : ¬ k ≤ d := fun hk => absurd k3 (not_lt.mpr (third_large hr hd hx hk))
    rw [k4]
    exact Nat.pow_le_pow_right (by norm_num) (by omega)
  by_cases c : x < 0
  · simp only [sinhC, c, if_true, M.bind_apply] at h
    rw [abs_of_neg c] at key
    rcases e : sinhHelperC ρ fuel (-x) () with ⟨⟨a, k⟩, ⟨⟩⟩ | _ | _ | _
    · simp only [e, M.pure_apply] at h
      injection h with h
      rw [← (Prod.mk.inj h).2] at key ⊢
      exact key e
    all_goals simp [e] at h
  · simp only [sinhC, c, if_false] at h
    rw [abs_of_nonneg (not_lt.mp c)] at key
    exact key h

/-- A million takes fewer than 2^21 calls, nested at most 20 deep … -/
theorem C126_sin_partial (hr : RoundsToNearest ρ) {x : ℝ} (hx : |x| ≤ 10 ^ 6) :
    ∃ v n, n < 2 ^ 21 ∧ ∀ fuel, 21 ≤ fuel → sinC ρ fuel x () = .ok (v, n) () :=
  C126_sin_upper hr (d := 20) (by norm_num) (by norm_num at hx ⊢; linarith)

/-- … but from a thousand million on the calls alone exceed the limit of 2^25 operations. -/
theorem C126_sin_refuted (hr : RoundsToNearest ρ) {x : ℝ} (hx : 10 ^ 9 ≤ x) {fuel n : ℕ} {v : ℝ}
    (h : sinC ρ fuel x () = .ok (v, n) ()) : 4 * 2 ^ 25 ≤ n + 1 :=
  C126_sin_lower hr (d := 25) (by norm_num) (by norm_num at hx ⊢; linarith) h

/-! ### concrete cases -/

/-- `sqrt(2)` within the default depth. -/
example (hr : RoundsToNearest ρ) : ∃ r, sqrt ρ 508 (2 : ℝ) () = .ok r () := by
  obtain ⟨r, h, -⟩ := C125_sqrt_partial hr (x := 2)
    (le_trans (div_le_one_of_le₀ (one_le_pow₀ (by norm_num)) (by positivity)) (by norm_num))
    (le_trans (by norm_num : (2 : ℝ) ≤ 2 ^ 1) (pow_le_pow_right₀ (by norm_num) (by norm_num)))
  exact ⟨r, h _ le_rfl⟩

/-- The smallest positive double, 2^-1074, has a square root, but not within 512 levels. -/
example (hr : RoundsToNearest ρ) : IsDouble ((1 : ℝ) / 2 ^ 1074) ∧ sqrt ρ 512 ((1 : ℝ) / 2 ^ 1074) () = .timeout ∧
    ∃ r, Gives (fun fuel => sqrt ρ fuel ((1 : ℝ) / 2 ^ 1074)) r := by
  refine ⟨isDouble_inv_pow le_rfl, C125_sqrt_refuted hr (by positivity) ?_ le_rfl, ?_⟩
  · exact one_div_le_one_div_of_le (by positivity) (pow_le_pow_right₀ (by norm_num) (by norm_num))
  · obtain ⟨r, h, -⟩ := C105_sqrt hr (x := 1 / 2 ^ 1074) le_rfl
      ((div_le_one_of_le₀ (one_le_pow₀ (by norm_num)) (by positivity)).trans (one_le_pow₀ (by norm_num)))
    exact ⟨r, h⟩

/-- 2^1023 is a double; its square root 2^511.5 is a number of moderate size. -/
example (hr : RoundsToNearest ρ) : sqrt ρ 512 ((2 : ℝ) ^ 1023) () = .timeout := by
  refine C125_sqrt_big_refuted hr ⟨2 ^ 52, 971, ?_, by norm_num, by norm_num, by norm_num⟩
    (pow_le_pow_right₀ (by norm_num) (by norm_num)) le_rfl
  rw [show (971 : ℤ) = ((971 : ℕ) : ℤ) by rfl, zpow_natCast]
  rw [show ((2 ^ 52 : ℤ) : ℝ) = 2 ^ 52 by push_cast; ring, ← pow_add]

example (hr : RoundsToNearest ρ) : ∃ v, log ρ 359 (10 : ℝ) () = .ok (.val v) () := by
  obtain ⟨-, -, v, h, -⟩ := C125_log hr (x := 10) (by simpa using isDouble_int (K := ℝ) (k := 10) (by norm_num))
    (by norm_num)
  exact ⟨v, h _ le_rfl⟩

/-- `sin(1)`: between 255 and 1023 calls. -/
example (hr : RoundsToNearest ρ) : ∃ v n, sinC ρ 100 (1 : ℝ) () = .ok (v, n) () ∧ 2 ^ 8 ≤ n + 1 ∧ n < 2 ^ 9 * 2 := by
  obtain ⟨v, n, h1, h2⟩ := C126_sin_upper hr (x := 1) (d := 9) (by norm_num) (by norm_num)
  exact ⟨v, n, h2 100 (by norm_num), C126_sin_lower hr (d := 6) (by norm_num) (by norm_num) (h2 100 (by norm_num)), h1⟩

/-- `sinh(1)`: 255 calls exactly. -/
example (hr : RoundsToNearest ρ) : ∃ v, sinhC ρ 100 (1 : ℝ) () = .ok (v, 255) () := by
  obtain ⟨v, n, h1, h2⟩ := C126_sinh_upper hr (x := 1) (d := 7) (by norm_num) (by norm_num)
  have h3 := C126_sinh_lower hr (d := 6) (by norm_num) (by norm_num) (h2 100 (by norm_num))
  have : n = 255 := by omega
  exact ⟨v, this ▸ h2 100 (by norm_num)⟩

/-- The hypothesis of `C126_sin_refuted` is met: the recursion does end for large arguments. -/
example (hr : RoundsToNearest ρ) : ∃ fuel v n, sinC ρ fuel (10 ^ 9 : ℝ) () = .ok (v, n) () ∧ 2 ^ 27 ≤ n + 1 := by
  obtain ⟨v, n, -, h2⟩ := C126_sin_upper hr (x := 10 ^ 9) (d := 27) (by norm_num)
    (by rw [abs_of_pos (by norm_num)]; norm_num)
  exact ⟨28, v, n, h2 28 (by norm_num), C126_sin_refuted hr le_rfl (h2 28 (by norm_num))⟩

end Cest.Fp.Props
