import Verif.Fp.OrderBad2
import Verif.Cmath.Props

/-! C144: which of the elementary functions of `cmath.hpp` preserve order.

Full statement: in binary64 arithmetic, with any rounding to nearest, `x ≤ y` implies `f(x) ≤ f(y)` for
`sqrt` (positive arguments), `exp`, `log` (positive arguments), `sin` (between 0 and π/2), `atan`, `sinh`, `cosh`
(arguments that are not negative), `floor`, `ceil` and `pow(·, n)` with `n ≥ 0` (bases that are not negative).

It holds for `sinh` and `pow`.  It fails for all the others, near arguments where the number of steps of an
algorithm or the branch that is taken changes: for each a pair `x < y` of doubles is given with `f(y) < f(x)`.
For these the order of the results follows from that of the arguments only when the exact results are apart by
more than the accuracy of the function (`…_partial`). -/

namespace Cest.Fp.Props
open Cest Cest.Cmath

variable {ρ : ℝ → ℝ}

/-! ### Order is preserved -/

/-- `pow` with an exponent that is not negative. -/
theorem C144_pow (hr : RoundsToNearest ρ) {x y : ℝ} (h0 : 0 ≤ x) (hxy : x ≤ y) {n : ℤ} (hn : 0 ≤ n) :
    ∃ a b, pow ρ x n () = .ok a () ∧ pow ρ y n () = .ok b () ∧ 0 ≤ a ∧ a ≤ b :=
  ⟨_, _, pow_nonneg_ok x hn, pow_nonneg_ok y hn, powNN_nonneg hr h0 _, powNN_mono hr h0 hxy _⟩

/-- `pow` with a negative exponent: the order is reversed.  (When the power of the base underflows to zero the
division is undefined.) -/
theorem C144_pow_neg (hr : RoundsToNearest ρ) {x y : ℝ} (h0 : 0 ≤ x) (hxy : x ≤ y) {n : ℤ} (hn : n < 0)
    {a b : ℝ} (ha : pow ρ x n () = .ok a ()) (hb : pow ρ y n () = .ok b ()) : 0 ≤ b ∧ b ≤ a := by
  have key : ∀ {x a : ℝ}, pow ρ x n () = .ok a () → powNN ρ x (-n).toNat ≠ 0 ∧
      a = ρ (1 / powNN ρ x (-n).toNat) := by
    intro x a h
    simp only [pow, hn, if_true, M.bind_apply] at h
    by_cases hi : intMin ≤ -n ∧ -n ≤ intMax
    · simp only [int, hi, and_self, if_true, M.pure_apply] at h
      by_cases hz : powNN ρ x (-n).toNat = 0
      · simp [fdiv, hz] at h
      · rw [fdiv_ok hz] at h
        injection h with h
        exact ⟨hz, h.symm⟩
    · simp [int, hi] at h
  obtain ⟨x1, rfl⟩ := key ha
  obtain ⟨-, rfl⟩ := key hb
  have p := powNN_nonneg hr h0 (-n).toNat
  have q := powNN_nonneg hr (h0.trans hxy) (-n).toNat
  refine ⟨round_nonneg hr (by positivity), mono hr ?_⟩
  exact one_div_le_one_div_of_le (lt_of_le_of_ne p (Ne.symm x1)) (powNN_mono hr h0 hxy _)

/-- `sinh`, wherever it does not overflow. -/
theorem C144_sinh (hr : RoundsToNearest ρ) {x y : ℝ} (hxy : x ≤ y) (hx : |x| ≤ 702) (hy : |y| ≤ 702) :
    ∃ a b, Gives (fun fuel => sinh ρ fuel x) a ∧ Gives (fun fuel => sinh ρ fuel y) b ∧ a ≤ b := by
  obtain ⟨a, ⟨N, h1⟩, -⟩ := C121_sinh hr hx
  obtain ⟨b, ⟨L, h2⟩, -⟩ := C121_sinh hr hy
  exact ⟨a, b, ⟨N, h1⟩, ⟨L, h2⟩, sinh_mono hr hxy (h1 N le_rfl) (h2 L le_rfl)⟩

/-! ### Order is not preserved -/

/-- `f(x) = a` and `f(y) = b` for doubles `x < y`, but `b < a`. -/
def Drops (f : ℕ → ℝ → FM ℝ) (lo hi : ℝ) : Prop :=
  ∃ x y a b, IsDouble x ∧ IsDouble y ∧ lo < x ∧ x < y ∧ y < hi ∧
    Gives (fun fuel => f fuel x) a ∧ Gives (fun fuel => f fuel y) b ∧ b < a

/-- `sqrt(1.064453125) > sqrt(1.0654296875)`: one more step of Newton's method is taken for the second. -/
theorem C144_sqrt_refuted (hr : RoundsToNearest ρ) : Drops (sqrt ρ) 1 2 := by
  obtain ⟨a, a1, -, ha⟩ := sqrt_at_x hr
  obtain ⟨b, b1, -, hb⟩ := sqrt_at_y hr
  refine ⟨545 / 512, 1091 / 1024, a, b, ⟨545, -9, by norm_num, by norm_num, by norm_num, by norm_num⟩,
    ⟨1091, -10, by norm_num, by norm_num, by norm_num, by norm_num⟩, by norm_num, by norm_num, by norm_num,
    ⟨3, fun fuel h => ?_⟩, ⟨3, fun fuel h => ?_⟩, by linarith⟩
  · obtain ⟨k, rfl⟩ := Nat.exists_eq_add_of_le' h; exact ha k
  · obtain ⟨k, rfl⟩ := Nat.exists_eq_add_of_le' h; exact hb k

/-- `log`, at the same arguments. -/
theorem C144_log_refuted (hr : RoundsToNearest ρ) :
    ∃ x y a b : ℝ, IsDouble x ∧ IsDouble y ∧ 1 < x ∧ x < y ∧ Gives (fun fuel => log ρ fuel x) (.val a) ∧
      Gives (fun fuel => log ρ fuel y) (.val b) ∧ b < a := by
  obtain ⟨a, b, h, ha, hb⟩ := log_drop hr
  refine ⟨545 / 512, 1091 / 1024, a, b, ⟨545, -9, by norm_num, by norm_num, by norm_num, by norm_num⟩,
    ⟨1091, -10, by norm_num, by norm_num, by norm_num, by norm_num⟩, by norm_num, by norm_num,
    ⟨3, fun fuel h => ?_⟩, ⟨3, fun fuel h => ?_⟩, h⟩
  · obtain ⟨k, rfl⟩ := Nat.exists_eq_add_of_le' h; exact ha k
  · obtain ⟨k, rfl⟩ := Nat.exists_eq_add_of_le' h; exact hb k

/-- `exp(-1) > exp(-65535/65536)`: the second is computed by the Taylor polynomial near -1, the first as a power
of `M_E`. -/
theorem C144_exp_refuted (hr : RoundsToNearest ρ) : Drops (fun _ => exp ρ) (-2) 0 := by
  obtain ⟨a, b, h, ha, hb⟩ := exp_drop hr
  refine ⟨-1, -(65535 / 65536), a, b, ⟨-1, 0, by norm_num, by norm_num, by norm_num, by norm_num⟩,
    ⟨-65535, -16, by norm_num, by norm_num, by norm_num, by norm_num⟩, by norm_num, by norm_num, by norm_num,
    ⟨0, fun _ _ => ha⟩, ⟨0, fun _ _ => hb⟩, h⟩

/-- `sin` drops at the tolerance 0.001, from where on the argument is reduced. -/
theorem C144_sin_refuted (hr : RoundsToNearest ρ) : Drops (sin ρ) 0 1 := by
  obtain ⟨x, a, b, dx, x0, hx, h, ha, hb⟩ := sin_drop hr
  have hu1 := u_lt
  norm_num at hu1
  have ht := (tol_bounds hr).2
  refine ⟨x, tol ρ, a, b, dx, hr.double _, x0, hx, by linarith, ⟨2, fun fuel h => ?_⟩, ⟨2, fun fuel h => ?_⟩, h⟩
  · obtain ⟨k, rfl⟩ := Nat.exists_eq_add_of_le' h; exact ha k
  · obtain ⟨k, rfl⟩ := Nat.exists_eq_add_of_le' h; exact hb k

/-- `atan(131071/131072) > atan(1)`: from 1 on the complement is used. -/
theorem C144_atan_refuted (hr : RoundsToNearest ρ) : Drops (atan ρ) 0 2 := by
  obtain ⟨a, b, h, ha, hb⟩ := atan_drop hr
  refine ⟨131071 / 131072, 1, a, b, ⟨131071, -17, by norm_num, by norm_num, by norm_num, by norm_num⟩,
    ⟨1, 0, by norm_num, by norm_num, by norm_num, by norm_num⟩, by norm_num, by norm_num, by norm_num,
    ⟨4, fun fuel h => ?_⟩, ⟨4, fun fuel h => ?_⟩, h⟩
  · obtain ⟨k, rfl⟩ := Nat.exists_eq_add_of_le' h; exact ha k
  · obtain ⟨k, rfl⟩ := Nat.exists_eq_add_of_le' h; exact hb k

/-- `cosh` drops where the square root in it does. -/
theorem C144_cosh_refuted (hr : RoundsToNearest ρ) : Drops (cosh ρ) 0 1 := by
  obtain ⟨a, b, h, ha, hb⟩ := cosh_drop hr
  exact ⟨515 / 2048, 2073 / 8192, a, b, ⟨515, -11, by norm_num, by norm_num, by norm_num, by norm_num⟩,
    ⟨2073, -13, by norm_num, by norm_num, by norm_num, by norm_num⟩, by norm_num, by norm_num, by norm_num,
    ⟨21, ha⟩, ⟨21, hb⟩, h⟩

/-- `floor(-1) = -1`, but `floor` of the next double is -2. -/
theorem C144_floor_refuted (hr : RoundsTiesEven ρ) : ∃ x y : ℝ, IsDouble x ∧ IsDouble y ∧ x < y ∧
    floor ρ x () = .ok (-1) () ∧ floor ρ y () = .ok (-2) () := by
  obtain ⟨v, dv, v1, -, hv⟩ := Cest.Cmath.Props.C66_floor_refuted (K := ℝ) hr
  refine ⟨-1, v, ⟨-1, 0, by norm_num, by norm_num, by norm_num, by norm_num⟩, dv, v1, ?_, hv⟩
  have t : trunc (-1 : ℝ) = -1 := by simpa using trunc_int (K := ℝ) (-1)
  have ok : toInt (-1 : ℝ) () = .ok (-1) () := by
    have := toInt_ok (x := (-1 : ℝ)) (by rw [t]; decide) (by rw [t]; decide)
    rwa [t] at this
  simp [floor, M.bind_apply, ok]

/-- `ceil` of the double before 1 is 2, but `ceil(1) = 1`. -/
theorem C144_ceil_refuted (hr : RoundsTiesEven ρ) : ∃ x y : ℝ, IsDouble x ∧ IsDouble y ∧ x < y ∧
    ceil ρ x () = .ok 2 () ∧ ceil ρ y () = .ok 1 () := by
  obtain ⟨v, dv, -, v1, hv⟩ := Cest.Cmath.Props.C66_ceil_refuted (K := ℝ) hr
  refine ⟨v, 1, dv, ⟨1, 0, by norm_num, by norm_num, by norm_num, by norm_num⟩, v1, hv, ?_⟩
  have t : trunc (1 : ℝ) = 1 := by simpa using trunc_int (K := ℝ) 1
  have ok : toInt (1 : ℝ) () = .ok 1 () := by
    have := toInt_ok (x := (1 : ℝ)) (by rw [t]; decide) (by rw [t]; decide)
    rwa [t] at this
  simp [ceil, M.bind_apply, ok]

/-! ### Order is preserved beyond the accuracy -/

theorem C144_sqrt_partial (hr : RoundsToNearest ρ) {x y : ℝ} (x1 : 1 / 2 ^ 1074 ≤ x) (hxy : x * (1003 / 1000) ≤ y)
    (y2 : y ≤ 2 ^ 960) :
    ∃ a b, Gives (fun fuel => sqrt ρ fuel x) a ∧ Gives (fun fuel => sqrt ρ fuel y) b ∧ a < b := by
  have x0 : 0 < x := lt_of_lt_of_le (by positivity) x1
  have hle : x ≤ y := by linarith
  obtain ⟨a, ha, -, a1⟩ := C105_sqrt hr x1 (hle.trans y2)
  obtain ⟨b, hb, -, b1⟩ := C105_sqrt hr (x1.trans hle) y2
  refine ⟨a, b, ha, hb, ?_⟩
  have s0 : 0 < Real.sqrt x := Real.sqrt_pos.mpr x0
  have s1 : Real.sqrt x * (10014 / 10000) ≤ Real.sqrt y := by
    apply Real.le_sqrt_of_sq_le
    rw [mul_pow, Real.sq_sqrt x0.le]
    refine le_trans ?_ hxy
    exact mul_le_mul_of_nonneg_left (by norm_num) x0.le
  generalize Real.sqrt x = s at *
  generalize Real.sqrt y = t at *
  rw [abs_le] at a1 b1
  clear x1 y2
  linarith

theorem C144_exp_partial (hr : RoundsToNearest ρ) {x y : ℝ} (hx : |x| ≤ 700) (hy : |y| ≤ 700)
    (hxy : x + 3 / 10000 ≤ y) : ∃ a b, exp ρ x () = .ok a () ∧ exp ρ y () = .ok b () ∧ a < b := by
  obtain ⟨a, ha, a1⟩ := C108_exp hr hx
  obtain ⟨b, hb, b1⟩ := C108_exp hr hy
  refine ⟨a, b, ha, hb, ?_⟩
  have e0 := Real.exp_pos x
  have e1 : Real.exp x * (10003 / 10000) ≤ Real.exp y := by
    refine le_trans ?_ (Real.exp_le_exp.mpr hxy)
    rw [Real.exp_add]
    have := Real.add_one_le_exp (3 / 10000 : ℝ)
    exact mul_le_mul_of_nonneg_left (by linarith) e0.le
  rw [abs_le] at a1 b1
  linarith

theorem C144_log_partial (hr : RoundsToNearest ρ) {x y : ℝ} (hx : IsDouble x) (hy : IsDouble y) (h0 : 0 < x)
    (hxy : x * (1003 / 1000) ≤ y) :
    ∃ a b, Gives (fun fuel => log ρ fuel x) (.val a) ∧ Gives (fun fuel => log ρ fuel y) (.val b) ∧ a < b := by
  have y0 : 0 < y := by linarith
  have k1 := log_double hx h0
  have k2 := log_double hy y0
  obtain ⟨a, ha, a1⟩ := C107_log hr hx h0
  obtain ⟨b, hb, b1⟩ := C107_log hr hy y0
  refine ⟨a, b, ha, hb, ?_⟩
  have l1 : Real.log x + Real.log (1003 / 1000) ≤ Real.log y := by
    rw [← Real.log_mul h0.ne' (by norm_num)]
    exact Real.log_le_log (by positivity) hxy
  have l2 := Real.one_sub_inv_le_log_of_pos (x := 1003 / 1000) (by norm_num)
  norm_num at l2
  rw [abs_le] at a1 b1
  linarith

theorem C144_sin_partial (hr : RoundsToNearest ρ) {x y : ℝ} (hx : |x| ≤ 2) (hy : |y| ≤ 2)
    (hxy : Real.sin x + 4 / 100000 ≤ Real.sin y) :
    ∃ a b, Gives (fun fuel => sin ρ fuel x) a ∧ Gives (fun fuel => sin ρ fuel y) b ∧ a < b := by
  have key : ∀ {x : ℝ}, |x| ≤ 2 → ∃ v, Gives (fun fuel => sin ρ fuel x) v ∧ |v - Real.sin x| ≤ 19 / 1000000 := by
    intro x hx
    obtain ⟨v, hv, v1⟩ := C106_sin hr (x := x) (by linarith)
    refine ⟨v, hv, v1.trans ?_⟩
    have := abs_nonneg x
    generalize |x| = z at *
    norm_num
    nlinarith
  obtain ⟨a, ha, a1⟩ := key hx
  obtain ⟨b, hb, b1⟩ := key hy
  refine ⟨a, b, ha, hb, ?_⟩
  rw [abs_le] at a1 b1
  linarith

theorem C144_atan_partial (hr : RoundsToNearest ρ) {x y : ℝ} (hxy : Real.arctan x + 1 / 10000 < Real.arctan y) :
    ∃ a b, Gives (fun fuel => atan ρ fuel x) a ∧ Gives (fun fuel => atan ρ fuel y) b ∧ a < b := by
  obtain ⟨a, ha, a1⟩ := C121_atan hr x
  obtain ⟨b, hb, b1⟩ := C121_atan hr y
  refine ⟨a, b, ha, hb, ?_⟩
  rw [abs_le] at a1 b1
  linarith

theorem C144_cosh_partial (hr : RoundsToNearest ρ) {x y : ℝ} (hx : |x| ≤ 100) (hy : |y| ≤ 100)
    (hxy : Real.cosh x * (1002 / 1000) ≤ Real.cosh y) :
    ∃ a b, Gives (fun fuel => cosh ρ fuel x) a ∧ Gives (fun fuel => cosh ρ fuel y) b ∧ a < b := by
  have key : ∀ {x : ℝ}, |x| ≤ 100 → ∃ v, Gives (fun fuel => cosh ρ fuel x) v ∧
      |v - Real.cosh x| ≤ 92 / 100000 * Real.cosh x := by
    intro x hx
    obtain ⟨v, hv, -, v1⟩ := C121_cosh hr (x := x) (by linarith)
    refine ⟨v, hv, v1.trans (mul_le_mul_of_nonneg_right ?_ (Real.cosh_pos x).le)⟩
    norm_num
    linarith
  obtain ⟨a, ha, a1⟩ := key hx
  obtain ⟨b, hb, b1⟩ := key hy
  have := Real.cosh_pos x
  refine ⟨a, b, ha, hb, ?_⟩
  rw [abs_le] at a1 b1
  linarith

/-! ### The hypotheses are met -/

/-- A rounding to nearest, and one with ties to even. -/
example : ∃ ρ : ℝ → ℝ, RoundsToNearest ρ ∧ RoundsTiesEven ρ := by
  obtain ⟨ρ, h⟩ := exists_roundsTiesEven (K := ℝ)
  exact ⟨ρ, h.toRoundsToNearest, h⟩

/-- `sinh` across the tolerance, and `pow` with a negative exponent. -/
example (hr : RoundsToNearest ρ) : ∃ a b, Gives (fun fuel => sinh ρ fuel 0) a ∧
    Gives (fun fuel => sinh ρ fuel 700) b ∧ a ≤ b :=
  C144_sinh hr (by norm_num) (by norm_num) (by norm_num)

example (hr : RoundsToNearest ρ) : ρ (1 / 3) ≤ ρ (1 / 2) :=
  (C144_pow_neg hr (x := 2) (y := 3) (n := -1) (by norm_num) (by norm_num) (by norm_num)
    (a := ρ (1 / 2)) (b := ρ (1 / 3)) (by simp [pow, int, intMin, intMax, powNN, fdiv])
    (by simp [pow, int, intMin, intMax, powNN, fdiv])).2

/-- `sqrt(2) < sqrt(3)`, `exp(1) < exp(2)`, `atan(0) < atan(1)`. -/
example (hr : RoundsToNearest ρ) : ∃ a b, Gives (fun fuel => sqrt ρ fuel 2) a ∧
    Gives (fun fuel => sqrt ρ fuel 3) b ∧ a < b :=
  C144_sqrt_partial hr
    (le_trans (div_le_one_of_le₀ (one_le_pow₀ (by norm_num)) (by positivity)) (by norm_num)) (by norm_num)
    (le_trans (by norm_num) (pow_le_pow_right₀ (by norm_num) (by norm_num : 2 ≤ 960)))

example (hr : RoundsToNearest ρ) : ∃ a b, exp ρ 1 () = .ok a () ∧ exp ρ 2 () = .ok b () ∧ a < b :=
  C144_exp_partial hr (by norm_num) (by norm_num) (by norm_num)

example (hr : RoundsToNearest ρ) : ∃ a b, Gives (fun fuel => atan ρ fuel 0) a ∧
    Gives (fun fuel => atan ρ fuel 1) b ∧ a < b :=
  C144_atan_partial hr (by
    rw [Real.arctan_zero, Real.arctan_one]
    have := Real.pi_gt_three
    linarith)

end Cest.Fp.Props
