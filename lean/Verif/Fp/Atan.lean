import Verif.Fp.Trig
import Verif.Cmath.Atan

/-! `atan` and `atan2` in binary64 arithmetic. -/
namespace Cest.Fp
open Cest Cest.Cmath

variable {ρ : ℝ → ℝ}

/-- The rounding error of a number of size at most one. -/
theorem err1 (hr : RoundsToNearest ρ) {x : ℝ} (h : |x| ≤ 1) : |ρ x - x| ≤ u := by
  have := err hr h le_rfl (by norm_num)
  linarith

theorem isDouble_nat {n : ℕ} (h : n ≤ 100) : IsDouble (n : ℝ) := by
  simpa using isDouble_int (K := ℝ) (k := n) (by norm_num; omega)

theorem three_div {s a e : ℝ} (a1 : 17 / 10 ≤ a) (h : |s - a| ≤ e) (he : e ≤ 1 / 100) :
    0 < s ∧ |3 / s - 3 / a| ≤ 11 / 10 * e := by
  obtain ⟨h1, h2⟩ := abs_le.mp h
  have s0 : 0 < s := by linarith
  have a0 : 0 < a := by linarith
  refine ⟨s0, ?_⟩
  have p : (3 : ℝ) ≤ 11 / 10 * (s * a) := by nlinarith
  rw [show 3 / s - 3 / a = (a - s) * (3 / (s * a)) by field_simp, abs_mul, abs_sub_comm,
    abs_of_pos (by positivity : (0 : ℝ) < 3 / (s * a)), mul_comm (11 / 10)]
  refine mul_le_mul h ?_ (by positivity) ((abs_nonneg _).trans h)
  rw [div_le_iff₀ (by positivity)]; exact p

theorem tol_mul (hr : RoundsToNearest ρ) {g : ℝ} (g1 : 1 ≤ g) (g2 : g ≤ 2) :
    |ρ (tol ρ * g) - 1 / 1000 * g| ≤ 2 * u := by
  have hu := u_pos
  have hu1 := u_lt
  norm_num at hu1
  obtain ⟨t1, t2⟩ := tol_bounds hr
  have a : tol ρ * g ≤ 1 := by nlinarith
  have a0 : 0 ≤ tol ρ * g := by nlinarith
  have := err1 hr (x := tol ρ * g) (by rw [abs_of_nonneg a0]; exact a)
  rw [abs_le] at this ⊢
  constructor <;> nlinarith

/-- The last iteration of sqrt(3). -/
theorem sqrt_three_last (hr : RoundsToNearest ρ) {s : ℝ} (sb : |s - 97 / 56| ≤ 11 * u) (fuel : ℕ) :
    sqrtHelper ρ (fuel + 1) 3 s () = .ok s () := by
  have hu := u_pos
  have hu1 := u_lt
  norm_num at hu1
  obtain ⟨s0, ds⟩ := three_div (by norm_num) sb (by linarith)
  norm_num at ds
  obtain ⟨sb1, sb2⟩ := abs_le.mp sb
  obtain ⟨ds1, ds2⟩ := abs_le.mp ds
  have e7 := err hr (x := 3 / s) (B := 2) (by rw [abs_le]; constructor <;> linarith) (by norm_num) (by norm_num)
  obtain ⟨e1, e2⟩ := abs_le.mp e7
  refine sqrtHelper_pass s0.ne' ?_ fuel
  have := err1 hr (x := s - ρ (3 / s)) (by rw [abs_le]; constructor <;> linarith)
  have h1 := (abs_le.mp this)
  have h2 := abs_le.mp (tol_mul hr (g := s) (by linarith) (by linarith))
  rw [abs_lt]
  constructor <;> linarith

/-- The iteration before. -/
theorem sqrt_three_third (hr : RoundsToNearest ρ) {g : ℝ} (gb : |g - 7 / 4| ≤ 5 * u) :
    ∃ s, |s - 97 / 56| ≤ 11 * u ∧ ∀ fuel, sqrtHelper ρ (fuel + 2) 3 g () = .ok s () := by
  have hu := u_pos
  have hu1 := u_lt
  norm_num at hu1
  obtain ⟨g0, dg⟩ := three_div (by norm_num) gb (by linarith)
  norm_num at dg
  have gb' := abs_le.mp gb
  have dg' := abs_le.mp dg
  have e4 := err hr (x := 3 / g) (B := 2) (by rw [abs_le]; constructor <;> linarith) (by norm_num) (by norm_num)
  have e4' := abs_le.mp e4
  set q := ρ (3 / g) with hq
  have n3 : ¬ |ρ (g - q)| < ρ (tol ρ * g) := by
    have := err1 hr (x := g - q) (by rw [abs_le]; constructor <;> linarith)
    have h1 := (abs_le.mp this)
    have h2 := abs_le.mp (tol_mul hr (g := g) (by linarith) (by linarith))
    rw [abs_of_pos (by linarith)]
    linarith
  have e5 := err hr (x := g + q) (B := 4) (by rw [abs_le]; constructor <;> linarith) (by norm_num) (by norm_num)
  have e5' := abs_le.mp e5
  have e6 := err hr (x := ρ (g + q) / 2) (B := 2) (by rw [abs_le]; constructor <;> linarith) (by norm_num)
    (by norm_num)
  have e6' := abs_le.mp e6
  have sb : |ρ (ρ (g + q) / 2) - 97 / 56| ≤ 11 * u := by rw [abs_le]; constructor <;> linarith
  refine ⟨ρ (ρ (g + q) / 2), sb, fun fuel => ?_⟩
  rw [sqrtHelper_next g0.ne' n3, ← hq]
  exact sqrt_three_last hr sb fuel

/-- The iteration of sqrt(3). -/
theorem sqrt_three_fp (hr : RoundsToNearest ρ) :
    ∃ s, |s - 97 / 56| ≤ 11 * u ∧ ∀ fuel, sqrt ρ (fuel + 4) (3 : ℝ) () = .ok s () := by
  have hu := u_pos
  have hu1 := u_lt
  norm_num at hu1
  obtain ⟨t1, t2⟩ := tol_bounds hr
  have r3 : ρ (3 / 1) = 3 := by
    rw [div_one]; exact hr.exact (by simpa using isDouble_nat (n := 3) (by norm_num))
  have r4 : ρ (1 + 3) = 4 := by
    rw [show (1 : ℝ) + 3 = 4 by norm_num]; exact hr.exact (by simpa using isDouble_nat (n := 4) (by norm_num))
  have r2 : ρ (4 / 2) = 2 := by
    rw [show (4 : ℝ) / 2 = 2 by norm_num]; exact hr.exact (by simpa using isDouble_nat (n := 2) (by norm_num))
  have q2 : |ρ (3 / 2) - 3 / 2| ≤ 2 * u := by
    have := err hr (x := 3 / 2) (B := 2) (by rw [abs_le]; constructor <;> norm_num) (by norm_num) (by norm_num)
    linarith
  -- first iteration
  have n1 : ¬ |ρ (1 - ρ (3 / 1))| < ρ (tol ρ * 1) := by
    rw [r3]
    have := err hr (x := 1 - 3) (B := 2) (by norm_num [abs_of_neg]) (by norm_num) (by norm_num)
    have h1 := (abs_le.mp this)
    have h2 := abs_le.mp (tol_mul hr (g := 1) le_rfl (by norm_num))
    rw [abs_of_neg (by linarith)]
    linarith
  have g1 : ρ (ρ (1 + ρ (3 / 1)) / 2) = 2 := by rw [r3, r4, r2]
  -- second iteration
  set p := ρ (3 / 2) with hp
  have q2' := abs_le.mp q2
  have n2 : ¬ |ρ (2 - p)| < ρ (tol ρ * 2) := by
    have := err1 hr (x := 2 - p) (by rw [abs_le]; constructor <;> linarith)
    have h1 := (abs_le.mp this)
    have h2 := abs_le.mp (tol_mul hr (g := 2) (by norm_num) le_rfl)
    rw [abs_of_pos (by linarith)]
    linarith
  have e2 := err hr (x := 2 + p) (B := 4) (by rw [abs_le]; constructor <;> linarith) (by norm_num) (by norm_num)
  have e2' := abs_le.mp e2
  have e3 := err hr (x := ρ (2 + p) / 2) (B := 2) (by rw [abs_le]; constructor <;> linarith) (by norm_num)
    (by norm_num)
  have e3' := abs_le.mp e3
  set g := ρ (ρ (2 + p) / 2) with hg
  have gb : |g - 7 / 4| ≤ 5 * u := by rw [abs_le]; constructor <;> linarith
  obtain ⟨s, s1, s2⟩ := sqrt_three_third hr gb
  refine ⟨s, s1, fun fuel => ?_⟩
  rw [sqrt, sqrtHelper_next one_ne_zero n1, g1, sqrtHelper_next two_ne_zero n2, ← hp, ← hg]
  exact s2 fuel

/-- Powers of a small number. -/
theorem powNN_small (hr : RoundsToNearest ρ) {y : ℝ} (hy : |y| ≤ 27 / 100) : ∀ n : ℕ,
    |powNN ρ y n - y ^ n| ≤ 2 * u
  | 0 => by simp [powNN, u_pos.le]
  | 1 => by simp [powNN, u_pos.le]
  | n + 2 => by
    have hu := u_pos
    have hu1 := u_lt
    norm_num at hu1
    have ih := powNN_small hr hy (n + 1)
    have h1 : |y ^ (n + 1)| ≤ 1 := by
      rw [abs_pow]; exact pow_le_one₀ (abs_nonneg y) (by linarith)
    set a := powNN ρ y (n + 1) with ha
    have e : powNN ρ y (n + 2) = ρ (y * a) := rfl
    have a1 : |a| ≤ 2 := by
      have := abs_sub_abs_le_abs_sub a (y ^ (n + 1))
      linarith
    have b : |y * a| ≤ 1 := by
      rw [abs_mul]
      have := mul_le_mul hy a1 (abs_nonneg a) (by norm_num)
      linarith
    have e1 := err1 hr b
    have e2 : |y * a - y ^ (n + 2)| ≤ 27 / 100 * (2 * u) := by
      rw [show y * a - y ^ (n + 2) = y * (a - y ^ (n + 1)) by ring, abs_mul]
      exact mul_le_mul hy ih (abs_nonneg _) (by norm_num)
    rw [e]
    have := abs_sub_le (ρ (y * a)) (y * a) (y ^ (n + 2))
    linarith

theorem atan_pow_ok (y : ℝ) {k : ℤ} (h : 0 ≤ k) : pow ρ y k () = .ok (powNN ρ y k.toNat) () := by
  rw [pow, if_neg (not_lt.mpr h)]; rfl

theorem atanPolyHelper_pass {res : ℝ} (h : res < tol ρ) (num den delta : ℝ) (fuel : ℕ) :
    atanPolyHelper ρ (fuel + 1) res num den delta () = .ok res () := by
  rw [atanPolyHelper]
  exact congrFun (if_pos h) ()

theorem atanPolyHelper_next {res num den delta : ℝ} (h : ¬ res < tol ρ) (d0 : den ≠ 0) (d2 : ρ (den + 2) ≠ 0)
    (h2 : ρ (ρ (ρ (num * delta) / ρ (den + 2)) - ρ (num / den)) < tol ρ) (fuel : ℕ) :
    atanPolyHelper ρ (fuel + 2) res num den delta () =
      .ok (ρ (res + ρ (ρ (ρ (num * delta) / ρ (den + 2)) - ρ (num / den)))) () := by
  rw [atanPolyHelper]
  refine (congrFun (if_neg h) ()).trans ?_
  simp only [M.bind_apply, fmul, fadd, fsub, fdiv_ok d0, fdiv_ok d2, atanPolyHelper_pass h2, M.pure_apply]

/-- The fourth and fifth terms. -/
theorem atan_terms (hr : RoundsToNearest ρ) {y a7 : ℝ} (hy : |y| ≤ 27 / 100) (p7 : |a7 - y ^ 7| ≤ 2 * u) :
    |ρ (ρ (ρ (a7 * ρ (y * y)) / 9) - ρ (a7 / 7)) - (y ^ 9 / 9 - y ^ 7 / 7)| ≤ 6 * u := by
  have hu := u_pos
  have hu1 := u_lt
  norm_num at hu1
  have y7 : |y ^ 7| ≤ 2 / 10000 := by
    rw [abs_pow]; exact (pow_le_pow_left₀ (abs_nonneg y) hy 7).trans (by norm_num)
  have y9 : |y ^ 9| ≤ 2 / 100000 := by
    rw [abs_pow]; exact (pow_le_pow_left₀ (abs_nonneg y) hy 9).trans (by norm_num)
  have hy' := abs_le.mp hy
  have yy0 : 0 ≤ y * y := mul_self_nonneg y
  have yy1 : y * y ≤ 729 / 10000 := by nlinarith
  have fy := err1 hr (x := y * y) (by rw [abs_le]; constructor <;> linarith)
  generalize ρ (y * y) = d at *
  have d1 : |d| ≤ 1 / 10 := by
    have := abs_sub_abs_le_abs_sub d (y * y)
    rw [abs_of_nonneg yy0] at this
    linarith
  have ad : |a7 * d - y ^ 9| ≤ 3 * u := by
    rw [show a7 * d - y ^ 9 = (a7 - y ^ 7) * d + y ^ 7 * (d - y * y) by ring]
    refine (abs_add_le _ _).trans ?_
    rw [abs_mul, abs_mul]
    have k1 := mul_le_mul p7 d1 (abs_nonneg d) (by linarith)
    have k2 := mul_le_mul y7 fy (abs_nonneg _) (by norm_num)
    linarith
  rw [abs_le] at y7 y9 p7 ad
  clear fy hy hy' d1 yy0 yy1
  have g1 := abs_le.mp (err1 hr (x := a7 * d) (by rw [abs_le]; constructor <;> linarith))
  generalize ρ (a7 * d) = m at *
  have g2 := abs_le.mp (err1 hr (x := m / 9) (by rw [abs_le]; constructor <;> linarith))
  have g3 := abs_le.mp (err1 hr (x := a7 / 7) (by rw [abs_le]; constructor <;> linarith))
  generalize ρ (m / 9) = c9 at *
  generalize ρ (a7 / 7) = c7 at *
  have g4 := abs_le.mp (err1 hr (x := c9 - c7) (by rw [abs_le]; constructor <;> linarith))
  rw [abs_le]
  constructor <;> linarith

theorem atanPoly_fp (hr : RoundsToNearest ρ) {y : ℝ} (hy : |y| ≤ 27 / 100) :
    ∃ v, (∀ fuel, atanPoly ρ (fuel + 2) y () = .ok v ()) ∧ |v - Real.arctan y| ≤ 175 / 10 ^ 7 := by
  have hu := u_pos
  have hu1 := u_lt
  norm_num at hu1
  obtain ⟨t1, t2⟩ := tol_bounds hr
  have hp : ∀ fuel h, atanPolyHelper ρ (fuel + 2) (ρ (ρ (powNN ρ y 5 / 5) - ρ (powNN ρ y 3 / 3))) (powNN ρ y 7) 7
      (ρ (y * y)) () = .ok h () → atanPoly ρ (fuel + 2) y () = .ok (ρ (y + h)) () := by
    intro fuel h e
    simp only [atanPoly, M.bind_apply, atan_pow_ok y (by norm_num : (0 : ℤ) ≤ 3),
      atan_pow_ok y (by norm_num : (0 : ℤ) ≤ 5), atan_pow_ok y (by norm_num : (0 : ℤ) ≤ 7),
      fdiv_ok (by norm_num : (3 : ℝ) ≠ 0), fdiv_ok (by norm_num : (5 : ℝ) ≠ 0), fsub, fmul, fadd,
      M.pure_apply]
    erw [e]
  have p3 := abs_le.mp (powNN_small hr hy 3)
  have p5 := abs_le.mp (powNN_small hr hy 5)
  have p7 := abs_le.mp (powNN_small hr hy 7)
  generalize powNN ρ y 3 = a3 at *
  generalize powNN ρ y 5 = a5 at *
  generalize powNN ρ y 7 = a7 at *
  have y3 : |y ^ 3| ≤ 2 / 100 := by
    rw [abs_pow]; exact (pow_le_pow_left₀ (abs_nonneg y) hy 3).trans (by norm_num)
  have y5 : |y ^ 5| ≤ 2 / 1000 := by
    rw [abs_pow]; exact (pow_le_pow_left₀ (abs_nonneg y) hy 5).trans (by norm_num)
  have y7 : |y ^ 7| ≤ 2 / 10000 := by
    rw [abs_pow]; exact (pow_le_pow_left₀ (abs_nonneg y) hy 7).trans (by norm_num)
  have y9 : |y ^ 9| ≤ 2 / 100000 := by
    rw [abs_pow]; exact (pow_le_pow_left₀ (abs_nonneg y) hy 9).trans (by norm_num)
  have k3 := arctan_tail hy (n := 3) le_rfl
  have k5 := arctan_tail hy (n := 5) (by norm_num)
  simp only [Finset.sum_range_succ, Finset.sum_range_zero] at k3 k5
  norm_num at k3 k5
  rw [abs_le] at y3 y5 y7 y9 k3 k5
  have hy' := abs_le.mp hy
  have f5 := abs_le.mp (err1 hr (x := a5 / 5) (by rw [abs_le]; constructor <;> linarith))
  have f3 := abs_le.mp (err1 hr (x := a3 / 3) (by rw [abs_le]; constructor <;> linarith))
  generalize ρ (a5 / 5) = b5 at *
  generalize ρ (a3 / 3) = b3 at *
  have fr := abs_le.mp (err1 hr (x := b5 - b3) (by rw [abs_le]; constructor <;> linarith))
  generalize ρ (b5 - b3) = res at *
  by_cases h : res < tol ρ
  · have fv := abs_le.mp (err1 hr (x := y + res) (by rw [abs_le]; constructor <;> linarith))
    refine ⟨ρ (y + res), fun fuel => hp fuel res (atanPolyHelper_pass h _ _ _ _), ?_⟩
    norm_num
    rw [abs_le]
    constructor <;> linarith
  · have r9 : ρ (7 + 2) = 9 := by
      rw [show (7 : ℝ) + 2 = 9 by norm_num]; exact hr.exact (by simpa using isDouble_nat (n := 9) (by norm_num))
    have g4 := abs_le.mp (atan_terms hr hy (abs_le.mpr p7))
    have hx := atanPolyHelper_next (ρ := ρ) (num := a7) (den := 7) (delta := ρ (y * y)) h (by norm_num)
      (by rw [r9]; norm_num)
    rw [r9] at hx
    generalize ρ (ρ (ρ (a7 * ρ (y * y)) / 9) - ρ (a7 / 7)) = res2 at *
    clear p7
    have hx := hx (by linarith)
    have g5 := abs_le.mp (err1 hr (x := res + res2) (by rw [abs_le]; constructor <;> linarith))
    generalize hw : ρ (res + res2) = w at *
    have fv := abs_le.mp (err1 hr (x := y + w) (by rw [abs_le]; constructor <;> linarith))
    refine ⟨ρ (y + w), fun fuel => hp fuel w (hx fuel), ?_⟩
    norm_num
    rw [abs_le]
    constructor <;> linarith

theorem arctan_lip (a b : ℝ) : |Real.arctan a - Real.arctan b| ≤ |a - b| := by
  have key : ∀ a b : ℝ, a ≤ b → Real.arctan b - Real.arctan a ≤ b - a := by
    intro a b h
    have hm : Monotone (fun t : ℝ => t - Real.arctan t) := by
      apply monotone_of_deriv_nonneg
      · exact differentiable_id.sub Real.differentiable_arctan
      · intro x
        have := ((hasDerivAt_id x).sub (Real.hasDerivAt_arctan x)).deriv
        rw [show (fun t : ℝ => t - Real.arctan t) = id - Real.arctan from rfl, this]
        have : 1 / (1 + x ^ 2) ≤ 1 := by
          rw [div_le_one (by positivity)]; nlinarith [sq_nonneg x]
        linarith
    have := hm h
    simp only at this
    linarith
  rcases le_total a b with h | h
  · have := Real.arctan_strictMono.monotone h
    rw [abs_sub_comm, abs_of_nonneg (by linarith), abs_sub_comm, abs_of_nonneg (by linarith)]
    exact key a b h
  · have := Real.arctan_strictMono.monotone h
    rw [abs_of_nonneg (by linarith), abs_of_nonneg (by linarith)]
    exact key b a h

/-- The quotient in the identity. -/
theorem atan_quot (hr : RoundsToNearest ρ) {x s : ℝ} (hs : |s - 97 / 56| ≤ 11 * u) (h0 : 267 / 1000 ≤ x) (h1 : x ≤ 1) :
    ρ (s + x) ≠ 0 ∧ |ρ (ρ (ρ (s * x) - 1) / ρ (s + x)) - (97 / 56 * x - 1) / (97 / 56 + x)| ≤ 20 * u := by
  have hu := u_pos
  have hu1 := u_lt
  norm_num at hu1
  have hs' := abs_le.mp hs
  have sx : |s * x - 97 / 56 * x| ≤ 11 * u := by
    rw [← sub_mul, abs_mul, abs_of_nonneg (by linarith : 0 ≤ x)]
    have := mul_le_mul hs h1 (by linarith) (by linarith)
    linarith
  have sx' := abs_le.mp sx
  have e1 := abs_le.mp (err hr (x := s * x) (B := 2) (by rw [abs_le]; constructor <;> linarith) (by norm_num)
    (by norm_num))
  generalize ρ (s * x) = a at *
  have e2 := abs_le.mp (err1 hr (x := a - 1) (by rw [abs_le]; constructor <;> linarith))
  have e3 := abs_le.mp (err hr (x := s + x) (B := 4) (by rw [abs_le]; constructor <;> linarith) (by norm_num)
    (by norm_num))
  generalize ρ (a - 1) = n at *
  generalize ρ (s + x) = d at *
  have dn : |n - (97 / 56 * x - 1)| ≤ 14 * u := by rw [abs_le]; constructor <;> linarith
  have dd : |97 / 56 + x - d| ≤ 15 * u := by rw [abs_le]; constructor <;> linarith
  have d1 : 19 / 10 ≤ d := by linarith
  have d0 : 0 < d := by linarith
  have D1 : 19 / 10 ≤ 97 / 56 + x := by linarith
  have n1 : |97 / 56 * x - 1| ≤ 1 := by rw [abs_le]; constructor <;> linarith
  have hn : |n| ≤ 3 / 4 := by rw [abs_le]; constructor <;> linarith
  clear e1 e2 e3 sx sx' hs'
  generalize 97 / 56 * x - 1 = N at *
  generalize 97 / 56 + x = D at *
  have D0 : 0 < D := by linarith
  have q : |n / d - N / D| ≤ 19 * u := by
    have e : n / d - N / D = (n - N) / d + N * (D - d) / (d * D) := by field_simp; ring
    rw [e]
    refine (abs_add_le _ _).trans ?_
    rw [abs_div, abs_div, abs_mul, abs_of_pos d0, abs_of_pos (mul_pos d0 D0)]
    have k1 : |n - N| / d ≤ 14 * u := by rw [div_le_iff₀ d0]; nlinarith
    have k2 : |N| * |D - d| / (d * D) ≤ 5 * u := by
      rw [div_le_iff₀ (mul_pos d0 D0)]
      have a1 := mul_le_mul n1 dd (abs_nonneg _) (by norm_num)
      have a2 : 36 / 10 ≤ d * D := by nlinarith
      nlinarith
    linarith
  refine ⟨d0.ne', ?_⟩
  have b : |n / d| ≤ 1 := by rw [abs_div, abs_of_pos d0, div_le_one d0]; linarith
  have := err1 hr b
  have := abs_sub_le (ρ (n / d)) (n / d) (N / D)
  linarith

theorem atanIdentity_fp (hr : RoundsToNearest ρ) {x : ℝ} (h0 : 0 ≤ x) (h1 : x ≤ 1) :
    ∃ v, (∀ fuel, atanIdentity ρ (fuel + 4) x () = .ok v ()) ∧ |v - Real.arctan x| ≤ 49 / 1000000 := by
  have hu := u_pos
  have hu1 := u_lt
  norm_num at hu1
  obtain ⟨s, hs, hf⟩ := sqrt_three_fp hr
  have hs' := abs_le.mp hs
  have e0 := abs_le.mp (err1 hr (x := 2 - s) (by rw [abs_le]; constructor <;> linarith))
  by_cases h : x ≤ ρ (2 - s)
  · obtain ⟨v, a1, a2⟩ := atanPoly_fp hr (y := x) (by rw [abs_of_nonneg h0]; linarith)
    norm_num at a2
    refine ⟨v, fun fuel => ?_, by linarith⟩
    rw [atanIdentity, M.bind_apply, hf]
    exact (congrFun (if_pos h) ()).trans (a1 (fuel + 2))
  · have hx : 267 / 1000 ≤ x := by linarith [not_le.mp h]
    have hd : 0 < 97 / 56 + x := by linarith
    obtain ⟨q1, q2⟩ := atan_quot hr hs hx h1
    have y0 : |(97 / 56 * x - 1) / (97 / 56 + x)| ≤ 269 / 1000 := by
      rw [abs_div, abs_of_pos hd, div_le_iff₀ hd, abs_le]
      constructor <;> nlinarith
    have hat : Real.arctan x = Real.arctan (56 / 97) + Real.arctan ((97 / 56 * x - 1) / (97 / 56 + x)) := by
      have := Real.arctan_add (x := x) (y := -(56 / 97)) (by nlinarith)
      rw [Real.arctan_neg] at this
      have e : (x + -(56 / 97)) / (1 - x * -(56 / 97)) = (97 / 56 * x - 1) / (97 / 56 + x) := by
        rw [div_eq_div_iff (by nlinarith) hd.ne']; ring
      rw [e] at this
      linarith
    set y := ρ (ρ (ρ (s * x) - 1) / ρ (s + x)) with hy
    have lip := arctan_lip y ((97 / 56 * x - 1) / (97 / 56 + x))
    generalize (97 / 56 * x - 1) / (97 / 56 + x) = z at *
    obtain ⟨v, a1, a2⟩ := atanPoly_fp hr (y := y) (by
      have := abs_sub_abs_le_abs_sub y z
      linarith)
    norm_num at a2
    obtain ⟨-, p2⟩ := mPi_fp hr
    norm_num at p2
    have p2' := abs_le.mp p2
    have hb := arctan_sixth
    have pg := Real.pi_gt_three
    have pl := Real.pi_lt_d2
    norm_num at pl
    have e1 := abs_le.mp (err1 hr (x := mPi2 ρ / 3) (by rw [abs_le]; constructor <;> linarith))
    have vb : |v| ≤ 4 / 10 := by
      have k1 := abs_sub_abs_le_abs_sub v (Real.arctan y)
      have k2 := arctan_lip y 0
      rw [Real.arctan_zero, sub_zero, sub_zero] at k2
      have := abs_sub_abs_le_abs_sub y z
      linarith
    have vb' := abs_le.mp vb
    have e2 := abs_le.mp (err1 hr (x := ρ (mPi2 ρ / 3) + v) (by rw [abs_le]; constructor <;> linarith))
    refine ⟨ρ (ρ (mPi2 ρ / 3) + v), fun fuel => ?_, ?_⟩
    · rw [atanIdentity, M.bind_apply, hf]
      refine (congrFun (if_neg h) ()).trans ?_
      simp only [M.bind_apply, fdiv_ok (by norm_num : (3 : ℝ) ≠ 0), hf, fadd, fsub, fmul,
        fdiv_ok q1, ← hy, a1 (fuel + 2), M.pure_apply]
    · have q3 := lip.trans q2
      rw [hat]
      clear hs hs' e0 h hx hd q1 q2 y0 hat lip vb vb' p2
      rw [abs_le] at *
      constructor <;> linarith

theorem atan_fp (hr : RoundsToNearest ρ) (x : ℝ) :
    ∃ v, (∀ fuel, atan ρ (fuel + 4) x () = .ok v ()) ∧ |v - Real.arctan x| ≤ 1 / 20000 := by
  have hu := u_pos
  have hu1 := u_lt
  norm_num at hu1
  have key : ∀ x : ℝ, 0 ≤ x → ∃ v, (∀ fuel, atanCmplmntry ρ (fuel + 4) x () = .ok v ()) ∧
      |v - Real.arctan x| ≤ 1 / 20000 := by
    intro x hx
    by_cases h : x < 1
    · obtain ⟨v, a1, a2⟩ := atanIdentity_fp hr hx h.le
      refine ⟨v, fun fuel => ?_, by linarith⟩
      rw [atanCmplmntry, if_pos h]; exact a1 fuel
    · have hx1 : 1 ≤ x := not_lt.mp h
      have hx0 : 0 < x := by linarith
      have i0 : 0 ≤ 1 / x := by positivity
      have i1 : 1 / x ≤ 1 := by rw [div_le_one hx0]; exact hx1
      have r0 : 0 ≤ ρ (1 / x) := hr.ge_of_ge isDouble_zero i0
      have r1 : ρ (1 / x) ≤ 1 := hr.le_of_le (by simpa using isDouble_nat (n := 1) (by norm_num)) i1
      have re := err1 hr (x := 1 / x) (by rw [abs_of_nonneg i0]; exact i1)
      obtain ⟨v, a1, a2⟩ := atanIdentity_fp hr r0 r1
      have lip := (arctan_lip (ρ (1 / x)) (1 / x)).trans re
      have e : Real.arctan (1 / x) = Real.pi / 2 - Real.arctan x := by
        rw [one_div, Real.arctan_inv_of_pos hx0]
      rw [e] at lip
      obtain ⟨-, p2⟩ := mPi_fp hr
      norm_num at p2
      have l1 := Real.neg_pi_div_two_lt_arctan x
      have l2 := Real.arctan_lt_pi_div_two x
      have l3 : 0 ≤ Real.arctan x := by
        rw [← Real.arctan_zero]; exact Real.arctan_strictMono.monotone hx0.le
      have pl := Real.pi_lt_d2
      norm_num at pl
      rw [abs_le] at a2 lip p2
      have e2 := abs_le.mp (err hr (x := mPi2 ρ - v) (B := 2) (by rw [abs_le]; constructor <;> linarith)
        (by norm_num) (by norm_num))
      refine ⟨ρ (mPi2 ρ - v), fun fuel => ?_, ?_⟩
      · rw [atanCmplmntry, if_neg h]
        simp only [M.bind_apply, fdiv_ok hx0.ne', a1, M.pure_apply, fsub]
      · rw [abs_le]
        constructor <;> linarith
  by_cases hx : 0 ≤ x
  · obtain ⟨v, a1, a2⟩ := key x hx
    refine ⟨v, fun fuel => ?_, a2⟩
    rw [atan, if_pos hx]; exact a1 fuel
  · have hx' : x < 0 := not_le.mp hx
    obtain ⟨v, a1, a2⟩ := key (-x) (by linarith)
    refine ⟨-v, fun fuel => ?_, ?_⟩
    · rw [atan, if_neg hx]
      simp only [M.bind_apply, a1, M.pure_apply]
    · rw [Real.arctan_neg] at a2
      rw [abs_le] at *
      constructor <;> linarith

/-- Rounding the argument of `arctan`. -/
theorem arctan_round (hr : RoundsToNearest ρ) {t : ℝ} (ht : |t| ≤ 2 ^ 1023) :
    |Real.arctan (ρ t) - Real.arctan t| ≤ 2 * u := by
  have hu := u_pos
  have hu1 := u_lt
  norm_num at hu1
  by_cases h : |t| ≤ 1
  · have := (arctan_lip (ρ t) t).trans (err1 hr h)
    linarith
  · have h' := not_le.mp h
    have hn : 1 / 2 ^ 1022 ≤ |t| := by
      refine le_trans ?_ h'.le
      rw [div_le_one (by positivity)]; exact one_le_pow₀ (by norm_num)
    obtain ⟨θ, e, k1, k2⟩ := rel_factor hr hn ht
    have θ0 : 0 < θ := by linarith
    have gen : ∀ s : ℝ, 1 < s → |Real.arctan (s * θ) - Real.arctan s| ≤ 2 * u := by
      intro s hs
      have s0 : 0 < s := by linarith
      have a1 := Real.arctan_inv_of_pos s0
      have a2 := Real.arctan_inv_of_pos (mul_pos s0 θ0)
      have lip := arctan_lip (s⁻¹) ((s * θ)⁻¹)
      rw [a1, a2] at lip
      have e : s⁻¹ - (s * θ)⁻¹ = (θ - 1) / (s * θ) := by field_simp
      have : |s⁻¹ - (s * θ)⁻¹| ≤ 2 * u := by
        rw [e, abs_div, abs_of_pos (mul_pos s0 θ0), div_le_iff₀ (mul_pos s0 θ0)]
        have b1 : |θ - 1| ≤ u := by rw [abs_le]; constructor <;> linarith
        have b2 : 1 / 2 ≤ s * θ := by nlinarith
        nlinarith
      rw [show Real.pi / 2 - Real.arctan s - (Real.pi / 2 - Real.arctan (s * θ)) =
        Real.arctan (s * θ) - Real.arctan s by ring] at lip
      exact lip.trans this
    rw [e]
    rcases le_total 0 t with hs | hs
    · rw [abs_of_nonneg hs] at h'
      exact gen t h'
    · rw [abs_of_nonpos hs] at h'
      have := gen (-t) h'
      rw [neg_mul, Real.arctan_neg, Real.arctan_neg] at this
      rw [← abs_neg]
      convert this using 2; ring

theorem arg_of_polar {x y θ : ℝ} (h : ¬ (x = 0 ∧ y = 0)) (h3 : -Real.pi < θ) (h4 : θ ≤ Real.pi)
    (h5 : x = Real.sqrt (x ^ 2 + y ^ 2) * Real.cos θ) (h6 : y = Real.sqrt (x ^ 2 + y ^ 2) * Real.sin θ) :
    Complex.arg ⟨x, y⟩ = θ := by
  have hr : 0 < Real.sqrt (x ^ 2 + y ^ 2) := by
    apply Real.sqrt_pos.mpr
    by_contra hc
    exact h ⟨by nlinarith [sq_nonneg x, sq_nonneg y], by nlinarith [sq_nonneg x, sq_nonneg y]⟩
  have e : (⟨x, y⟩ : ℂ) = (Real.sqrt (x ^ 2 + y ^ 2) : ℝ) * (Complex.cos θ + Complex.sin θ * Complex.I) := by
    apply Complex.ext
    · simp [Complex.cos_ofReal_re, Complex.sin_ofReal_re, Complex.sin_ofReal_im]; exact h5
    · simp [Complex.cos_ofReal_im, Complex.sin_ofReal_re]; exact h6
  rw [e, Complex.arg_mul_cos_add_sin_mul_I hr ⟨h3, h4⟩]

theorem arg_right {x y : ℝ} (hx : 0 < x) : Complex.arg ⟨x, y⟩ = Real.arctan (y / x) := by
  obtain ⟨c, s⟩ := polar_of_arctan (y := y) hx.ne'
  rw [abs_of_pos hx] at c s
  have l1 := Real.neg_pi_div_two_lt_arctan (y / x)
  have l2 := Real.arctan_lt_pi_div_two (y / x)
  refine arg_of_polar (fun h => hx.ne' h.1) (by linarith [Real.pi_pos]) (by linarith [Real.pi_pos]) c ?_
  rw [← s]; field_simp

theorem arg_left {x y : ℝ} (hx : x < 0) :
    Complex.arg ⟨x, y⟩ = Real.arctan (y / x) + if 0 ≤ y then Real.pi else -Real.pi := by
  obtain ⟨c, s⟩ := polar_of_arctan (y := y) hx.ne
  rw [abs_of_neg hx] at c s
  have l1 := Real.neg_pi_div_two_lt_arctan (y / x)
  have l2 := Real.arctan_lt_pi_div_two (y / x)
  have pp := Real.pi_pos
  have s' : y = Real.sqrt (x ^ 2 + y ^ 2) * -Real.sin (Real.arctan (y / x)) := by
    have : -x * (y / x) = -y := by rw [neg_mul, mul_div_cancel₀ _ hx.ne]
    linarith
  have c' : x = Real.sqrt (x ^ 2 + y ^ 2) * -Real.cos (Real.arctan (y / x)) := by linarith
  by_cases hy : 0 ≤ y
  · have l3 : Real.arctan (y / x) ≤ 0 := by
      rw [← Real.arctan_zero]
      exact Real.arctan_strictMono.monotone (div_nonpos_of_nonneg_of_nonpos hy hx.le)
    rw [if_pos hy]
    refine arg_of_polar (fun h => hx.ne h.1) (by linarith) (by linarith) ?_ ?_
    · rw [Real.cos_add_pi]; exact c'
    · rw [Real.sin_add_pi]; exact s'
  · have l3 : 0 < Real.arctan (y / x) := by
      rw [← Real.arctan_zero]
      exact Real.arctan_strictMono (div_pos_of_neg_of_neg (not_le.mp hy) hx)
    rw [if_neg hy]
    refine arg_of_polar (fun h => hx.ne h.1) (by linarith) (by linarith) ?_ ?_
    · rw [← sub_eq_add_neg, Real.cos_sub_pi]; exact c'
    · rw [← sub_eq_add_neg, Real.sin_sub_pi]; exact s'

/-- `atan2` in binary64 arithmetic: the argument of the complex number. -/
theorem atan2_fp (hr : RoundsToNearest ρ) {y x : ℝ} (h : ¬ (x = 0 ∧ y = 0)) (hq : |y| ≤ 2 ^ 1023 * |x| ∨ x = 0) :
    ∃ v, Gives (fun fuel => atan2 ρ fuel y x) v ∧ |v - Complex.arg ⟨x, y⟩| ≤ 1 / 19000 := by
  have hu := u_pos
  have hu1 := u_lt
  norm_num at hu1
  obtain ⟨p1, p2⟩ := mPi_fp hr
  norm_num at p1 p2
  rw [abs_le] at p1 p2
  have pg := Real.pi_gt_three
  have pl := Real.pi_lt_d2
  norm_num at pl
  rcases lt_trichotomy x 0 with hx | rfl | hx
  · have ht : |y / x| ≤ 2 ^ 1023 := by
      rw [abs_div, div_le_iff₀ (abs_pos.mpr hx.ne)]
      exact hq.resolve_right hx.ne
    obtain ⟨v, hv, he⟩ := atan_fp hr (ρ (y / x))
    have hb := abs_le.mp (arctan_round hr ht)
    have l1 := Real.neg_pi_div_two_lt_arctan (y / x)
    have l2 := Real.arctan_lt_pi_div_two (y / x)
    rw [abs_le] at he
    clear ht hq
    rw [arg_left hx]
    by_cases hy : 0 ≤ y
    · have e2 := abs_le.mp (err hr (x := v + mPi ρ) (B := 8) (by rw [abs_le]; constructor <;> linarith)
        (by norm_num) (by norm_num))
      refine ⟨ρ (v + mPi ρ), ⟨4, fun fuel hf => ?_⟩, ?_⟩
      · obtain ⟨k, rfl⟩ : ∃ k, fuel = k + 4 := ⟨fuel - 4, by omega⟩
        simp only [atan2, if_neg (not_lt.mpr hx.le), if_pos (And.intro hy hx),
          M.bind_apply, fdiv_ok hx.ne, hv, M.pure_apply, fadd]
      · rw [if_pos hy, abs_le]; constructor <;> linarith
    · have e2 := abs_le.mp (err hr (x := v - mPi ρ) (B := 8) (by rw [abs_le]; constructor <;> linarith)
        (by norm_num) (by norm_num))
      refine ⟨ρ (v - mPi ρ), ⟨4, fun fuel hf => ?_⟩, ?_⟩
      · obtain ⟨k, rfl⟩ : ∃ k, fuel = k + 4 := ⟨fuel - 4, by omega⟩
        simp only [atan2, if_neg (not_lt.mpr hx.le), if_neg (fun h : 0 ≤ y ∧ x < 0 => hy h.1),
          if_pos (And.intro (not_le.mp hy) hx),
          M.bind_apply, fdiv_ok hx.ne, hv, M.pure_apply, fsub]
      · rw [if_neg hy, abs_le]; constructor <;> linarith
  · rcases lt_trichotomy y 0 with hy | rfl | hy
    · refine ⟨-(mPi2 ρ), ⟨0, fun fuel _ => ?_⟩, ?_⟩
      · simp [atan2, hy, not_lt.mpr hy.le]
      · rw [arg_of_polar (θ := -(Real.pi / 2)) h (by linarith) (by linarith) (by simp)
          (by simp [Real.sqrt_sq_eq_abs, abs_of_neg hy])]
        rw [abs_le]; constructor <;> linarith
    · exact absurd ⟨rfl, rfl⟩ h
    · refine ⟨mPi2 ρ, ⟨0, fun fuel _ => ?_⟩, ?_⟩
      · simp [atan2, hy, hy.le, not_lt.mpr hy.le]
      · rw [arg_of_polar (θ := Real.pi / 2) h (by linarith) (by linarith) (by simp)
          (by simp [Real.sqrt_sq_eq_abs, abs_of_pos hy])]
        rw [abs_le]; constructor <;> linarith
  · have ht : |y / x| ≤ 2 ^ 1023 := by
      rw [abs_div, div_le_iff₀ (abs_pos.mpr hx.ne')]
      exact hq.resolve_right hx.ne'
    obtain ⟨v, hv, he⟩ := atan_fp hr (ρ (y / x))
    have hb := abs_le.mp (arctan_round hr ht)
    clear ht hq
    rw [abs_le] at he
    rw [arg_right hx]
    refine ⟨v, ⟨4, fun fuel hf => ?_⟩, ?_⟩
    · obtain ⟨k, rfl⟩ : ∃ k, fuel = k + 4 := ⟨fuel - 4, by omega⟩
      simp only [atan2, if_pos hx, M.bind_apply, fdiv_ok hx.ne', hv]
    · rw [abs_le]; constructor <;> linarith

end Cest.Fp
