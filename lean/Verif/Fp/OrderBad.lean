import Verif.Fp.Order

/-! Lemmas for C144: what the elementary functions compute near the arguments where they decrease. -/

namespace Cest.Fp
open Cest Cest.Cmath

variable {ρ : ℝ → ℝ}

theorem err2 (hr : RoundsToNearest ρ) {x : ℝ} (h : |x| ≤ 3) : |ρ x - x| ≤ 3 * u := by
  have := err hr h (by norm_num) (by norm_num)
  linarith

/-- The stopping test of `sqrt_helper`, close to 1. -/
theorem near_pass (hr : RoundsToNearest ρ) {g p : ℝ} (g1 : 1 ≤ g) (g2 : g ≤ 2) (p1 : 0 ≤ p) (p2 : p ≤ 2)
    (h : |g - p| ≤ 9999 / 10000000 * g) : |ρ (g - ρ p)| < ρ (tol ρ * g) := by
  have hu := u_pos
  have hu1 := u_lt
  norm_num at hu1
  have a := abs_le.mp (tol_mul hr g1 g2)
  have b := abs_le.mp (err2 hr (x := p) (by rw [abs_le]; constructor <;> linarith))
  generalize ρ p = p' at *
  have c := abs_le.mp (err2 hr (x := g - p') (by rw [abs_le]; constructor <;> linarith))
  generalize ρ (g - p') = d at *
  rw [abs_le] at h
  rw [abs_lt]
  constructor <;> linarith

theorem near_next (hr : RoundsToNearest ρ) {g p : ℝ} (g1 : 1 ≤ g) (g2 : g ≤ 2) (p1 : 0 ≤ p) (p2 : p ≤ 2)
    (h : 10001 / 10000000 * g ≤ |g - p|) : ¬ |ρ (g - ρ p)| < ρ (tol ρ * g) := by
  have hu := u_pos
  have hu1 := u_lt
  norm_num at hu1
  have a := abs_le.mp (tol_mul hr g1 g2)
  have b := abs_le.mp (err2 hr (x := p) (by rw [abs_le]; constructor <;> linarith))
  generalize ρ p = p' at *
  have c := abs_le.mp (err2 hr (x := g - p') (by rw [abs_le]; constructor <;> linarith))
  generalize ρ (g - p') = d at *
  rw [not_lt]
  rcases le_abs.mp h with h | h
  · exact le_trans (by linarith) (le_abs_self d)
  · exact le_trans (by linarith) (neg_le_abs d)

theorem near_newton (hr : RoundsToNearest ρ) {g p : ℝ} (g1 : 1 ≤ g) (g2 : g ≤ 3 / 2) (p1 : 0 ≤ p) (p2 : p ≤ 5 / 4) :
    |ρ (ρ (g + ρ p) / 2) - (g + p) / 2| ≤ 6 * u := by
  have hu := u_pos
  have hu1 := u_lt
  norm_num at hu1
  have b := abs_le.mp (err2 hr (x := p) (by rw [abs_le]; constructor <;> linarith))
  generalize ρ p = p' at *
  have c := abs_le.mp (err2 hr (x := g + p') (by rw [abs_le]; constructor <;> linarith))
  generalize ρ (g + p') = d at *
  have e := abs_le.mp (err2 hr (x := d / 2) (by rw [abs_le]; constructor <;> linarith))
  generalize ρ (d / 2) = f at *
  rw [abs_le]
  constructor <;> linarith

/-- Below 1.0646 one step of Newton's method is taken. -/
theorem sqrt_one_step (hr : RoundsToNearest ρ) {x : ℝ} (x1 : 101 / 100 ≤ x) (x2 : x ≤ 10646 / 10000) :
    ∃ g, |g - (1 + x) / 2| ≤ 6 * u ∧ ∀ fuel, sqrt ρ (fuel + 2) x () = .ok g () := by
  have hu := u_pos
  have hu1 := u_lt
  norm_num at hu1
  have h := near_newton hr (g := 1) (p := x / 1) le_rfl (by norm_num) (by linarith) (by linarith)
  refine ⟨ρ (ρ (1 + ρ (x / 1)) / 2), by simpa using h, fun fuel => ?_⟩
  rw [sqrt, sqrtHelper_next one_ne_zero (near_next hr le_rfl (by norm_num) (by linarith) (by linarith) ?_)]
  · generalize ρ (ρ (1 + ρ (x / 1)) / 2) = g at *
    have h := abs_le.mp h
    have g0 : 1 ≤ g := by linarith
    refine sqrtHelper_pass (by linarith) (near_pass hr g0 (by linarith) (by positivity) ?_ ?_) fuel
    · rw [div_le_iff₀ (by linarith)]; linarith
    · have e : g - x / g = (g * g - x) / g := by field_simp
      rw [e, abs_div, abs_of_pos (by linarith : 0 < g), div_le_iff₀ (by linarith), abs_le]
      constructor
      · nlinarith
      · nlinarith
  · rw [abs_sub_comm, abs_of_nonneg] <;> linarith

/-- After a step from a close approximation the next one is closer. -/
theorem newton_close {x g w : ℝ} (g0 : 1 ≤ g) (x0 : 1 ≤ x) (_g1 : g ≤ 104 / 100)
    (hd : |g * g - x| ≤ 2 / 1000) (w0 : 1 ≤ w) (w1 : w ≤ 104 / 100) (hw : |w - (g + x / g) / 2| ≤ 1 / 1000000) :
    |w - x / w| ≤ 9999 / 10000000 * w := by
  have e1 : g - x / g = (g * g - x) / g := by field_simp
  have d1 : |g - x / g| ≤ 2 / 1000 := by
    rw [e1, abs_div, abs_of_pos (by linarith : 0 < g), div_le_iff₀ (by linarith)]
    linarith
  have q : g * (x / g) = x := by field_simp
  generalize x / g = p at *
  clear e1 hd
  have d2 : (g - p) ^ 2 ≤ (2 / 1000) ^ 2 := by
    rw [← sq_abs]; exact pow_le_pow_left₀ (abs_nonneg _) d1 2
  have m2 : (g + p) / 2 * ((g + p) / 2) - x = (g - p) ^ 2 / 4 := by rw [← q]; ring
  have m0 : 0 ≤ (g - p) ^ 2 := sq_nonneg _
  generalize (g - p) ^ 2 = D at *
  norm_num at d2
  have e : w - x / w = (w * w - x) / w := by field_simp
  rw [e, abs_div, abs_of_pos (by linarith : 0 < w), div_le_iff₀ (by linarith)]
  rw [abs_le] at hw ⊢
  have f : w * w - x = D / 4 + (w - (g + p) / 2) * (w + (g + p) / 2) := by linear_combination m2
  have m1 : (g + p) / 2 ≤ 105 / 100 := by linarith
  have m3 : 99 / 100 ≤ (g + p) / 2 := by linarith
  generalize (g + p) / 2 = m at *
  have k1 : (w - m) * (w + m) ≤ 3 / 1000000 := by nlinarith
  have k2 : -(3 / 1000000) ≤ (w - m) * (w + m) := by nlinarith
  rw [f]
  constructor <;> nlinarith

/-- From 1.0654 on two steps are taken. -/
theorem sqrt_two_steps (hr : RoundsToNearest ρ) {x : ℝ} (x1 : 10654 / 10000 ≤ x) (x2 : x ≤ 107 / 100) :
    ∃ g, g ≤ ((1 + x) / 2 + x / ((1 + x) / 2)) / 2 + 14 * u ∧ 1001 / 1000 ≤ g ∧ g ≤ 104 / 100 ∧
      ∀ fuel, sqrt ρ (fuel + 3) x () = .ok g () := by
  have hu := u_pos
  have hu1 := u_lt
  norm_num at hu1
  have h := near_newton hr (g := 1) (p := x / 1) le_rfl (by norm_num) (by linarith) (by linarith)
  have n1 := near_next hr (g := 1) (p := x / 1) le_rfl (by norm_num) (by linarith) (by linarith) (by
    rw [abs_sub_comm, abs_of_nonneg] <;> linarith)
  generalize hg : ρ (ρ (1 + ρ (x / 1)) / 2) = g at *
  rw [div_one] at h
  have h := abs_le.mp h
  have g0 : 1 ≤ g := by linarith
  have p1 : x / g ≤ 104 / 100 := by rw [div_le_iff₀ (by linarith)]; linarith
  have p0 : 0 ≤ x / g := by positivity
  have n2 := near_next hr (g := g) (p := x / g) g0 (by linarith) p0 (by linarith) (by
    have e : g - x / g = (g * g - x) / g := by field_simp
    rw [e, abs_div, abs_of_pos (by linarith : 0 < g), le_div_iff₀ (by linarith)]
    refine le_trans ?_ (le_abs_self _)
    nlinarith)
  have h2 := abs_le.mp (near_newton hr (g := g) (p := x / g) g0 (by linarith) p0 (by linarith))
  have key : g + x / g ≤ (1 + x) / 2 + x / ((1 + x) / 2) + 14 * u := by
    have G0 : (1 : ℝ) ≤ (1 + x) / 2 := by linarith
    have G1 : x ≤ 104 / 100 * ((1 + x) / 2) := by linarith
    generalize (1 + x) / 2 = G at *
    have hd : x / g ≤ x / G + 7 * u := by
      rw [div_le_iff₀ (by linarith)]
      have : x / G * G = x := by field_simp
      have q0 : 0 ≤ x / G := by positivity
      have q1 : x / G ≤ 104 / 100 := by rw [div_le_iff₀ (by linarith)]; linarith
      generalize x / G = q at *
      have r1 : q * (G - g) ≤ q * (6 * u) := mul_le_mul_of_nonneg_left (by linarith) q0
      have r2 : q * (6 * u) ≤ 104 / 100 * (6 * u) := mul_le_mul_of_nonneg_right q1 (by linarith)
      have r3 : 7 * u * 1 ≤ 7 * u * g := mul_le_mul_of_nonneg_left g0 (by linarith)
      linarith
    linarith
  have lo : 1 ≤ g + x / g - 1 := by
    rw [← sub_nonneg]
    have e : g + x / g - 1 - 1 = ((g - 1) * (g - 1) + (x - 1)) / g := by field_simp; ring
    rw [e]
    exact div_nonneg (by nlinarith) (by linarith)
  have hi : g + x / g ≤ 2079 / 1000 := by linarith
  have lo' : 2 + 1 / 100 ≤ g + x / g := by
    have e : g + x / g - 2 = ((g - 1) * (g - 1) + (x - 1)) / g := by field_simp; ring
    have : 1 / 100 ≤ ((g - 1) * (g - 1) + (x - 1)) / g := by
      rw [le_div_iff₀ (by linarith)]; nlinarith
    linarith
  refine ⟨ρ (ρ (g + ρ (x / g)) / 2), by linarith, by linarith, by linarith, fun fuel => ?_⟩
  rw [sqrt, sqrtHelper_next one_ne_zero n1, hg, sqrtHelper_next (by linarith) n2]
  have hG : |ρ (ρ (g + ρ (x / g)) / 2) - (g + x / g) / 2| ≤ 6 * u := abs_le.mpr h2
  generalize ρ (ρ (g + ρ (x / g)) / 2) = w at *
  have w0 : 1 ≤ w := by linarith
  refine sqrtHelper_pass (by linarith) (near_pass hr w0 (by linarith) (by positivity) ?_ ?_) fuel
  · rw [div_le_iff₀ (by linarith)]; linarith
  · refine newton_close g0 (by linarith) (by linarith) ?_ w0 (by linarith)
      (hG.trans (by linarith))
    rw [abs_le]
    constructor <;> nlinarith

/-- The quotient of `log_helper`, close to 1. -/
theorem log_quot (hr : RoundsToNearest ρ) {s : ℝ} (s1 : 1 ≤ s) (s2 : s ≤ 11 / 10) :
    ∃ y v, |y - (s - 1) / (s + 1)| ≤ 8 * u ∧ logHelper ρ s () = .ok v () ∧
      |v - ∑ k ∈ Finset.range 6, 2 * (1 / (2 * (k : ℝ) + 1)) * y ^ (2 * k + 1)| ≤ 1000 * u := by
  have hu := u_pos
  have hu1 := u_lt
  norm_num at hu1
  have e1 := abs_le.mp (err2 hr (x := s - 1) (by rw [abs_le]; constructor <;> linarith))
  have e2 := abs_le.mp (err2 hr (x := s + 1) (by rw [abs_le]; constructor <;> linarith))
  have hd : 0 < ρ (s + 1) := by linarith
  have y0 : 0 ≤ (s - 1) / (s + 1) := div_nonneg (by linarith) (by linarith)
  have y1 : (s - 1) / (s + 1) ≤ 1 / 10 := by rw [div_le_iff₀ (by linarith)]; linarith
  have hq : (s - 1) / (s + 1) * (s + 1) = s - 1 := div_mul_cancel₀ _ (by linarith)
  have e3 : |ρ (s - 1) / ρ (s + 1) - (s - 1) / (s + 1)| ≤ 5 * u := by
    generalize (s - 1) / (s + 1) = q at *
    have : ρ (s - 1) / ρ (s + 1) - q = (ρ (s - 1) - q * ρ (s + 1)) / ρ (s + 1) := by
      rw [sub_div, mul_div_cancel_right₀ _ hd.ne']
    rw [this, abs_div, abs_of_pos hd, div_le_iff₀ hd]
    rw [abs_le]
    constructor <;> nlinarith
  have e3' := abs_le.mp e3
  have e4 := abs_le.mp (err2 hr (x := ρ (s - 1) / ρ (s + 1)) (by rw [abs_le]; constructor <;> linarith))
  have hy : |ρ (ρ (s - 1) / ρ (s + 1)) - (s - 1) / (s + 1)| ≤ 8 * u := by
    rw [abs_le]; constructor <;> linarith
  have hy' := abs_le.mp hy
  obtain ⟨v, g, hv⟩ := logHelper2_fp hr (y := ρ (ρ (s - 1) / ρ (s + 1))) (by
    rw [abs_le]; constructor <;> linarith)
  exact ⟨_, v, hy, (M.bind_of_ok (fdiv_ok hd.ne')).trans g, hv⟩

/-- `log` of an argument between 1 and 10, from its square root. -/
theorem log_unit (hr : RoundsToNearest ρ) {x s l : ℝ} (x1 : 1 ≤ x) (x2 : x < 10) {fuel : ℕ}
    (hs : sqrt ρ (fuel + 1) x () = .ok s ()) (hl : logHelper ρ s () = .ok l ()) :
    log ρ (fuel + 1) x () = .ok (.val (ρ (ρ (2 * l)))) () := by
  have z : ρ 0 = 0 := hr.exact isDouble_zero
  have hm : mantissa ρ (fuel + 1) x () = .ok x () := by
    rw [mantissa, if_neg (not_le.mpr x2), if_neg (not_lt.mpr x1)]; rfl
  have he : exponent ρ (fuel + 1) x () = .ok 0 () := by
    rw [exponent, exponentHelper, if_neg (not_le.mpr x2), if_neg (not_lt.mpr x1)]; rfl
  rw [log, if_neg (by linarith), if_neg (by linarith)]
  simp only [M.bind_apply, hm, hs, hl, he, M.pure_apply, fadd, fmul, Int.cast_zero, mul_zero, z, add_zero]

theorem series_le {x y : ℝ} (hx : 0 ≤ x) (hxy : x ≤ y) :
    ∑ k ∈ Finset.range 6, 2 * (1 / (2 * (k : ℝ) + 1)) * x ^ (2 * k + 1) + 2 * (y - x) ≤
      ∑ k ∈ Finset.range 6, 2 * (1 / (2 * (k : ℝ) + 1)) * y ^ (2 * k + 1) := by
  simp only [Finset.sum_range_succ, Finset.sum_range_zero]
  have p3 := pow_le_pow_left₀ hx hxy 3
  have p5 := pow_le_pow_left₀ hx hxy 5
  have p7 := pow_le_pow_left₀ hx hxy 7
  have p9 := pow_le_pow_left₀ hx hxy 9
  have p11 := pow_le_pow_left₀ hx hxy 11
  norm_num
  linarith

theorem sqrt_at_x (hr : RoundsToNearest ρ) : ∃ a, 10322265 / 10000000 ≤ a ∧ a ≤ 11 / 10 ∧
    ∀ fuel, sqrt ρ (fuel + 3) (545 / 512) () = .ok a () := by
  have hu1 := u_lt
  norm_num at hu1
  obtain ⟨a, h, hf⟩ := sqrt_one_step hr (x := 545 / 512) (by norm_num) (by norm_num)
  have h := abs_le.mp h
  exact ⟨a, by linarith, by linarith, fun fuel => hf (fuel + 1)⟩

theorem sqrt_at_y (hr : RoundsToNearest ρ) : ∃ b, b ≤ 10321967 / 10000000 ∧ 1001 / 1000 ≤ b ∧
    ∀ fuel, sqrt ρ (fuel + 3) (1091 / 1024) () = .ok b () := by
  have hu1 := u_lt
  norm_num at hu1
  obtain ⟨b, h, h1, -, hf⟩ := sqrt_two_steps hr (x := 1091 / 1024) (by norm_num) (by norm_num)
  norm_num at h
  exact ⟨b, by linarith, h1, hf⟩

theorem log_drop (hr : RoundsToNearest ρ) : ∃ a b, b < a ∧ (∀ fuel, log ρ (fuel + 3) (545 / 512) () = .ok (.val a) ()) ∧
    ∀ fuel, log ρ (fuel + 3) (1091 / 1024) () = .ok (.val b) () := by
  have hu := u_pos
  have hu1 := u_lt
  norm_num at hu1
  obtain ⟨s, s1, s2, hs⟩ := sqrt_at_x hr
  obtain ⟨t, t1, t2, ht⟩ := sqrt_at_y hr
  obtain ⟨y, v, y1, hv, v1⟩ := log_quot hr (s := s) (by linarith) (by linarith)
  obtain ⟨z, w, z1, hw, w1⟩ := log_quot hr (s := t) (by linarith) (by linarith)
  refine ⟨_, _, ?_, fun fuel => log_unit hr (by norm_num) (by norm_num) (hs fuel) hv,
    fun fuel => log_unit hr (by norm_num) (by norm_num) (ht fuel) hw⟩
  have y2 : 158570 / 10000000 ≤ (s - 1) / (s + 1) := by rw [le_div_iff₀ (by linarith)]; linarith
  have y3 : (s - 1) / (s + 1) ≤ 1 / 10 := by rw [div_le_iff₀ (by linarith)]; linarith
  have z2 : (t - 1) / (t + 1) ≤ 158440 / 10000000 := by rw [div_le_iff₀ (by linarith)]; linarith
  have z3 : 1 / 10000 ≤ (t - 1) / (t + 1) := by rw [le_div_iff₀ (by linarith)]; linarith
  rw [abs_le] at y1 z1 v1 w1
  have p := series_le (x := z) (y := y) (by linarith) (by linarith)
  have p0 := series_le (x := 0) (y := z) le_rfl (by linarith)
  have p1 := series_le (x := y) (y := 1 / 5) (by linarith) (by linarith)
  have c0 : ∑ k ∈ Finset.range 6, 2 * (1 / (2 * (k : ℝ) + 1)) * (0 : ℝ) ^ (2 * k + 1) = 0 := by
    simp
  have c1 : ∑ k ∈ Finset.range 6, 2 * (1 / (2 * (k : ℝ) + 1)) * (1 / 5 : ℝ) ^ (2 * k + 1) ≤ 1 := by
    simp only [Finset.sum_range_succ, Finset.sum_range_zero]; norm_num
  generalize ∑ k ∈ Finset.range 6, 2 * (1 / (2 * (k : ℝ) + 1)) * y ^ (2 * k + 1) = Y at *
  generalize ∑ k ∈ Finset.range 6, 2 * (1 / (2 * (k : ℝ) + 1)) * z ^ (2 * k + 1) = Z at *
  generalize ∑ k ∈ Finset.range 6, 2 * (1 / (2 * (k : ℝ) + 1)) * (0 : ℝ) ^ (2 * k + 1) = Z0 at *
  generalize ∑ k ∈ Finset.range 6, 2 * (1 / (2 * (k : ℝ) + 1)) * (1 / 5 : ℝ) ^ (2 * k + 1) = Z1 at *
  have a1 := abs_le.mp (err2 hr (x := 2 * v) (by rw [abs_le]; constructor <;> linarith))
  have a2 := abs_le.mp (err2 hr (x := ρ (2 * v)) (by rw [abs_le]; constructor <;> linarith))
  have b1 := abs_le.mp (err2 hr (x := 2 * w) (by rw [abs_le]; constructor <;> linarith))
  have b2 := abs_le.mp (err2 hr (x := ρ (2 * w)) (by rw [abs_le]; constructor <;> linarith))
  linarith

/-- `exp` where the argument is rounded towards zero: no rounding of the quotient is involved. -/
theorem exp_trunc (hr : RoundsToNearest ρ) {x : ℝ} {n : ℤ} (hn : trunc x = n) (n1 : -1000 ≤ n) (n2 : n ≤ 1000)
    (h : x - 1 / 2 ≤ n) {r p v : ℝ} (hd : ρ (x - n) = r) (hp : pow ρ (mE ρ) n () = .ok p ())
    (hv : expHelper ρ r () = .ok v ()) : exp ρ x () = .ok (ρ (p * v)) () := by
  have ok1 : toInt x () = .ok n () := by
    rw [← hn]
    exact toInt_ok (by rw [hn]; simp only [intMin]; omega) (by rw [hn]; simp only [intMax]; omega)
  have ok2 : toInt (n : ℝ) () = .ok n () := by
    have := toInt_ok (x := (n : ℝ)) (by rw [trunc_int]; simp only [intMin]; omega)
      (by rw [trunc_int]; simp only [intMax]; omega)
    rwa [trunc_int] at this
  have c : ¬ (n : ℝ) < ρ (x - 1 / 2) :=
    not_lt.mpr (hr.le_of_le (isDouble_int (by rw [abs_lt]; constructor <;> omega)) h)
  have c1 : nearest ρ x () = .ok (n : ℝ) () := by
    rw [nearest]
    refine (M.bind_of_ok ok1).trans ?_
    refine (congrFun (if_neg c) _).trans ?_
    exact (M.bind_of_ok ok1).trans rfl
  have c2 : fraction ρ x () = .ok r () := by
    rw [fraction, ← hd]
    refine (M.bind_of_ok ok1).trans ?_
    refine (congrFun (if_neg c) _).trans ?_
    exact (M.bind_of_ok ok1).trans rfl
  simp only [exp, M.bind_apply, c1, ok2, hp, c2, hv, M.pure_apply, fmul]

theorem exp_drop (hr : RoundsToNearest ρ) : ∃ a b, b < a ∧ exp ρ (-1) () = .ok a () ∧
    exp ρ (-(65535 / 65536)) () = .ok b () := by
  have hu := u_pos
  have hu1 := u_lt
  norm_num at hu1
  have z : ρ 0 = 0 := hr.exact isDouble_zero
  have hone : IsDouble (1 : ℝ) := by simpa using isDouble_int (K := ℝ) (k := 1) (by norm_num)
  have e0 := abs_le.mp (err2 hr (x := 2718281828459045 / 1000000000000000) (by rw [abs_le]; constructor <;> norm_num))
  change _ ≤ mE ρ - _ ∧ mE ρ - _ ≤ _ at e0
  norm_num at e0
  have m0 : 0 < mE ρ := by linarith
  -- the argument -1
  obtain ⟨v, hv, v1⟩ := expHelper_fp hr (r := 0) (by norm_num)
  have t1 : trunc (-1 : ℝ) = -1 := by simpa using trunc_int (K := ℝ) (-1)
  have hp : pow ρ (mE ρ) (-1) () = .ok (ρ (1 / mE ρ)) () := by
    have i1 : int 1 () = .ok 1 () := rfl
    simp only [pow, show ((-1 : ℤ) < 0) by norm_num, if_true, neg_neg, M.bind_apply, i1]
    exact fdiv_ok (by simpa [powNN] using m0.ne')
  have r1 := exp_trunc hr (x := -1) (n := -1) t1 (by norm_num) (by norm_num) (by norm_num) (r := 0)
    (by norm_num [z]) hp hv
  -- the argument just above
  obtain ⟨w, hw, w1⟩ := expHelper_fp hr (r := -(65535 / 65536)) (by rw [abs_le]; constructor <;> norm_num)
  have t2 : trunc (-(65535 / 65536) : ℝ) = 0 := by
    rw [trunc, if_neg (by norm_num), Int.ceil_eq_iff]; norm_num
  have dx : IsDouble (-(65535 / 65536) : ℝ) := ⟨-65535, -16, by norm_num, by norm_num, by norm_num, by norm_num⟩
  have hq : pow ρ (mE ρ) 0 () = .ok 1 () := rfl
  have r2 := exp_trunc hr (x := -(65535 / 65536)) (n := 0) t2 (by norm_num) (by norm_num) (by norm_num)
    (r := -(65535 / 65536)) (by simpa using hr.exact dx) hq hw
  refine ⟨_, _, ?_, r1, r2⟩
  simp only [Finset.sum_range_succ, Finset.sum_range_zero, Nat.factorial] at v1 w1
  norm_num at v1 w1
  rw [abs_le] at v1 w1
  have q1 : 367879 / 1000000 ≤ 1 / mE ρ := by rw [le_div_iff₀ m0]; linarith
  have q2 : 1 / mE ρ ≤ 1 := by rw [div_le_iff₀ m0]; linarith
  generalize 1 / mE ρ = q at *
  have a1 := abs_le.mp (err2 hr (x := q) (by rw [abs_le]; constructor <;> linarith))
  generalize ρ q = q' at *
  have b1 : q' * v ≥ q' * (1 - 1000 * u) := mul_le_mul_of_nonneg_left (by linarith) (by linarith)
  have b2 : q' * v ≤ q' * (1 + 1000 * u) := mul_le_mul_of_nonneg_left (by linarith) (by linarith)
  have b3 : q' * u ≤ 2 * u := mul_le_mul_of_nonneg_right (by linarith) hu.le
  have a2 := abs_le.mp (err2 hr (x := q' * v) (by rw [abs_le]; constructor <;> linarith))
  have a3 := abs_le.mp (err2 hr (x := 1 * w) (by rw [abs_le]; constructor <;> linarith))
  linarith

theorem sin_drop (hr : RoundsToNearest ρ) : ∃ x a b, IsDouble x ∧ 0 < x ∧ x < tol ρ ∧ b < a ∧
    (∀ fuel, sin ρ (fuel + 2) x () = .ok a ()) ∧ ∀ fuel, sin ρ (fuel + 2) (tol ρ) () = .ok b () := by
  have hu := u_pos
  have hu1 := u_lt
  norm_num at hu1
  obtain ⟨t1, t2⟩ := tol_bounds hr
  have e0 := abs_le.mp (err2 hr (x := 1 / 1000 - 1 / 100000000000) (by rw [abs_le]; constructor <;> norm_num))
  have dx := hr.double (1 / 1000 - 1 / 100000000000)
  generalize ρ (1 / 1000 - 1 / 100000000000) = x at *
  have hx : x < tol ρ := by linarith
  have h1 : ∀ fuel, sin ρ (fuel + 2) x () = .ok x () := by
    intro fuel
    rw [sin, if_neg (by linarith), sinHelper, if_pos hx]; rfl
  have e1 := abs_le.mp (err2 hr (x := tol ρ / 3) (by rw [abs_le]; constructor <;> linarith))
  have h2 : ∀ fuel, sin ρ (fuel + 2) (tol ρ) () = .ok (ρ (ρ (3 * ρ (tol ρ / 3)) -
      ρ (4 * ρ (ρ (ρ (tol ρ / 3) * ρ (tol ρ / 3)) * ρ (tol ρ / 3))))) () := by
    intro fuel
    have c : sinHelper ρ (fuel + 1) (ρ (tol ρ / 3)) () = .ok (ρ (tol ρ / 3)) () := by
      rw [sinHelper, if_pos (by linarith)]; rfl
    rw [sin, if_neg (by linarith), sinHelper, if_neg (lt_irrefl _)]
    simp only [M.bind_apply, fdiv_ok (three_ne_zero (α := ℝ)), c, M.pure_apply, fsub, fmul, cube]
  refine ⟨x, x, _, dx, by linarith, hx, ?_, h1, h2⟩
  generalize ρ (tol ρ / 3) = A at *
  have A1 : 333 / 1000000 ≤ A := by linarith
  have A2 : A ≤ 334 / 1000000 := by linarith
  have s1 : 110 / 1000000000 ≤ A * A := by nlinarith
  have s2 : A * A ≤ 112 / 1000000000 := by nlinarith
  have e2 := abs_le.mp (err2 hr (x := A * A) (by rw [abs_le]; constructor <;> linarith))
  generalize ρ (A * A) = B at *
  have c1 : 36 / 1000000000000 ≤ B * A := by nlinarith
  have c2 : B * A ≤ 38 / 1000000000000 := by nlinarith
  have e3 := abs_le.mp (err2 hr (x := B * A) (by rw [abs_le]; constructor <;> linarith))
  generalize ρ (B * A) = C at *
  have e4 := abs_le.mp (err2 hr (x := 4 * C) (by rw [abs_le]; constructor <;> linarith))
  generalize ρ (4 * C) = D at *
  have e5 := abs_le.mp (err2 hr (x := 3 * A) (by rw [abs_le]; constructor <;> linarith))
  generalize ρ (3 * A) = E at *
  have e6 := abs_le.mp (err2 hr (x := E - D) (by rw [abs_le]; constructor <;> linarith))
  linarith

end Cest.Fp
