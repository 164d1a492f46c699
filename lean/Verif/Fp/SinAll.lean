import Verif.Fp.Range

/-! `sin` and `cos` of every double: the result is the exact sine of a number near the argument. -/

namespace Cest.Fp
open Cest Cest.Cmath

variable {ρ : ℝ → ℝ}

theorem arcsin_near2 {x : ℝ} (h0 : 0 ≤ x) (h1 : x < 10011 / 10000000) :
    Real.sin (Real.arcsin x) = x ∧ |Real.arcsin x - x| ≤ x * (21 / 10 ^ 8) := by
  have hs : Real.sin (Real.arcsin x) = x := Real.sin_arcsin (by linarith) (by linarith)
  have ha0 : 0 ≤ Real.arcsin x := Real.arcsin_nonneg.mpr h0
  refine ⟨hs, ?_⟩
  have h2 : x ≤ Real.arcsin x := by
    have := Real.sin_le ha0
    linarith
  have h3 : Real.arcsin x ≤ x * (1 + 21 / 10 ^ 8) := by
    rcases h0.lt_or_eq with hp | rfl
    · rw [Real.arcsin_le_iff_le_sin' ⟨by nlinarith [Real.pi_gt_three], by nlinarith [Real.pi_gt_three]⟩]
      have ht : 0 < x * (1 + 21 / 10 ^ 8) := by positivity
      have := Real.sin_gt_sub_cube ht
      have h3 : (x * (1 + 21 / 10 ^ 8)) ^ 3 / 6 ≤ x * (21 / 10 ^ 8) := by
        have q : x ^ 2 ≤ 10023 / 10 ^ 10 := by norm_num; nlinarith
        have e : (x * (1 + 21 / 10 ^ 8)) ^ 3 / 6 = x * (x ^ 2 * ((1 + 21 / 10 ^ 8) ^ 3 / 6)) := by ring
        rw [e]
        apply mul_le_mul_of_nonneg_left _ h0
        norm_num at q ⊢
        linarith
      linarith
    · simp
  rw [abs_of_nonneg (by linarith)]
  linarith

/-- The arcsine is Hölder continuous with exponent one half. -/
theorem arcsin_hoelder {a b δ : ℝ} (ha : |a| ≤ Real.pi / 2) (hb : |b| ≤ Real.pi / 2)
    (hδ : 0 ≤ δ) (h : |Real.sin a - Real.sin b| ≤ 2 * δ ^ 2) : |a - b| ≤ Real.pi * δ := by
  have hp := Real.pi_pos
  wlog hab : b ≤ a generalizing a b
  · rw [abs_sub_comm] at h ⊢
    exact this hb ha h (not_le.mp hab).le
  rw [abs_le] at ha hb
  rw [abs_of_nonneg (by linarith)]
  set d := (a - b) / 2 with hd
  have d0 : 0 ≤ d := by rw [hd]; linarith
  have d1 : d ≤ Real.pi / 2 := by rw [hd]; linarith
  have s1 : 2 / Real.pi * d ≤ Real.sin d := Real.mul_le_sin d0 d1
  have c1 : Real.sin d ≤ Real.cos ((a + b) / 2) := by
    rw [← Real.cos_pi_div_two_sub, ← Real.cos_abs ((a + b) / 2)]
    refine Real.cos_le_cos_of_nonneg_of_le_pi (abs_nonneg _) (by linarith) ?_
    rw [abs_le]
    constructor <;> (rw [hd]; linarith)
  have s0 : 0 ≤ 2 / Real.pi * d := by positivity
  have e : Real.sin a - Real.sin b = 2 * Real.sin d * Real.cos ((a + b) / 2) := by rw [Real.sin_sub_sin]
  rw [e] at h
  have h1 := (le_abs_self _).trans h
  have h2 : (2 / Real.pi * d) * (2 / Real.pi * d) ≤ Real.sin d * Real.cos ((a + b) / 2) :=
    mul_le_mul s1 (s1.trans c1) s0 (s0.trans s1)
  have h3 : (2 / Real.pi * d) ^ 2 ≤ δ ^ 2 := by nlinarith
  have h4 := (abs_le_of_sq_le_sq' h3 hδ).2
  have h5 := mul_le_mul_of_nonneg_left h4 hp.le
  have e2 : Real.pi * (2 / Real.pi * d) = 2 * d := by field_simp
  rw [e2, hd] at h5
  linarith

/-- Near an angle of sine `s` there is an angle of any given nearby sine. -/
theorem angle_near {p r δ : ℝ} (hr : |r| ≤ 1) (hδ : 0 ≤ δ) (h : |r - Real.sin p| ≤ 2 * δ ^ 2) :
    ∃ q, Real.sin q = r ∧ |q - p| ≤ Real.pi * δ := by
  have hp := Real.pi_pos
  rw [abs_le] at hr
  -- `p` is an angle in the principal range, up to a reflection or a shift
  obtain ⟨p₀, n, e, hp0⟩ : ∃ (p₀ : ℝ) (n : ℤ), p = p₀ + n * Real.pi ∧ |p₀| ≤ Real.pi / 2 := by
    refine ⟨p - round (p / Real.pi) * Real.pi, round (p / Real.pi), by ring, ?_⟩
    have h1 := abs_sub_round (p / Real.pi)
    have e : p - round (p / Real.pi) * Real.pi = (p / Real.pi - round (p / Real.pi)) * Real.pi := by field_simp
    rw [e, abs_mul, abs_of_pos hp]
    nlinarith
  have hs : Real.sin p = (-1) ^ n * Real.sin p₀ := by rw [e, Real.sin_add_int_mul_pi]
  obtain ⟨σ, hσ, hσ1, hσ2⟩ : ∃ σ : ℝ, ((-1 : ℝ) ^ n = σ) ∧ |σ| = 1 ∧ σ * σ = 1 := by
    rcases Int.even_or_odd n with hn | hn
    · exact ⟨1, hn.neg_one_zpow, by norm_num, by norm_num⟩
    · exact ⟨-1, hn.neg_one_zpow, by norm_num, by norm_num⟩
  have hr' : |σ * r| ≤ 1 := by rw [abs_mul, hσ1, one_mul, abs_le]; exact hr
  rw [abs_le] at hr'
  refine ⟨Real.arcsin (σ * r) + n * Real.pi, ?_, ?_⟩
  · rw [Real.sin_add_int_mul_pi, hσ, Real.sin_arcsin hr'.1 hr'.2, ← mul_assoc, hσ2, one_mul]
  · rw [e, show Real.arcsin (σ * r) + n * Real.pi - (p₀ + n * Real.pi) = Real.arcsin (σ * r) - p₀ by ring]
    refine arcsin_hoelder ?_ hp0 hδ ?_
    · rw [abs_le]; exact ⟨Real.neg_pi_div_two_le_arcsin _, Real.arcsin_le_pi_div_two _⟩
    · rw [Real.sin_arcsin hr'.1 hr'.2]
      rw [hs, hσ] at h
      have e3 : σ * r - Real.sin p₀ = σ * (r - σ * Real.sin p₀) := by
        rw [mul_sub, ← mul_assoc, hσ2, one_mul]
      rw [e3, abs_mul, hσ1, one_mul]
      exact h

/-- One level of the recursion while the angle is small: the error is relative. -/
theorem triple_small (hr : RoundsToNearest ρ) {a : ℝ} (a0 : 1 / 10000 ≤ a) (a1 : a ≤ 35 / 100) :
    |fsub ρ (fmul ρ 3 a) (fmul ρ 4 (cube ρ a)) - (3 * a - 4 * a ^ 3)| ≤ 10 * u * a := by
  have hu := u_pos
  have hu1 := u_lt
  norm_num at hu1
  obtain ⟨t0, t1⟩ := one_T
  have hT := T_ge
  norm_num at t1 hT
  have nr : ∀ y : ℝ, 1 / 10 ^ 14 ≤ y → y ≤ 10 → y * (1 - u) ≤ ρ y ∧ ρ y ≤ y * (1 + u) := fun y h1 h2 =>
    rb hr (by norm_num at *; linarith) (by norm_num; linarith)
  simp only [fsub, fmul, cube]
  have q0 : 1 / 10 ^ 8 ≤ a * a := by norm_num; nlinarith
  have q1 : a * a ≤ 1225 / 10000 := by nlinarith
  obtain ⟨A1, A2⟩ := nr (3 * a) (by norm_num; linarith) (by linarith)
  obtain ⟨B1, B2⟩ := nr (a * a) (by norm_num at *; linarith) (by linarith)
  have e3 : a * a * a = a ^ 3 := by ring
  have c0 : 1 / 10 ^ 12 ≤ a ^ 3 := by rw [← e3]; norm_num at *; nlinarith
  have c1 : a ^ 3 ≤ 1225 / 10000 * a := by rw [← e3]; nlinarith
  generalize ρ (3 * a) = A at *
  generalize ρ (a * a) = B at *
  have b1 : a ^ 3 * (1 - u) ≤ B * a := by rw [← e3]; nlinarith
  have b2 : B * a ≤ a ^ 3 * (1 + u) := by rw [← e3]; nlinarith
  have cu : a ^ 3 * u ≤ a ^ 3 * (1 / 10 ^ 15) := mul_le_mul_of_nonneg_left (by norm_num; linarith) (by linarith)
  have cu0 : 0 ≤ a ^ 3 * u := by positivity
  norm_num at cu c0
  obtain ⟨C1, C2⟩ := nr (B * a) (by norm_num; linarith) (by linarith)
  generalize a ^ 3 = c at *
  have uu : u * u ≤ u * (1 / 100) := mul_le_mul_of_nonneg_left (by linarith) hu.le
  have cuu : c * u * u ≤ c * u * (1 / 100) := mul_le_mul_of_nonneg_left (by linarith) cu0
  have d1 : c * (1 - 3 * u) ≤ ρ (B * a) := by
    refine le_trans ?_ C1
    refine le_trans ?_ (mul_le_mul_of_nonneg_right b1 (by linarith))
    nlinarith
  have d2 : ρ (B * a) ≤ c * (1 + 3 * u) := by
    refine C2.trans ?_
    refine (mul_le_mul_of_nonneg_right b2 (by linarith)).trans ?_
    nlinarith
  generalize ρ (B * a) = C at *
  obtain ⟨D1, D2⟩ := nr (4 * C) (by norm_num; linarith) (by linarith)
  have f1 : 4 * c * (1 - 5 * u) ≤ ρ (4 * C) := by
    refine le_trans ?_ D1
    refine le_trans ?_ (mul_le_mul_of_nonneg_right (mul_le_mul_of_nonneg_left d1 (by norm_num : (0 : ℝ) ≤ 4)) (by linarith))
    nlinarith
  have f2 : ρ (4 * C) ≤ 4 * c * (1 + 5 * u) := by
    refine D2.trans ?_
    refine (mul_le_mul_of_nonneg_right (mul_le_mul_of_nonneg_left d2 (by norm_num : (0 : ℝ) ≤ 4)) (by linarith)).trans ?_
    nlinarith
  generalize ρ (4 * C) = D at *
  have au : 0 ≤ a * u := by positivity
  have au1 : a * u ≤ a * (1 / 10 ^ 15) := mul_le_mul_of_nonneg_left (by norm_num; linarith) (by linarith)
  norm_num at au1
  have ac : c * u ≤ 1225 / 10000 * (a * u) := by nlinarith
  have g1 : 3 * a - 4 * c - 6 * (a * u) ≤ A - D := by linarith
  have g2 : A - D ≤ 3 * a - 4 * c + 6 * (a * u) := by linarith
  obtain ⟨E1, E2⟩ := nr (A - D) (by norm_num; linarith) (by linarith)
  have k : (A - D) * u ≤ 31 / 10 * (a * u) := by
    have : A - D ≤ 31 / 10 * a := by linarith
    nlinarith
  rw [abs_le]
  constructor <;> linarith

/-- Angles below 1.1 with nearby sines are near. -/
theorem angle_small {p r : ℝ} (p0 : 0 ≤ p) (p1 : p ≤ 105 / 100) {η : ℝ} (η0 : 0 ≤ η) (η1 : η ≤ 1 / 100) (ηp : η ≤ p)
    (h : |r - Real.sin p| ≤ 1 / 4 * η) : |Real.arcsin r - p| ≤ η ∧ Real.sin (Real.arcsin r) = r := by
  have hp := Real.pi_gt_three
  have hp2 := Real.pi_lt_d2
  norm_num at hp2
  have key : ∀ t : ℝ, 0 ≤ t → t + η ≤ 106 / 100 → 1 / 4 * η ≤ Real.sin (t + η) - Real.sin t := by
    intro t t0 t1
    rw [Real.sin_sub_sin, show (t + η - t) / 2 = η / 2 by ring, show (t + η + t) / 2 = t + η / 2 by ring]
    have s1 : 2 / Real.pi * (η / 2) ≤ Real.sin (η / 2) := Real.mul_le_sin (by linarith) (by linarith)
    have c1 := Real.one_sub_sq_div_two_le_cos (x := t + η / 2)
    have c2 : 43 / 100 ≤ Real.cos (t + η / 2) := by nlinarith
    have s2 : 3 / 10 * η ≤ 2 / Real.pi * (η / 2) := by
      rw [show 2 / Real.pi * (η / 2) = η * (1 / Real.pi) by ring, mul_comm]
      refine mul_le_mul_of_nonneg_left ?_ η0
      rw [le_div_iff₀ (by linarith)]
      linarith
    have := mul_le_mul (s2.trans s1) c2 (by norm_num) ((by positivity : (0 : ℝ) ≤ 3 / 10 * η).trans (s2.trans s1))
    linarith
  have k1 := key p p0 (by linarith)
  have k2 := key (p - η) (by linarith) (by linarith)
  rw [sub_add_cancel] at k2
  rw [abs_le] at h
  have r1 : Real.sin (p - η) ≤ r := by linarith
  have r2 : r ≤ Real.sin (p + η) := by linarith
  have l1 := Real.neg_one_le_sin (p - η)
  have l2 := Real.sin_le_one (p + η)
  have m1 := Real.monotone_arcsin r1
  have m2 := Real.monotone_arcsin r2
  rw [Real.arcsin_sin (by linarith) (by linarith)] at m1 m2
  refine ⟨by rw [abs_le]; constructor <;> linarith, Real.sin_arcsin (by linarith) (by linarith)⟩

/-- A relative bound at a third carries over. -/
theorem carry {x y c : ℝ} (h : 3 * y - x ≤ x * u) (c0 : 0 ≤ c) (c1 : c ≤ 1 / 10) (x0 : 0 ≤ x) : 3 * (y * c) ≤ x * (c + u) := by
  have hu := u_pos
  have h1 := mul_le_mul_of_nonneg_right h c0
  have h2 : x * u * c ≤ x * u * 1 := mul_le_mul_of_nonneg_left (by linarith) (by positivity)
  linarith only [h1, h2, show (3 * y - x) * c = 3 * (y * c) - x * c by ring, show x * (c + u) = x * c + x * u by ring]

theorem step_small (hr : RoundsToNearest ρ) {x y c θ : ℝ} (x0 : 999 / 1000000 ≤ x) (hx : x ≤ 1) (c0 : 0 ≤ c) (c1 : c ≤ 3 / 10 ^ 7)
    (y2 : 3 * y - x ≤ x * u) (y3 : -(x * u) ≤ 3 * y - x) (b : |θ - y| ≤ y * c) :
    ∃ q, Real.sin q = fsub ρ (fmul ρ 3 (Real.sin θ)) (fmul ρ 4 (cube ρ (Real.sin θ))) ∧ |q - x| ≤ x * (c + 30 * u) := by
  have hu := u_pos
  have hu1 := u_lt
  norm_num at hu1
  have xu : 0 ≤ x * u := by positivity
  have xu1 : x * u ≤ x * (1 / 10 ^ 10) := mul_le_mul_of_nonneg_left (by norm_num; linarith) (by linarith)
  norm_num at xu1
  have y0 : 0 ≤ y := by linarith
  have yc : y * c ≤ y * (3 / 10 ^ 7) := mul_le_mul_of_nonneg_left c1 y0
  norm_num at yc
  have cr := carry y2 c0 (c1.trans (by norm_num)) (by linarith)
  have b' := abs_le.mp b
  have θ1 : θ ≤ 101 / 100 * y := by linarith
  have θ0 : 99 / 100 * y ≤ θ := by linarith
  have s1 : Real.sin θ ≤ θ := Real.sin_le (by linarith)
  have s0 : 1 / 10000 ≤ Real.sin θ := by
    have k := Real.sin_gt_sub_cube (x := θ) (by linarith)
    have : θ ^ 3 ≤ θ * (1 / 4) := by
      rw [show θ ^ 3 = θ * (θ * θ) by ring]
      refine mul_le_mul_of_nonneg_left ?_ (by linarith)
      have := mul_le_mul (show θ ≤ 1 / 2 by linarith) (show θ ≤ 1 / 2 by linarith) (by linarith) (by norm_num)
      linarith
    linarith
  have g := triple_small hr s0 (by linarith)
  have e3 : 3 * Real.sin θ - 4 * Real.sin θ ^ 3 = Real.sin (3 * θ) := by rw [Real.sin_three_mul]
  rw [e3] at g
  generalize fsub ρ (fmul ρ 3 (Real.sin θ)) (fmul ρ 4 (cube ρ (Real.sin θ))) = r at *
  have θu : 0 ≤ θ * u := mul_nonneg (by linarith) hu.le
  have su : Real.sin θ * u ≤ θ * u := mul_le_mul_of_nonneg_right s1 hu.le
  have θu1 : θ * u ≤ θ * (1 / 10 ^ 10) := mul_le_mul_of_nonneg_left (by norm_num; linarith) (by linarith)
  norm_num at θu1
  obtain ⟨k1, k2⟩ := angle_small (p := 3 * θ) (r := r) (by linarith) (by linarith) (η := 40 * (θ * u)) (by linarith)
    (by linarith) (by linarith) (g.trans (by linarith))
  refine ⟨Real.arcsin r, k2, ?_⟩
  have θx : θ * u ≤ 1 / 2 * x * u := mul_le_mul_of_nonneg_right (by linarith) hu.le
  have ex : x * (c + 30 * u) = x * c + 30 * (x * u) := by ring
  have ex' : x * (c + u) = x * c + x * u := by ring
  rw [abs_le] at k1 ⊢
  rw [ex]
  rw [ex'] at cr
  generalize x * u = X at *
  generalize y * c = Y at *
  generalize x * c = Z at *
  constructor <;> linarith

theorem step_large (hr : RoundsToNearest ρ) {x y c b θ : ℝ} (x0 : 0 ≤ x) (c0 : 0 ≤ c) (c1 : c ≤ 1 / 10)
    (y2 : 3 * y - x ≤ x * u) (y3 : -(x * u) ≤ 3 * y - x) (h : |θ - y| ≤ y * c - b)
    (v1 : |fsub ρ (fmul ρ 3 (Real.sin θ)) (fmul ρ 4 (cube ρ (Real.sin θ)))| ≤ 1) :
    ∃ q, Real.sin q = fsub ρ (fmul ρ 3 (Real.sin θ)) (fmul ρ 4 (cube ρ (Real.sin θ))) ∧
      |q - x| ≤ x * (c + 30 * u) - 3 * b + 188 / 10 ^ 9 := by
  have hu := u_pos
  have g := triple_err hr (a := Real.sin θ) ((Real.abs_sin_le_one θ).trans (by norm_num))
  have e3 : 3 * Real.sin θ - 4 * Real.sin θ ^ 3 = Real.sin (3 * θ) := by rw [Real.sin_three_mul]
  rw [e3] at g
  generalize fsub ρ (fmul ρ 3 (Real.sin θ)) (fmul ρ 4 (cube ρ (Real.sin θ))) = r at *
  obtain ⟨q, q1, q2⟩ := angle_near (p := 3 * θ) (r := r) v1 (δ := 1 / 2 ^ 24) (by positivity)
    (g.trans (by unfold u; norm_num))
  have q3 : |q - 3 * θ| ≤ 188 / 10 ^ 9 := by
    refine q2.trans ?_
    have := Real.pi_lt_d4
    norm_num at this ⊢
    linarith
  refine ⟨q, q1, ?_⟩
  have q4 := abs_le.mp q3
  have h' := abs_le.mp h
  have cr := carry y2 c0 c1 x0
  have xu : 0 ≤ x * u := by positivity
  have ex : x * (c + 30 * u) = x * c + 30 * (x * u) := by ring
  have ex' : x * (c + u) = x * c + x * u := by ring
  rw [ex]
  rw [ex'] at cr
  generalize x * u = X at *
  generalize y * c = Y at *
  generalize x * c = Z at *
  rw [abs_le]
  constructor <;> linarith

/-- `sin_helper` of every double that is not negative is the exact sine of a number near it. -/
theorem sinHelper_all (ht : RoundsTiesEven ρ) (n : ℕ) (hn : n ≤ 1000) :
    ∀ x : ℝ, IsDouble x → 0 ≤ x → x ≤ 2 ^ 1024 → x < 999 / 1000000 * 3 ^ n * (1 - n * (2 * u)) →
    ∃ θ, ((x ≤ 1 ∧ |θ - x| ≤ x * (21 / 10 ^ 8 + n * (30 * u))) ∨
        (1 < x ∧ |θ - x| ≤ x * (50 / 10 ^ 8 + n * (30 * u)) - 94 / 10 ^ 9)) ∧
      ∀ fuel, n + 1 ≤ fuel → sinHelper ρ fuel x () = .ok (Real.sin θ) () := by
  have hr := ht.toRoundsToNearest
  have hu := u_pos
  have hu1 := u_lt
  obtain ⟨ht1, ht2⟩ := tol_bounds hr
  norm_num at hu1
  have base : ∀ (n : ℕ) (x : ℝ), 0 ≤ x → x < tol ρ → ∃ θ, ((x ≤ 1 ∧ |θ - x| ≤ x * (21 / 10 ^ 8 + n * (30 * u))) ∨
        (1 < x ∧ |θ - x| ≤ x * (50 / 10 ^ 8 + n * (30 * u)) - 94 / 10 ^ 9)) ∧
      ∀ fuel, n + 1 ≤ fuel → sinHelper ρ fuel x () = .ok (Real.sin θ) () := by
    intro n x h0 hc
    obtain ⟨a1, a2⟩ := arcsin_near2 h0 (by linarith)
    refine ⟨Real.arcsin x, Or.inl ⟨by linarith, a2.trans (mul_le_mul_of_nonneg_left ?_ h0)⟩, fun fuel hf => ?_⟩
    · have : 0 ≤ (n : ℝ) * (30 * u) := by positivity
      linarith
    · obtain ⟨k, rfl⟩ : ∃ k, fuel = k + 1 := ⟨fuel - 1, by omega⟩
      rw [a1]
      simp only [sinHelper, if_pos hc]; rfl
  induction n with
  | zero =>
    intro x _ h0 _ h1
    exact base 0 x h0 (by norm_num at h1; linarith)
  | succ n ih =>
    intro x dx h0 hb h1
    by_cases hc : x < tol ρ
    · exact base _ x h0 hc
    have hnr : ((n + 1 : ℕ) : ℝ) ≤ 1000 := by exact_mod_cast hn
    push_cast at hnr
    have hn0 : (0 : ℝ) ≤ n := by positivity
    have x0 : 999 / 1000000 ≤ x := by linarith
    have y1 := round_bounds hr (x := x / 3) (by
      refine le_trans (b := 1 / 2 ^ 20) (one_div_le_one_div_of_le (by positivity) (pow_le_pow_right₀ (by norm_num) (by norm_num))) ?_
      norm_num; linarith) (by
      have e : (2 : ℝ) ^ 1024 = 2 * 2 ^ 1023 := by rw [← pow_succ']
      have p : (0 : ℝ) < 2 ^ 1023 := pow_pos two_pos _
      rw [e] at hb
      generalize (2 : ℝ) ^ 1023 = W at *
      linarith only [hb, p])
    have yb : ρ (x / 3) ≤ 2 ^ 1024 := by
      refine y1.2.trans (le_trans ?_ hb)
      have : x / 3 * (1 + u) ≤ x / 3 * 3 := mul_le_mul_of_nonneg_left (by linarith) (by linarith)
      linarith only [this]
    generalize (2 : ℝ) ^ 1024 = W at *
    set y := ρ (x / 3) with hydef
    have hyle : y < 999 / 1000000 * 3 ^ n * (1 - n * (2 * u)) := by
      refine lt_of_le_of_lt y1.2 ?_
      have h3 : x / 3 < 999 / 1000000 * 3 ^ n * (1 - (n + 1) * (2 * u)) := by
        rw [pow_succ] at h1; push_cast at h1; linarith
      have h4 : (1 - (n + 1) * (2 * u)) * (1 + u) ≤ 1 - n * (2 * u) := by
        have e : (1 - (n + 1) * (2 * u)) * (1 + u) = 1 - n * (2 * u) - u - (n + 1) * (2 * u) * u := by ring
        have : 0 ≤ ((n : ℝ) + 1) * (2 * u) * u := by positivity
        linarith
      have h5 : (0 : ℝ) < 999 / 1000000 * 3 ^ n := by positivity
      calc x / 3 * (1 + u) < 999 / 1000000 * 3 ^ n * (1 - (n + 1) * (2 * u)) * (1 + u) :=
            mul_lt_mul_of_pos_right h3 (by linarith)
        _ = 999 / 1000000 * 3 ^ n * ((1 - (n + 1) * (2 * u)) * (1 + u)) := by ring
        _ ≤ _ := mul_le_mul_of_nonneg_left h4 h5.le
    have y0 : 0 ≤ y := le_trans (mul_nonneg (by linarith) (by linarith)) y1.1
    have dy : IsDouble y := hr.double _
    obtain ⟨θ, b1, b3⟩ := ih (by omega) y dy y0 yb hyle
    have run : ∀ fuel, n + 1 + 1 ≤ fuel → sinHelper ρ fuel x () =
        .ok (fsub ρ (fmul ρ 3 (Real.sin θ)) (fmul ρ 4 (cube ρ (Real.sin θ)))) () := by
      intro fuel hf
      obtain ⟨k, rfl⟩ : ∃ k, fuel = k + 1 := ⟨fuel - 1, by omega⟩
      simp only [sinHelper, if_neg hc, M.bind_apply, fdiv_ok (three_ne_zero (α := ℝ)), ← hydef,
        b3 k (by omega), M.pure_apply]
    obtain ⟨dv, v1⟩ := sinHelper_le ht _ _ _ dy y0 (b3 (n + 1) le_rfl)
    have vle := sin_tri_le ht dv v1
    have nu : (n : ℝ) * (30 * u) ≤ 1 / 10 ^ 10 := by
      have : (n : ℝ) * (30 * u) ≤ 1000 * (30 * u) := mul_le_mul_of_nonneg_right (by linarith) (by linarith)
      norm_num at this ⊢; linarith
    have nu0 : (0 : ℝ) ≤ n * (30 * u) := by positivity
    have y2 : 3 * y - x ≤ x * u := by linarith [y1.2]
    have y3 : -(x * u) ≤ 3 * y - x := by linarith [y1.1]
    push_cast
    have ec : ∀ a : ℝ, a + ((n : ℝ) + 1) * (30 * u) = a + n * (30 * u) + 30 * u := fun a => by ring
    rw [ec, ec]
    by_cases hx : x ≤ 1
    · rcases b1 with ⟨-, b1⟩ | ⟨b, -⟩
      swap
      · exfalso
        have : x * u ≤ x * 1 := mul_le_mul_of_nonneg_left (by linarith) h0
        linarith
      obtain ⟨q, q1, q2⟩ := step_small hr x0 hx (by positivity) (by norm_num at nu ⊢; linarith) y2 y3 b1
      exact ⟨q, Or.inl ⟨hx, q2⟩, fun fuel hf => by rw [q1]; exact run fuel hf⟩
    · have hx' := not_le.mp hx
      rcases b1 with ⟨-, b1⟩ | ⟨-, b1⟩
      · obtain ⟨q, q1, q2⟩ := step_large hr (b := 0) (c := 21 / 10 ^ 8 + n * (30 * u)) h0 (by positivity) (by norm_num at nu ⊢; linarith) y2 y3
          (by rw [sub_zero]; exact b1) vle
        refine ⟨q, Or.inr ⟨hx', q2.trans ?_⟩, fun fuel hf => by rw [q1]; exact run fuel hf⟩
        have e1 : ∀ a : ℝ, x * (a + n * (30 * u) + 30 * u) = x * a + x * (n * (30 * u) + 30 * u) := fun a => by ring
        rw [e1, e1]
        norm_num
        linarith
      · obtain ⟨q, q1, q2⟩ := step_large hr (b := 94 / 10 ^ 9) (c := 50 / 10 ^ 8 + n * (30 * u)) h0 (by positivity) (by norm_num at nu ⊢; linarith) y2 y3 b1 vle
        refine ⟨q, Or.inr ⟨hx', q2.trans ?_⟩, fun fuel hf => by rw [q1]; exact run fuel hf⟩
        norm_num
        linarith

theorem double_le {x : ℝ} (h : IsDouble x) : |x| ≤ 2 ^ 1024 := by
  obtain ⟨m, e, rfl, hm, -, he⟩ := h
  have h1 : |(m : ℝ)| ≤ 2 ^ (53 : ℤ) := by
    have : ((|m| : ℤ) : ℝ) ≤ ((2 ^ 53 : ℤ) : ℝ) := by exact_mod_cast hm.le
    push_cast at this
    norm_num at this ⊢
    exact this
  rw [abs_mul, abs_of_pos (by positivity : (0 : ℝ) < 2 ^ e)]
  have h2 : (2 : ℝ) ^ e ≤ 2 ^ (971 : ℤ) := zpow_le_zpow_right₀ (by norm_num) he
  have h3 := mul_le_mul h1 h2 (by positivity) (by positivity)
  rwa [← zpow_add₀ (by norm_num), show (53 : ℤ) + 971 = (1024 : ℕ) by norm_num, zpow_natCast] at h3

/-- `sin_helper` of every double that is not negative is the exact sine of a number near it. -/
theorem sinHelper_sine (ht : RoundsTiesEven ρ) {x : ℝ} (dx : IsDouble x) (h0 : 0 ≤ x) :
    ∃ θ, |θ - x| ≤ 505 / 10 ^ 9 * x ∧ ∀ fuel, 661 ≤ fuel → sinHelper ρ fuel x () = .ok (Real.sin θ) () := by
  have hu := u_pos
  have hu1 := u_lt
  norm_num at hu1
  have hb : x ≤ 2 ^ 1024 := (le_abs_self x).trans (double_le dx)
  obtain ⟨θ, h, hf⟩ := sinHelper_all ht 660 (by norm_num) x dx h0 hb (by
    refine lt_of_le_of_lt hb ?_
    have h3 : (2 : ℝ) ^ 1045 ≤ 3 ^ 660 := by
      have e1 : (2 : ℝ) ^ 1045 = (2 ^ 19) ^ 55 := by rw [← pow_mul]
      have e2 : (3 : ℝ) ^ 660 = (3 ^ 12) ^ 55 := by rw [← pow_mul]
      rw [e1, e2]
      exact pow_le_pow_left₀ (by positivity) (by norm_num) 55
    have e : (2 : ℝ) ^ 1045 = 2 ^ 21 * 2 ^ 1024 := by rw [← pow_add]
    have p : (0 : ℝ) < 2 ^ 1024 := pow_pos two_pos _
    rw [e] at h3
    generalize (2 : ℝ) ^ 1024 = W at *
    generalize (3 : ℝ) ^ 660 = Z at *
    norm_num at h3 ⊢
    have : Z * (999 / 1000) ≤ Z * (1 - 660 * (2 * u)) := mul_le_mul_of_nonneg_left (by linarith only [hu1]) (by linarith only [h3, p])
    linarith only [this, h3, p])
  refine ⟨θ, ?_, fun fuel hfuel => hf fuel hfuel⟩
  norm_num at h ⊢
  rcases h with ⟨-, h⟩ | ⟨-, h⟩ <;> refine h.trans ?_
  · rw [mul_comm]; exact mul_le_mul_of_nonneg_right (by linarith) h0
  · have : x * (1 / 2000000 + 660 * (30 * u)) ≤ x * (101 / 200000000) := mul_le_mul_of_nonneg_left (by linarith) h0
    linarith

/-- A double plus a small number is rounded with a small error, however large the double is. -/
theorem round_shift (hr : RoundsToNearest ρ) {x c : ℝ} (dx : IsDouble x) (c1 : |c| ≤ 4) :
    |ρ (x + c) - (x + c)| ≤ 1 / 10 ^ 9 * |x| + 1 / 10 ^ 9 := by
  have hu := u_pos
  have hu1 := u_lt
  norm_num at hu1
  rcases le_or_gt |x| (4 * 10 ^ 9) with h | h
  · have e := err hr (x := x + c) (B := |x| + 4) ((abs_add_le x c).trans (by linarith)) (by linarith [abs_nonneg x])
      (by norm_num at h ⊢; linarith)
    refine e.trans ?_
    have : u * (|x| + 4) ≤ 1 / 10 ^ 10 * (|x| + 4) := mul_le_mul_of_nonneg_right (by norm_num; linarith) (by positivity)
    norm_num at this ⊢
    linarith [abs_nonneg x]
  · have := hr.nearest (x + c) x dx
    rw [add_sub_cancel_left, abs_sub_comm] at this
    norm_num at h ⊢
    linarith

/-- `sin` of every double is the exact sine of a number near it. -/
theorem sin_sine (ht : RoundsTiesEven ρ) {x : ℝ} (dx : IsDouble x) :
    ∃ θ, |θ - x| ≤ 51 / 10 ^ 8 * (if x < 0 then 4 - x else x) ∧
      ∀ fuel, 661 ≤ fuel → sin ρ fuel x () = .ok (Real.sin θ) () := by
  have hr := ht.toRoundsToNearest
  by_cases h : x < 0
  · obtain ⟨p, -⟩ := mPi_fp hr
    have pg := Real.pi_gt_three
    have pl := Real.pi_lt_d2
    have p' := abs_le.mp p
    norm_num at p' pl
    have e := abs_le.mp (round_shift hr dx.neg (c := mPi ρ) (by rw [abs_of_pos (by linarith)]; linarith))
    rw [abs_neg, abs_of_neg h] at e
    norm_num at e
    obtain ⟨θ, h1, h2⟩ := sinHelper_sine ht (hr.double (-x + mPi ρ)) (by linarith)
    refine ⟨Real.pi - θ, ?_, fun fuel hf => ?_⟩
    · rw [if_pos h]
      rw [abs_le] at h1 ⊢
      norm_num at h1 ⊢
      constructor <;> linarith
    · simp only [sin, h, if_true, fadd]
      rw [Real.sin_pi_sub]
      exact h2 fuel hf
  · obtain ⟨θ, h1, h2⟩ := sinHelper_sine ht dx (not_lt.mp h)
    refine ⟨θ, ?_, fun fuel hf => ?_⟩
    · rw [if_neg h]
      refine h1.trans ?_
      have := not_lt.mp h
      norm_num; linarith
    · simp only [sin, h, if_false]
      exact h2 fuel hf

/-- `cos` of every double is the exact cosine of a number near it. -/
theorem cos_cosine (ht : RoundsTiesEven ρ) {x : ℝ} (dx : IsDouble x) :
    ∃ θ, |θ - x| ≤ 52 / 10 ^ 8 * (|x| + 6) ∧ ∀ fuel, 661 ≤ fuel → cos ρ fuel x () = .ok (Real.cos θ) () := by
  have hr := ht.toRoundsToNearest
  obtain ⟨-, p⟩ := mPi_fp hr
  have pg := Real.pi_gt_three
  have pl := Real.pi_lt_d2
  have p' := abs_le.mp p
  norm_num at p' pl
  have e := abs_le.mp (round_shift hr dx.neg (c := mPi2 ρ) (by rw [abs_of_pos (by linarith)]; linarith))
  rw [abs_neg, neg_add_eq_sub] at e
  norm_num at e
  obtain ⟨θ, h1, h2⟩ := sin_sine ht (hr.double (mPi2 ρ - x))
  have hx := abs_nonneg x
  have a1 := le_abs_self x
  have a2 := neg_abs_le x
  have h3 : |θ - ρ (mPi2 ρ - x)| ≤ 515 / 10 ^ 9 * (|x| + 59 / 10) := by
    refine h1.trans ?_
    norm_num
    split <;> linarith
  refine ⟨Real.pi / 2 - θ, ?_, fun fuel hf => ?_⟩
  · rw [abs_le] at h3 ⊢
    norm_num at h3 ⊢
    constructor <;> linarith
  · rw [Real.cos_pi_div_two_sub]
    exact h2 fuel hf

end Cest.Fp
