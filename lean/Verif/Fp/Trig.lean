import Verif.Fp.Sqrt
import Verif.Cmath.Trig

/-! `sin` and `cos` in binary64 arithmetic. -/
namespace Cest.Fp
open Cest Cest.Cmath

variable {ρ : ℝ → ℝ}

theorem err (hr : RoundsToNearest ρ) {x B : ℝ} (h : |x| ≤ B) (h1 : 1 ≤ B) (h2 : B ≤ 10 ^ 30) :
    |ρ x - x| ≤ u * B := by
  refine abs_err hr h (le_trans ?_ h1) (h2.trans ?_)
  · rw [div_le_one (by positivity)]; exact one_le_pow₀ (by norm_num)
  · exact le_trans (by norm_num : (10 : ℝ) ^ 30 ≤ 2 ^ 100) (pow_le_pow_right₀ (by norm_num) (by norm_num))

theorem arcsin_near' {x : ℝ} (h0 : 0 ≤ x) (h1 : x < 11 / 10000) :
    Real.sin (Real.arcsin x) = x ∧ |Real.arcsin x - x| ≤ x * (1 / 1000000) := by
  have hs : Real.sin (Real.arcsin x) = x := Real.sin_arcsin (by linarith) (by linarith)
  have ha0 : 0 ≤ Real.arcsin x := Real.arcsin_nonneg.mpr h0
  refine ⟨hs, ?_⟩
  have h2 : x ≤ Real.arcsin x := by
    have := Real.sin_le ha0
    linarith
  have h3 : Real.arcsin x ≤ x * (1 + 1 / 1000000) := by
    rcases h0.lt_or_eq with hp | rfl
    · rw [Real.arcsin_le_iff_le_sin' ⟨by nlinarith [Real.pi_gt_three], by nlinarith [Real.pi_gt_three]⟩]
      have ht : 0 < x * (1 + 1 / 1000000) := by positivity
      have := Real.sin_gt_sub_cube ht
      have h3 : (x * (1 + 1 / 1000000)) ^ 3 / 6 ≤ x / 1000000 := by
        have : x ^ 2 ≤ 2 / 1000000 := by nlinarith
        have e : (x * (1 + 1 / 1000000)) ^ 3 / 6 = x * (x ^ 2 * ((1 + 1 / 1000000) ^ 3 / 6)) := by ring
        rw [e, div_eq_mul_one_div]
        apply mul_le_mul_of_nonneg_left _ h0
        nlinarith
      linarith
    · simp
  rw [abs_of_nonneg (by linarith)]
  linarith

/-- The rounded evaluation of `3 * a - 4 * cube(a)`. -/
theorem triple_err (hr : RoundsToNearest ρ) {a : ℝ} (ha : |a| ≤ 104 / 100) :
    |fsub ρ (fmul ρ 3 a) (fmul ρ 4 (cube ρ a)) - (3 * a - 4 * a ^ 3)| ≤ 64 * u := by
  have hu := u_pos
  have hu1 := u_lt
  norm_num at hu1
  simp only [fsub, fmul, cube]
  obtain ⟨a1, a2⟩ := abs_le.mp ha
  have e1 := err hr (x := 3 * a) (B := 4) (by rw [abs_le]; constructor <;> linarith) (by norm_num) (by norm_num)
  have s0 : 0 ≤ a * a := mul_self_nonneg a
  have s1 : a * a ≤ 11 / 10 := by nlinarith
  have e2 := err hr (x := a * a) (B := 2) (by rw [abs_le]; constructor <;> linarith) (by norm_num) (by norm_num)
  obtain ⟨b1, b2⟩ := abs_le.mp e2
  have c0 : |ρ (a * a) * a - a ^ 3| ≤ 3 * u := by
    rw [show ρ (a * a) * a - a ^ 3 = (ρ (a * a) - a * a) * a by ring, abs_mul]
    have := mul_le_mul e2 ha (abs_nonneg a) (by linarith)
    linarith
  have c1 : |a ^ 3| ≤ 12 / 10 := by
    rw [show a ^ 3 = a * a * a by ring, abs_mul, abs_of_nonneg s0]
    have := mul_le_mul s1 ha (abs_nonneg a) (by linarith)
    linarith
  obtain ⟨c2, c3⟩ := abs_le.mp c0
  obtain ⟨c4, c5⟩ := abs_le.mp c1
  have e3 := err hr (x := ρ (a * a) * a) (B := 2) (by rw [abs_le]; constructor <;> linarith) (by norm_num)
    (by norm_num)
  obtain ⟨d1, d2⟩ := abs_le.mp e3
  have e4 := err hr (x := 4 * ρ (ρ (a * a) * a)) (B := 8) (by rw [abs_le]; constructor <;> linarith) (by norm_num)
    (by norm_num)
  obtain ⟨f1, f2⟩ := abs_le.mp e4
  obtain ⟨g1, g2⟩ := abs_le.mp e1
  have e5 := err hr (x := ρ (3 * a) - ρ (4 * ρ (ρ (a * a) * a))) (B := 9)
    (by rw [abs_le]; constructor <;> linarith) (by norm_num) (by norm_num)
  obtain ⟨k1, k2⟩ := abs_le.mp e5
  rw [abs_le]
  constructor <;> linarith

/-- How an error in the sine of an angle grows when the angle is tripled. -/
theorem triple_grow {a s β : ℝ} (hs : |s| ≤ 1) (h : |a - s| ≤ β) (hβ : β ≤ 1 / 4) :
    |(3 * a - 4 * a ^ 3) - (3 * s - 4 * s ^ 3)| ≤ 9 * β + 13 * β ^ 2 := by
  set b := a - s with hb
  have e : (3 * a - 4 * a ^ 3) - (3 * s - 4 * s ^ 3) = b * (3 - 12 * s ^ 2) - (12 * s * b ^ 2 + 4 * b ^ 3) := by
    have : a = s + b := by rw [hb]; ring
    rw [this]; ring
  have b0 : 0 ≤ β := (abs_nonneg _).trans h
  have s2 : s ^ 2 ≤ 1 := by rw [← sq_abs]; exact pow_le_one₀ (abs_nonneg s) hs
  have t1 : |b * (3 - 12 * s ^ 2)| ≤ β * 9 := by
    rw [abs_mul]
    refine mul_le_mul h ?_ (abs_nonneg _) b0
    rw [abs_le]; constructor <;> nlinarith [sq_nonneg s]
  have hb2 : b ^ 2 ≤ β ^ 2 := by rw [← sq_abs]; exact pow_le_pow_left₀ (abs_nonneg b) h 2
  have t2 : |12 * s * b ^ 2| ≤ 12 * β ^ 2 := by
    rw [abs_mul, abs_mul, abs_of_nonneg (sq_nonneg b)]
    have : |(12 : ℝ)| * |s| ≤ 12 := by rw [abs_of_pos (by norm_num)]; linarith
    exact mul_le_mul this hb2 (sq_nonneg b) (by norm_num)
  have t3 : |4 * b ^ 3| ≤ β ^ 2 := by
    rw [abs_mul, abs_of_pos (by norm_num : (0 : ℝ) < 4), pow_succ, abs_mul, abs_of_nonneg (sq_nonneg b)]
    have := mul_le_mul hb2 (h.trans hβ) (abs_nonneg b) (sq_nonneg β)
    linarith
  rw [e]
  refine (abs_sub _ _).trans ?_
  have := abs_add_le (12 * s * b ^ 2) (4 * b ^ 3)
  linarith

theorem sinHelper_base (hr : RoundsToNearest ρ) {x : ℝ} (h0 : 0 ≤ x) (h : x < tol ρ) (fuel : ℕ) :
    Real.sin (Real.arcsin x) = x ∧ |Real.arcsin x - x| ≤ x * (1 / 1000000) ∧
      sinHelper ρ (fuel + 1) x () = .ok x () := by
  have hu1 := u_lt
  norm_num at hu1
  have ht := (tol_bounds hr).2
  obtain ⟨a1, a2⟩ := arcsin_near' h0 (by linarith)
  refine ⟨a1, a2, ?_⟩
  simp only [sinHelper, if_pos h]; rfl

/-- The error after `n` triplings. -/
noncomputable def β (n : ℕ) : ℝ := 2 * (64 * u * 9 ^ n) + 8 * (64 * u * 9 ^ n) ^ 2 - 64 * u

theorem β_bounds (n : ℕ) (h : 64 * u * 9 ^ n ≤ 1 / 80) : 0 ≤ β n ∧ β n ≤ 21 / 10 * (64 * u * 9 ^ n) := by
  have hu := u_pos
  have h1 : (1 : ℝ) ≤ 9 ^ n := one_le_pow₀ (by norm_num)
  have h2 : 64 * u * 1 ≤ 64 * u * 9 ^ n := mul_le_mul_of_nonneg_left h1 (by linarith)
  unfold β
  generalize 64 * u * 9 ^ n = y at *
  have : 0 ≤ y := by linarith
  constructor <;> nlinarith

theorem β_succ (n : ℕ) (h : 64 * u * 9 ^ n ≤ 1 / 80) : 9 * β n + 13 * β n ^ 2 + 64 * u ≤ β (n + 1) := by
  obtain ⟨h0, h1⟩ := β_bounds n h
  have hu := u_pos
  have h2 : β n ^ 2 ≤ (21 / 10 * (64 * u * 9 ^ n)) ^ 2 := pow_le_pow_left₀ h0 h1 2
  have e : β (n + 1) = 18 * (64 * u * 9 ^ n) + 648 * (64 * u * 9 ^ n) ^ 2 - 64 * u := by
    unfold β; rw [pow_succ]; ring
  rw [e]
  have e2 : β n = 2 * (64 * u * 9 ^ n) + 8 * (64 * u * 9 ^ n) ^ 2 - 64 * u := rfl
  generalize 64 * u * 9 ^ n = y at *
  nlinarith [sq_nonneg y]

theorem sinHelper_fp (hr : RoundsToNearest ρ) (n : ℕ) (hn : n ≤ 1000000) (hy : 64 * u * 9 ^ n ≤ 1 / 80) :
    ∀ x : ℝ, 0 ≤ x → x ≤ 1000000 → x < 999 / 1000000 * 3 ^ n * (1 - n * (2 * u)) →
    ∃ v θ, |θ - x| ≤ x * (1 / 1000000 + n * (2 * u)) ∧ |v - Real.sin θ| ≤ β n ∧
      ∀ fuel, n + 1 ≤ fuel → sinHelper ρ fuel x () = .ok v () := by
  have hu := u_pos
  have hu1 := u_lt
  obtain ⟨ht1, ht2⟩ := tol_bounds hr
  norm_num at hu1
  induction n with
  | zero =>
    intro x h0 hb h1
    have ht : x < tol ρ := by norm_num at h1; linarith
    obtain ⟨a1, a2, -⟩ := sinHelper_base hr h0 ht 0
    refine ⟨x, Real.arcsin x, by simpa using a2, ?_, fun fuel hf => ?_⟩
    · rw [a1, sub_self, abs_zero]; exact (β_bounds _ hy).1
    · obtain ⟨k, rfl⟩ : ∃ k, fuel = k + 1 := ⟨fuel - 1, by omega⟩
      exact (sinHelper_base hr h0 ht k).2.2
  | succ n ih =>
    intro x h0 hb h1
    by_cases ht : x < tol ρ
    · obtain ⟨a1, a2, -⟩ := sinHelper_base hr h0 ht 0
      refine ⟨x, Real.arcsin x, a2.trans ?_, ?_, fun fuel hf => ?_⟩
      · refine mul_le_mul_of_nonneg_left ?_ h0
        have : 0 ≤ ((n + 1 : ℕ) : ℝ) * (2 * u) := by positivity
        linarith
      · rw [a1, sub_self, abs_zero]; exact (β_bounds _ hy).1
      · obtain ⟨k, rfl⟩ : ∃ k, fuel = k + 1 := ⟨fuel - 1, by omega⟩
        exact (sinHelper_base hr h0 ht k).2.2
    · have hyn : 64 * u * 9 ^ n ≤ 1 / 80 := by
        rw [pow_succ] at hy
        have : 0 ≤ 64 * u * 9 ^ n := by positivity
        linarith
      have hnr : ((n + 1 : ℕ) : ℝ) ≤ 1000000 := by exact_mod_cast hn
      push_cast at hnr
      have hn0 : (0 : ℝ) ≤ n := by positivity
      obtain ⟨t0, t1⟩ := one_T
      have hT := T_ge
      norm_num at t1 hT
      have y1 := rb hr (y := x / 3) (by norm_num at *; linarith) (by norm_num at *; linarith)
      set y := ρ (x / 3) with hydef
      have x0 : 0 < x := by norm_num at *; linarith
      have hyle : y < 999 / 1000000 * 3 ^ n * (1 - n * (2 * u)) := by
        refine lt_of_le_of_lt y1.2 ?_
        have h3 : x / 3 < 999 / 1000000 * 3 ^ n * (1 - (n + 1) * (2 * u)) := by
          rw [pow_succ] at h1; push_cast at h1; linarith
        have h4 : (1 - (n + 1) * (2 * u)) * (1 + u) ≤ 1 - n * (2 * u) := by
          have e : (1 - (n + 1) * (2 * u)) * (1 + u) = 1 - n * (2 * u) - u - (n + 1) * (2 * u) * u := by ring
          have : 0 ≤ ((n : ℝ) + 1) * (2 * u) * u := by positivity
          linarith
        have h5 : (0 : ℝ) < 999 / 1000000 * 3 ^ n := by positivity
        calc x / 3 * (1 + u) < 999 / 1000000 * 3 ^ n * (1 - (n + 1) * (2 * u)) * (1 + u) :=
              mul_lt_mul_of_pos_right h3 (by linarith)
          _ = 999 / 1000000 * 3 ^ n * ((1 - (n + 1) * (2 * u)) * (1 + u)) := by ring
          _ ≤ _ := mul_le_mul_of_nonneg_left h4 h5.le
      obtain ⟨v, θ, b1, b2, b3⟩ := ih (by omega) hyn y (by nlinarith) (by nlinarith) hyle
      obtain ⟨B0, B1⟩ := β_bounds n hyn
      have hs : |Real.sin θ| ≤ 1 := Real.abs_sin_le_one θ
      have hv : |v| ≤ 104 / 100 := by
        have := abs_sub_abs_le_abs_sub v (Real.sin θ)
        linarith
      refine ⟨fsub ρ (fmul ρ 3 v) (fmul ρ 4 (cube ρ v)), 3 * θ, ?_, ?_, fun fuel hf => ?_⟩
      rotate_left 2
      · obtain ⟨k, rfl⟩ : ∃ k, fuel = k + 1 := ⟨fuel - 1, by omega⟩
        simp only [sinHelper, if_neg ht, M.bind_apply, fdiv_ok (three_ne_zero (α := ℝ)), ← hydef,
          b3 k (by omega), M.pure_apply]
      · have δ : (n : ℝ) * (2 * u) ≤ 1 / 1000 := by nlinarith
        have h6 : y * (1 / 1000000 + n * (2 * u)) ≤ x / 3 * (1 + u) * (1 / 1000000 + n * (2 * u)) :=
          mul_le_mul_of_nonneg_right y1.2 (by positivity)
        have h7 : x / 3 * (1 + u) * (1 / 1000000 + n * (2 * u)) ≤
            x / 3 * (1 / 1000000 + n * (2 * u) + u) := by
          rw [mul_assoc]
          refine mul_le_mul_of_nonneg_left ?_ (by positivity)
          nlinarith
        push_cast
        rw [abs_le] at b1 ⊢
        constructor <;> nlinarith
      · have g1 := triple_err hr hv
        have g2 := triple_grow hs b2 (by linarith)
        have g3 := β_succ n hyn
        rw [Real.sin_three_mul]
        have := abs_sub_le (fsub ρ (fmul ρ 3 v) (fmul ρ 4 (cube ρ v))) (3 * v - 4 * v ^ 3)
          (3 * Real.sin θ - 4 * Real.sin θ ^ 3)
        linarith

/-- The number of triplings. -/
theorem exists_level {x : ℝ} (h0 : 0 ≤ x) (h1 : x ≤ 430) :
    ∃ n : ℕ, n ≤ 1000000 ∧ 64 * u * 9 ^ n ≤ 66 / 1000000000 * (x + 1) ^ 2 ∧ 64 * u * 9 ^ n ≤ 1 / 80 ∧
      x < 999 / 1000000 * 3 ^ n * (1 - n * (2 * u)) := by
  have hu := u_pos
  have hu1 := u_lt
  norm_num at hu1
  obtain ⟨k, k1, k2⟩ := exists_nat_pow_near (x := (x + 1) * 1003) (y := 3) (by linarith) (by norm_num)
  have hk : k + 1 ≤ 1000000 := by
    have : (k : ℝ) < 3 ^ k := by exact_mod_cast Nat.lt_pow_self (by norm_num : 1 < 3)
    have : (k : ℝ) < 999999 := by linarith
    have : k < 999999 := by exact_mod_cast this
    omega
  have h9 : 64 * u * 9 ^ (k + 1) ≤ 66 / 1000000000 * (x + 1) ^ 2 := by
    have e : (9 : ℝ) ^ (k + 1) = 9 * (3 ^ k) ^ 2 := by
      rw [pow_succ, show (9 : ℝ) = 3 ^ 2 by norm_num, ← pow_mul, ← pow_mul]; ring
    have h2 : (3 ^ k : ℝ) ^ 2 ≤ ((x + 1) * 1003) ^ 2 := pow_le_pow_left₀ (by positivity) k1 2
    have hu2 : 64 * u ≤ 711 / 10 ^ 17 := by unfold u; norm_num
    rw [e]
    calc 64 * u * (9 * (3 ^ k) ^ 2) ≤ 711 / 10 ^ 17 * (9 * ((x + 1) * 1003) ^ 2) :=
          mul_le_mul hu2 (by linarith) (by positivity) (by positivity)
      _ = 711 / 10 ^ 17 * 9 * 1003 ^ 2 * (x + 1) ^ 2 := by ring
      _ ≤ 66 / 1000000000 * (x + 1) ^ 2 := mul_le_mul_of_nonneg_right (by norm_num) (sq_nonneg _)
  refine ⟨k + 1, hk, h9, h9.trans ?_, ?_⟩
  · have : (x + 1) ^ 2 ≤ 431 ^ 2 := pow_le_pow_left₀ (by linarith) (by linarith) 2
    norm_num at this ⊢
    linarith
  · have hk' : ((k + 1 : ℕ) : ℝ) ≤ 1000000 := by exact_mod_cast hk
    have h3 : (999 : ℝ) / 1000 ≤ 1 - ((k + 1 : ℕ) : ℝ) * (2 * u) := by nlinarith
    have h4 := mul_lt_mul_of_pos_left k2 (by norm_num : (0 : ℝ) < 999 / 1000000)
    have h5 : (0 : ℝ) < 999 / 1000000 * 3 ^ (k + 1) := by positivity
    have h6 := mul_le_mul_of_nonneg_left h3 h5.le
    linarith

theorem sinHelper_near (hr : RoundsToNearest ρ) {x : ℝ} (h0 : 0 ≤ x) (h1 : x ≤ 430) :
    ∃ v, Gives (fun fuel => sinHelper ρ fuel x) v ∧
      |v - Real.sin x| ≤ 11 / 10 ^ 7 * x + 14 / 10 ^ 8 * (x + 1) ^ 2 := by
  have hu := u_pos
  have hu1 := u_lt
  norm_num at hu1
  obtain ⟨n, n1, n2, n3, n4⟩ := exists_level h0 h1
  obtain ⟨v, θ, a1, a2, a3⟩ := sinHelper_fp hr n n1 n3 x h0 (by linarith) n4
  refine ⟨v, ⟨n + 1, a3⟩, ?_⟩
  have b := (β_bounds n n3).2
  have hs := Real.abs_sin_sub_sin_le θ x
  have ht := abs_sub_le v (Real.sin θ) (Real.sin x)
  have hn : (n : ℝ) ≤ 1000000 := by exact_mod_cast n1
  have hn2 : 1 / 1000000 + n * (2 * u) ≤ 11 / 10 ^ 7 := by norm_num; nlinarith
  have := mul_le_mul_of_nonneg_left hn2 h0
  norm_num at this ⊢
  nlinarith [sq_nonneg (x + 1)]

theorem mPi_fp (hr : RoundsToNearest ρ) :
    |mPi ρ - Real.pi| ≤ 2 / 10 ^ 15 ∧ |mPi2 ρ - Real.pi / 2| ≤ 2 / 10 ^ 15 := by
  have hu1 := u_lt
  obtain ⟨h1, h2⟩ := mPi_near
  simp only [mPi, mPi2, id] at h1 h2
  have e1 := err hr (x := 3141592653589793 / 1000000000000000) (B := 4)
    (by rw [abs_of_pos (by norm_num)]; norm_num) (by norm_num) (by norm_num)
  have e2 := err hr (x := 1570796326794897 / 1000000000000000) (B := 2)
    (by rw [abs_of_pos (by norm_num)]; norm_num) (by norm_num) (by norm_num)
  have t1 := abs_sub_le (mPi ρ) (3141592653589793 / 1000000000000000) Real.pi
  have t2 := abs_sub_le (mPi2 ρ) (1570796326794897 / 1000000000000000) (Real.pi / 2)
  simp only [mPi, mPi2] at *
  norm_num at *
  constructor <;> linarith

theorem sin_fp (hr : RoundsToNearest ρ) {x : ℝ} (hx : |x| ≤ 420) :
    ∃ v, Gives (fun fuel => sin ρ fuel x) v ∧
      |v - Real.sin x| ≤ 2 / 10 ^ 6 * (|x| + 4) + 14 / 10 ^ 8 * (|x| + 5) ^ 2 := by
  have hu := u_pos
  have hu1 := u_lt
  norm_num at hu1
  by_cases h : x < 0
  · obtain ⟨p, -⟩ := mPi_fp hr
    have pg := Real.pi_gt_three
    have pl := Real.pi_lt_d2
    norm_num at p pl
    rw [abs_of_neg h] at hx ⊢
    have p' := abs_le.mp p
    have e := err hr (x := -x + mPi ρ) (B := 1000) (by rw [abs_of_nonneg (by linarith)]; linarith)
      (by norm_num) (by norm_num)
    have e' := abs_le.mp e
    obtain ⟨v, hv, hb⟩ := sinHelper_near hr (x := ρ (-x + mPi ρ)) (by linarith) (by linarith)
    refine ⟨v, ?_, ?_⟩
    · obtain ⟨N, hN⟩ := hv
      exact ⟨N, fun fuel hf => by simp only [sin, h, if_true, fadd]; exact hN fuel hf⟩
    · have s := Real.abs_sin_sub_sin_le (ρ (-x + mPi ρ)) (Real.pi - x)
      rw [Real.sin_pi_sub] at s
      have t := abs_sub_le v (Real.sin (ρ (-x + mPi ρ))) (Real.sin x)
      have d : |ρ (-x + mPi ρ) - (Real.pi - x)| ≤ 1 / 10 ^ 10 := by
        norm_num
        rw [abs_le]; constructor <;> linarith
      have q : (ρ (-x + mPi ρ) + 1) ^ 2 ≤ (-x + 5) ^ 2 := pow_le_pow_left₀ (by linarith) (by linarith) 2
      norm_num at hb d ⊢
      linarith
  · have h0 := not_lt.mp h
    rw [abs_of_nonneg h0] at hx ⊢
    obtain ⟨v, hv, hb⟩ := sinHelper_near hr h0 (by linarith)
    refine ⟨v, ?_, ?_⟩
    · obtain ⟨N, hN⟩ := hv
      exact ⟨N, fun fuel hf => by simp only [sin, h, if_false]; exact hN fuel hf⟩
    · have q : (x + 1) ^ 2 ≤ (x + 5) ^ 2 := pow_le_pow_left₀ (by linarith) (by linarith) 2
      norm_num at hb ⊢
      linarith

theorem cos_fp (hr : RoundsToNearest ρ) {x : ℝ} (hx : |x| ≤ 400) :
    ∃ v, Gives (fun fuel => cos ρ fuel x) v ∧
      |v - Real.cos x| ≤ 2 / 10 ^ 6 * (|x| + 6) + 14 / 10 ^ 8 * (|x| + 7) ^ 2 := by
  have hu := u_pos
  have hu1 := u_lt
  norm_num at hu1
  obtain ⟨-, p⟩ := mPi_fp hr
  have pg := Real.pi_gt_three
  have pl := Real.pi_lt_d2
  norm_num at p pl
  have p' := abs_le.mp p
  have hx' := abs_le.mp hx
  have e := err hr (x := mPi2 ρ - x) (B := 1000) (by rw [abs_le]; constructor <;> linarith)
    (by norm_num) (by norm_num)
  have e' := abs_le.mp e
  have d : |ρ (mPi2 ρ - x) - (Real.pi / 2 - x)| ≤ 1 / 10 ^ 10 := by
    norm_num
    rw [abs_le]; constructor <;> linarith
  have hle : |ρ (mPi2 ρ - x)| ≤ |x| + 16 / 10 := by
    have h1 := abs_sub_abs_le_abs_sub (ρ (mPi2 ρ - x)) (Real.pi / 2 - x)
    have h2 := abs_sub (Real.pi / 2) x
    rw [abs_of_pos (by linarith : 0 < Real.pi / 2)] at h2
    norm_num at d
    linarith
  obtain ⟨v, hv, hb⟩ := sin_fp hr (x := ρ (mPi2 ρ - x)) (by linarith)
  refine ⟨v, hv, ?_⟩
  have s := Real.abs_sin_sub_sin_le (ρ (mPi2 ρ - x)) (Real.pi / 2 - x)
  rw [Real.sin_pi_div_two_sub] at s
  have t := abs_sub_le v (Real.sin (ρ (mPi2 ρ - x))) (Real.cos x)
  have q : (|ρ (mPi2 ρ - x)| + 5) ^ 2 ≤ (|x| + 7) ^ 2 :=
    pow_le_pow_left₀ (by positivity) (by linarith) 2
  norm_num at hb d ⊢
  linarith

end Cest.Fp
