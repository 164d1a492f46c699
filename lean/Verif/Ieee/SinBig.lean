import Verif.Ieee.Log

/-! `sin` and `cos` of large arguments: neighbouring doubles get the same value. -/
namespace Cest.Ieee
open Cest.Cmath (FM IsDouble RoundsToNearest)
open D Classical

variable {ρ : ℝ → ℝ}

/-- Above 2⁵³ everything within one of an even number is rounded to it. -/
theorem round_even (hr : RoundsToNearest ρ) {y : ℝ} {k : ℤ} (hk : IsDouble ((2 * k : ℤ) : ℝ)) (h : |y - (2 * k : ℤ)| < 1)
    (hb : 2 ^ 53 + 2 ≤ |y|) : ρ y = (2 * k : ℤ) := by
  have h1 := hr.nearest y _ hk
  have h2 : |y - ρ y| < 1 := lt_of_le_of_lt h1 h
  have h3 : (2 : ℝ) ^ (53 : ℤ) ≤ |ρ y| := by
    have := abs_sub_abs_le_abs_sub y (ρ y)
    have e : (2 : ℝ) ^ (53 : ℤ) = 2 ^ 53 := by norm_cast
    rw [e]; linarith
  obtain ⟨n, hn⟩ := Fp.grid (hr.double y) h3
  norm_num at hn
  rw [hn] at h2 ⊢
  rw [abs_lt] at h h2
  push_cast at h h2 ⊢
  have h4 : (n : ℝ) - k < 1 := by linarith
  have h5 : (k : ℝ) - n < 1 := by linarith
  have h6 : n = k := by
    have a : n - k < 1 := by exact_mod_cast h4
    have b : k - n < 1 := by exact_mod_cast h5
    omega
  rw [h6]; ring

/-- Above 2⁵² everything within one half of an integer is rounded to it. -/
theorem round_int (hr : RoundsToNearest ρ) {y : ℝ} {k : ℤ} (hk : IsDouble (k : ℝ)) (h : |y - k| < 1 / 2)
    (hb : 2 ^ 52 + 1 / 2 ≤ y) : ρ y = k := by
  have h1 := hr.nearest y _ hk
  have h2 : |y - ρ y| < 1 / 2 := lt_of_le_of_lt h1 h
  have h3 : (2 : ℝ) ^ (52 : ℤ) ≤ |ρ y| := by
    have := abs_lt.mp h2
    have e : (2 : ℝ) ^ (52 : ℤ) = 2 ^ 52 := by norm_cast
    rw [e]
    exact le_trans (by linarith) (le_abs_self _)
  obtain ⟨n, hn⟩ := Fp.grid (hr.double y) h3
  norm_num at hn
  rw [hn] at h2 ⊢
  rw [abs_lt] at h h2
  have h4 : (n : ℝ) - k < 1 := by linarith
  have h5 : (k : ℝ) - n < 1 := by linarith
  have h6 : n = k := by
    have a : n - k < 1 := by exact_mod_cast h4
    have b : k - n < 1 := by exact_mod_cast h5
    omega
  rw [h6]

theorem isDouble_even {k : ℤ} (h : |k| < 2 ^ 53) : IsDouble ((2 * k : ℤ) : ℝ) :=
  ⟨k, 1, by push_cast; ring, h, by norm_num, by norm_num⟩

/-- Two neighbouring doubles of every three between 3·2⁵² and 2⁵⁴ have the same third. -/
theorem third_eq (hr : RoundsToNearest ρ) {j : ℤ} (h0 : 0 ≤ j) (h1 : 6 * j + 10 ≤ 2 ^ 52) {A : D} {x : ℝ} (hA : Is A x)
    (hx : x = 3 * 2 ^ 52 + 6 * j + 2 ∨ x = 3 * 2 ^ 52 + 6 * j + 4) :
    div ρ A (fin 3) = fin ((2 ^ 52 + 2 * j + 1 : ℤ) : ℝ) := by
  have j0 : (0 : ℝ) ≤ j := by exact_mod_cast h0
  have j1 : 6 * (j : ℝ) + 10 ≤ 2 ^ 52 := by exact_mod_cast h1
  have hl := lim_big
  norm_num at hl j1
  have hd : IsDouble ((2 ^ 52 + 2 * j + 1 : ℤ) : ℝ) := ⟨2 ^ 52 + 2 * j + 1, 0, by simp, by
    rw [abs_of_nonneg (by positivity)]; omega, by norm_num, by norm_num⟩
  have e : ρ (x / 3) = (2 ^ 52 + 2 * j + 1 : ℤ) := by
    refine round_int hr hd ?_ ?_
    · push_cast
      rw [abs_lt]
      rcases hx with rfl | rfl <;> norm_num <;> constructor <;> linarith
    · rcases hx with rfl | rfl <;> norm_num <;> linarith
  have hi : Is (div ρ A (fin 3)) (ρ (x / 3)) := hA.div (is_fin 3) (by norm_num) (by
    rw [abs_lt]
    rcases hx with rfl | rfl <;> norm_num <;> constructor <;> linarith)
  rw [e] at hi
  exact D.Is.eq_fin hi (by push_cast; positivity)

theorem helper_eq (hr : RoundsToNearest ρ) {j : ℤ} (h0 : 0 ≤ j) (h1 : 6 * j + 10 ≤ 2 ^ 52) {A A' : D}
    (hA : Is A (3 * 2 ^ 52 + 6 * j + 2)) (hA' : Is A' (3 * 2 ^ 52 + 6 * j + 4)) (fuel : ℕ) :
    sinHelper ρ fuel A () = sinHelper ρ fuel A' () := by
  have j0 : (0 : ℝ) ≤ j := by exact_mod_cast h0
  have ht := tol_pos hr
  cases fuel with
  | zero => rfl
  | succ n =>
    have c : ¬ lt A (tol ρ) := fun hc => by
      have := (hA.lt (is_fin _)).mp hc
      norm_num at this
      linarith [ht.2]
    have c' : ¬ lt A' (tol ρ) := fun hc => by
      have := (hA'.lt (is_fin _)).mp hc
      norm_num at this
      linarith [ht.2]
    rw [sinHelper, sinHelper, if_neg c, if_neg c', third_eq hr h0 h1 hA (Or.inl rfl), third_eq hr h0 h1 hA' (Or.inr rfl)]

theorem sin_eq (hr : RoundsToNearest ρ) {j : ℤ} (h0 : 0 ≤ j) (h1 : 6 * j + 10 ≤ 2 ^ 52) (fuel : ℕ) :
    sin ρ fuel (fin (3 * 2 ^ 52 + 6 * j + 2)) () = sin ρ fuel (fin (3 * 2 ^ 52 + 6 * j + 4)) () := by
  have j0 : (0 : ℝ) ≤ j := by exact_mod_cast h0
  unfold sin
  rw [if_neg, if_neg]
  · exact helper_eq hr h0 h1 (is_fin _) (is_fin _) fuel
  · rw [(is_fin _).lt (is_fin 0), not_lt]; positivity
  · rw [(is_fin _).lt (is_fin 0), not_lt]; positivity

/-- `cos` of an even number in this range is `sin_helper` of the number plus two. -/
theorem cosArg_big (hr : RoundsToNearest ρ) {k : ℤ} (h0 : 3 * 2 ^ 51 ≤ k) (h1 : k + 1 < 2 ^ 53) :
    ∃ A, Is A ((2 * (k + 1) : ℤ) : ℝ) ∧ ∀ fuel, cos ρ fuel (fin ((2 * k : ℤ) : ℝ)) () = sinHelper ρ fuel A () := by
  obtain ⟨p1, p2⟩ := Fp.mPi_fp hr
  have q1 := Real.pi_gt_d4
  have q2 := Real.pi_lt_d4
  rw [abs_le] at p1 p2
  norm_num at p1 p2 q1 q2
  have k0 : (3 : ℝ) * 2 ^ 51 ≤ k := by exact_mod_cast h0
  have k1 : (k : ℝ) + 1 < 2 ^ 53 := by exact_mod_cast h1
  have hl := lim_big
  norm_num at hl k0 k1
  have hk : IsDouble ((2 * k : ℤ) : ℝ) := isDouble_even (by rw [abs_of_nonneg] <;> omega)
  have e1 : ρ (Cmath.mPi2 ρ - (2 * k : ℤ)) = (2 * (-(k - 1)) : ℤ) := by
    refine round_even hr (isDouble_even (by rw [abs_neg, abs_of_nonneg] <;> omega)) ?_ ?_
    · push_cast; rw [abs_lt]; constructor <;> linarith
    · rw [abs_of_neg] <;> push_cast <;> norm_num <;> linarith
  have a1 : Is (sub ρ (mPi2 ρ) (fin ((2 * k : ℤ) : ℝ))) ((2 * (-(k - 1)) : ℤ) : ℝ) := by
    rw [← e1]
    exact is_cosArg hr (is_fin _) (valid_fin hk)
  have a2 := (is_sinArg hr a1 (valid_add hr)).1
  have neg : ((2 * (-(k - 1)) : ℤ) : ℝ) < 0 := by push_cast; linarith
  rw [if_pos neg] at a2
  have e2 : ρ (-((2 * (-(k - 1)) : ℤ) : ℝ) + Cmath.mPi ρ) = (2 * (k + 1) : ℤ) := by
    refine round_even hr (isDouble_even (by rw [abs_of_nonneg] <;> omega)) ?_ ?_
    · push_cast; rw [abs_lt]; constructor <;> linarith
    · rw [abs_of_pos] <;> push_cast <;> norm_num <;> linarith
  rw [e2] at a2
  exact ⟨_, a2, fun fuel => rfl⟩

theorem cos_eq (hr : RoundsToNearest ρ) {j : ℤ} (h0 : 0 ≤ j) (h1 : 6 * j + 10 ≤ 2 ^ 52) (fuel : ℕ) :
    cos ρ fuel (fin (3 * 2 ^ 52 + 6 * j)) () = cos ρ fuel (fin (3 * 2 ^ 52 + 6 * j + 2)) () := by
  obtain ⟨A, a1, a2⟩ := cosArg_big hr (k := 3 * 2 ^ 51 + 3 * j) (by omega) (by omega)
  obtain ⟨B, b1, b2⟩ := cosArg_big hr (k := 3 * 2 ^ 51 + 3 * j + 1) (by omega) (by omega)
  have e1 : ((2 * (3 * 2 ^ 51 + 3 * j) : ℤ) : ℝ) = 3 * 2 ^ 52 + 6 * j := by push_cast; ring
  have e2 : ((2 * (3 * 2 ^ 51 + 3 * j + 1) : ℤ) : ℝ) = 3 * 2 ^ 52 + 6 * j + 2 := by push_cast; ring
  have e3 : ((2 * (3 * 2 ^ 51 + 3 * j + 1 + 1) : ℤ) : ℝ) = 3 * 2 ^ 52 + 6 * j + 4 := by push_cast; ring
  rw [e1] at a2
  rw [e2] at b2 a1
  rw [e3] at b1
  rw [a2, b2]
  exact helper_eq hr h0 h1 a1 b1 fuel

theorem sin_one_ge : 3 / 4 ≤ Real.sin 1 := by
  have := Real.sin_gt_sub_cube (x := 1) (by norm_num)
  norm_num at this
  linarith

theorem sin_six : 27 / 100 ≤ |Real.sin 6| := by
  have h1 := Real.pi_gt_d4
  have h2 := Real.pi_lt_d4
  have e : Real.sin 6 = -Real.sin (2 * Real.pi - 6) := by rw [Real.sin_two_pi_sub]; ring
  rw [e, abs_neg]
  have h3 := Real.sin_gt_sub_cube (x := 2 * Real.pi - 6) (by linarith)
  refine le_trans ?_ (le_abs_self _)
  have h4 : 283 / 1000 ≤ 2 * Real.pi - 6 := by linarith
  have h5 : 2 * Real.pi - 6 ≤ 284 / 1000 := by linarith
  generalize 2 * Real.pi - 6 = t at *
  have h6 : t ^ 3 ≤ (284 / 1000) ^ 3 := pow_le_pow_left₀ (by linarith) h5 3
  norm_num at h6
  linarith

/-- One value cannot be near the sines of all of `a`, `a+2`, `a+6`, `a+8` if the first two share it and the last two too. -/
theorem sin_spread {a v w : ℝ} (h1 : |v - Real.sin a| < 1 / 10) (h2 : |v - Real.sin (a + 2)| < 1 / 10)
    (h3 : |w - Real.sin (a + 6)| < 1 / 10) (h4 : |w - Real.sin (a + 8)| < 1 / 10) : False := by
  have s1 := sin_one_ge
  have s6 := sin_six
  have k1 : |Real.sin (a + 2) - Real.sin a| < 1 / 5 := by
    rw [abs_lt] at *; constructor <;> linarith
  have k2 : |Real.sin (a + 8) - Real.sin (a + 6)| < 1 / 5 := by
    rw [abs_lt] at *; constructor <;> linarith
  have e1 : Real.sin (a + 2) - Real.sin a = 2 * (Real.sin 1 * Real.cos (a + 1)) := by
    rw [Real.sin_sub_sin]; ring_nf
  have e2 : Real.sin (a + 8) - Real.sin (a + 6) = 2 * (Real.sin 1 * Real.cos (a + 7)) := by
    rw [Real.sin_sub_sin]; ring_nf
  rw [e1, abs_mul, abs_mul, abs_of_pos (by norm_num : (0 : ℝ) < 2), abs_of_pos (by linarith)] at k1
  rw [e2, abs_mul, abs_mul, abs_of_pos (by norm_num : (0 : ℝ) < 2), abs_of_pos (by linarith)] at k2
  have c1 : |Real.cos (a + 1)| < 134 / 1000 := by nlinarith [abs_nonneg (Real.cos (a + 1))]
  have c2 : |Real.cos (a + 7)| < 134 / 1000 := by nlinarith [abs_nonneg (Real.cos (a + 7))]
  have e3 : Real.sin 6 = Real.sin (a + 7) * Real.cos (a + 1) - Real.cos (a + 7) * Real.sin (a + 1) := by
    rw [← Real.sin_sub]; ring_nf
  have l1 : |Real.sin (a + 7) * Real.cos (a + 1)| ≤ |Real.cos (a + 1)| := by
    rw [abs_mul]
    exact mul_le_of_le_one_left (abs_nonneg _) (Real.abs_sin_le_one _)
  have l2 : |Real.cos (a + 7) * Real.sin (a + 1)| ≤ |Real.cos (a + 7)| := by
    rw [abs_mul]
    exact mul_le_of_le_one_right (abs_nonneg _) (Real.abs_sin_le_one _)
  have l3 := abs_sub (Real.sin (a + 7) * Real.cos (a + 1)) (Real.cos (a + 7) * Real.sin (a + 1))
  rw [← e3] at l3
  linarith

theorem cos_spread {a v w : ℝ} (h1 : |v - Real.cos a| < 1 / 10) (h2 : |v - Real.cos (a + 2)| < 1 / 10)
    (h3 : |w - Real.cos (a + 6)| < 1 / 10) (h4 : |w - Real.cos (a + 8)| < 1 / 10) : False := by
  have e : ∀ t : ℝ, Real.cos t = Real.sin (t + Real.pi / 2) := fun t => (Real.sin_add_pi_div_two t).symm
  rw [e] at h1 h2 h3 h4
  refine sin_spread (a := a + Real.pi / 2) h1 ?_ (w := w) ?_ ?_
  · rwa [show a + Real.pi / 2 + 2 = a + 2 + Real.pi / 2 by ring]
  · rwa [show a + Real.pi / 2 + 6 = a + 6 + Real.pi / 2 by ring]
  · rwa [show a + Real.pi / 2 + 8 = a + 8 + Real.pi / 2 by ring]

theorem gives_eq {f g : ℕ → FM D} {V W : D} (hf : Cmath.Gives f V) (hg : Cmath.Gives g W) (h : ∀ n, f n () = g n ()) : V = W := by
  obtain ⟨N, hN⟩ := hf
  obtain ⟨M', hM⟩ := hg
  have h1 := hN (max N M') (le_max_left _ _)
  have h2 := hM (max N M') (le_max_right _ _)
  rw [h, h2] at h1
  injection h1 with h3
  exact h3.symm

theorem is_unique {a : D} {x y : ℝ} (h : Is a x) (h' : Is a y) : x = y := h.2.symm.trans h'.2

theorem isDouble_window {j : ℤ} (h0 : 0 ≤ j) (h1 : 6 * j + 10 ≤ 2 ^ 52) {i : ℤ} (i0 : 0 ≤ i) (i1 : i ≤ 4) :
    IsDouble ((3 * 2 ^ 52 + 6 * j + 2 * i : ℝ)) := by
  have := isDouble_even (k := 3 * 2 ^ 51 + 3 * j + i) (by rw [abs_of_nonneg] <;> omega)
  have e : ((2 * (3 * 2 ^ 51 + 3 * j + i) : ℤ) : ℝ) = 3 * 2 ^ 52 + 6 * j + 2 * i := by push_cast; ring
  rwa [e] at this

/-- In every window of ten between 3·2⁵² and 2⁵⁴ there is a double whose `sin` is wrong by a tenth. -/
theorem sin_wrong (hr : RoundsToNearest ρ) {j : ℤ} (h0 : 0 ≤ j) (h1 : 6 * j + 16 ≤ 2 ^ 52) :
    ∃ x : ℝ, IsDouble x ∧ 3 * 2 ^ 52 + 6 * j ≤ x ∧ x ≤ 3 * 2 ^ 52 + 6 * j + 10 ∧
      ∀ V v, Cmath.Gives (fun fuel => sin ρ fuel (fin x)) V → Is V v → 1 / 10 ≤ |v - Real.sin x| := by
  by_contra hc
  push Not at hc
  have d1 := isDouble_window h0 (by omega) (i := 1) (by norm_num) (by norm_num)
  have d2 := isDouble_window h0 (by omega) (i := 2) (by norm_num) (by norm_num)
  have d3 := isDouble_window (j := j + 1) (by omega) (by omega) (i := 1) (by norm_num) (by norm_num)
  have d4 := isDouble_window (j := j + 1) (by omega) (by omega) (i := 2) (by norm_num) (by norm_num)
  push_cast at d1 d2 d3 d4
  obtain ⟨V1, v1, g1, i1, b1⟩ := hc _ d1 (by linarith) (by linarith)
  obtain ⟨V2, v2, g2, i2, b2⟩ := hc _ d2 (by linarith) (by linarith)
  obtain ⟨V3, v3, g3, i3, b3⟩ := hc _ d3 (by linarith) (by linarith)
  obtain ⟨V4, v4, g4, i4, b4⟩ := hc _ d4 (by linarith) (by linarith)
  have e1 : V1 = V2 := gives_eq g1 g2 (fun n => by
    have := sin_eq hr h0 (by omega) n
    rwa [show (3 * 2 ^ 52 + 6 * j + 2 : ℝ) = 3 * 2 ^ 52 + 6 * j + 2 * 1 by ring,
      show (3 * 2 ^ 52 + 6 * j + 4 : ℝ) = 3 * 2 ^ 52 + 6 * j + 2 * 2 by ring] at this)
  have e2 : V3 = V4 := gives_eq g3 g4 (fun n => by
    have := sin_eq hr (j := j + 1) (by omega) (by omega) n
    push_cast at this
    rwa [show (3 * 2 ^ 52 + 6 * (j + 1) + 2 : ℝ) = 3 * 2 ^ 52 + 6 * (j + 1) + 2 * 1 by ring,
      show (3 * 2 ^ 52 + 6 * (j + 1) + 4 : ℝ) = 3 * 2 ^ 52 + 6 * (j + 1) + 2 * 2 by ring] at this)
  subst e1 e2
  obtain rfl := is_unique i1 i2
  obtain rfl := is_unique i3 i4
  refine sin_spread b1 ?_ (w := v3) ?_ ?_
  · rwa [show (3 * 2 ^ 52 + 6 * j + 2 * 1 + 2 : ℝ) = 3 * 2 ^ 52 + 6 * j + 2 * 2 by ring]
  · rwa [show (3 * 2 ^ 52 + 6 * j + 2 * 1 + 6 : ℝ) = 3 * 2 ^ 52 + 6 * (j + 1) + 2 * 1 by ring]
  · rwa [show (3 * 2 ^ 52 + 6 * j + 2 * 1 + 8 : ℝ) = 3 * 2 ^ 52 + 6 * (j + 1) + 2 * 2 by ring]

theorem cos_wrong (hr : RoundsToNearest ρ) {j : ℤ} (h0 : 0 ≤ j) (h1 : 6 * j + 16 ≤ 2 ^ 52) :
    ∃ x : ℝ, IsDouble x ∧ 3 * 2 ^ 52 + 6 * j ≤ x ∧ x ≤ 3 * 2 ^ 52 + 6 * j + 10 ∧
      ∀ V v, Cmath.Gives (fun fuel => cos ρ fuel (fin x)) V → Is V v → 1 / 10 ≤ |v - Real.cos x| := by
  by_contra hc
  push Not at hc
  have d1 := isDouble_window h0 (by omega) (i := 0) (by norm_num) (by norm_num)
  have d2 := isDouble_window h0 (by omega) (i := 1) (by norm_num) (by norm_num)
  have d3 := isDouble_window (j := j + 1) (by omega) (by omega) (i := 0) (by norm_num) (by norm_num)
  have d4 := isDouble_window (j := j + 1) (by omega) (by omega) (i := 1) (by norm_num) (by norm_num)
  push_cast at d1 d2 d3 d4
  obtain ⟨V1, v1, g1, i1, b1⟩ := hc _ d1 (by linarith) (by linarith)
  obtain ⟨V2, v2, g2, i2, b2⟩ := hc _ d2 (by linarith) (by linarith)
  obtain ⟨V3, v3, g3, i3, b3⟩ := hc _ d3 (by linarith) (by linarith)
  obtain ⟨V4, v4, g4, i4, b4⟩ := hc _ d4 (by linarith) (by linarith)
  have e1 : V1 = V2 := gives_eq g1 g2 (fun n => by
    have := cos_eq hr h0 (by omega) n
    simp only [mul_zero, add_zero, mul_one]
    exact this)
  have e2 : V3 = V4 := gives_eq g3 g4 (fun n => by
    have := cos_eq hr (j := j + 1) (by omega) (by omega) n
    push_cast at this
    simp only [mul_zero, add_zero, mul_one]
    exact this)
  subst e1 e2
  obtain rfl := is_unique i1 i2
  obtain rfl := is_unique i3 i4
  refine cos_spread b1 ?_ (w := v3) ?_ ?_
  · rwa [show (3 * 2 ^ 52 + 6 * j + 2 * 0 + 2 : ℝ) = 3 * 2 ^ 52 + 6 * j + 2 * 1 by ring]
  · rwa [show (3 * 2 ^ 52 + 6 * j + 2 * 0 + 6 : ℝ) = 3 * 2 ^ 52 + 6 * (j + 1) + 2 * 0 by ring]
  · rwa [show (3 * 2 ^ 52 + 6 * j + 2 * 0 + 8 : ℝ) = 3 * 2 ^ 52 + 6 * (j + 1) + 2 * 1 by ring]

end Cest.Ieee
