import Verif.Fp.Round
import Verif.Cmath.Proofs

/-! The decimal decomposition (`mantissa`, `exponent`) in binary64 arithmetic. -/
namespace Cest.Fp
open Cest Cest.Cmath

variable {ρ : ℝ → ℝ}

/-- The binary64 number the literal `.1` stands for. -/
theorem round_tenth (hr : RoundsToNearest ρ) : ρ (1 / 10) = 7205759403792794 / 2 ^ 56 := by
  have hd : IsDouble ((7205759403792794 : ℝ) / 2 ^ 56) :=
    ⟨7205759403792794, -56, by norm_num, by norm_num, by norm_num, by norm_num⟩
  have h := hr.nearest (1 / 10) _ hd
  have e : |(1 : ℝ) / 10 - 7205759403792794 / 2 ^ 56| = 4 / (10 * 2 ^ 56) := by
    rw [abs_of_neg (by norm_num)]; norm_num
  rw [e, abs_le] at h
  have hge : (2 : ℝ) ^ (-4 : ℤ) ≤ |ρ (1 / 10)| := by
    have : (2 : ℝ) ^ (-4 : ℤ) ≤ ρ (1 / 10) := by norm_num at h ⊢; linarith
    rwa [abs_of_nonneg (le_trans (by positivity) this)]
  obtain ⟨n, hn⟩ := grid (hr.double _) hge
  rw [hn] at h ⊢
  have e2 : (2 : ℝ) ^ ((-4 : ℤ) - 52) = 1 / 2 ^ 56 := by norm_num
  rw [e2] at h ⊢
  have b1 : ((10 * n : ℤ) : ℝ) ≤ ((72057594037927940 : ℤ) : ℝ) := by push_cast; norm_num at h ⊢; linarith
  have b2 : ((72057594037927932 : ℤ) : ℝ) ≤ ((10 * n : ℤ) : ℝ) := by push_cast; norm_num at h ⊢; linarith
  have b1 := Int.cast_le.mp b1
  have b2 := Int.cast_le.mp b2
  have : n = 7205759403792794 := by omega
  rw [this]; norm_num

theorem isDouble_mul8 {d : ℝ} (hd : IsDouble d) (h0 : 0 < d) (h1 : d < 1) : IsDouble (d * 8) := by
  obtain ⟨m, e, rfl, hm, e1, e2⟩ := hd
  have hp : (0 : ℝ) < 2 ^ e := by positivity
  have hm0 : 0 < m := by
    by_contra hc
    have : (m : ℝ) ≤ 0 := by exact_mod_cast not_lt.mp hc
    nlinarith
  have he : e < 0 := by
    by_contra hc
    have h3 : (1 : ℝ) ≤ 2 ^ e := one_le_zpow₀ (by norm_num) (not_lt.mp hc)
    have h4 : (1 : ℝ) ≤ m := by exact_mod_cast hm0
    nlinarith
  refine ⟨m, e + 3, ?_, hm, by omega, by omega⟩
  rw [zpow_add₀ (by norm_num)]; norm_num; ring

theorem isDouble_div8 {d : ℝ} (hd : IsDouble d) (h0 : 10 ≤ d) : IsDouble (d / 8) := by
  obtain ⟨m, e, rfl, hm, e1, e2⟩ := hd
  have hp : (0 : ℝ) < 2 ^ e := by positivity
  have he : -53 ≤ e := by
    by_contra hc
    have h3 : (2 : ℝ) ^ e ≤ 2 ^ (-53 : ℤ) := zpow_le_zpow_right₀ (by norm_num) (by omega)
    rw [abs_lt] at hm
    have h4 : (m : ℝ) ≤ 2 ^ 53 := by exact_mod_cast hm.2.le
    have h5 : (m : ℝ) * 2 ^ e ≤ 2 ^ 53 * 2 ^ (-53 : ℤ) := mul_le_mul h4 h3 hp.le (by positivity)
    have h6 : (2 : ℝ) ^ 53 * 2 ^ (-53 : ℤ) = 1 := by norm_num
    linarith
  refine ⟨m, e - 3, ?_, hm, by omega, by omega⟩
  rw [zpow_sub₀ (by norm_num)]; norm_num; ring

theorem isDouble_lt {d : ℝ} (hd : IsDouble d) : d ≤ 2 ^ 1024 := by
  obtain ⟨m, e, rfl, hm, e1, e2⟩ := hd
  have h3 : (2 : ℝ) ^ e ≤ 2 ^ (971 : ℤ) := zpow_le_zpow_right₀ (by norm_num) (by omega)
  rw [abs_lt] at hm
  have h4 : (m : ℝ) ≤ 2 ^ 53 := by exact_mod_cast hm.2.le
  have h5 : (m : ℝ) * 2 ^ e ≤ 2 ^ 53 * 2 ^ (971 : ℤ) := mul_le_mul h4 h3 (by positivity) (by positivity)
  refine h5.trans_eq ?_
  rw [show (971 : ℤ) = ((971 : ℕ) : ℤ) by norm_num, zpow_natCast, ← pow_add]

theorem isDouble_ge {d : ℝ} (hd : IsDouble d) (h0 : 0 < d) : 1 / 2 ^ 1074 ≤ d := by
  obtain ⟨m, e, rfl, hm, e1, e2⟩ := hd
  have hp : (0 : ℝ) < 2 ^ e := by positivity
  have hm0 : 0 < m := by
    by_contra hc
    have : (m : ℝ) ≤ 0 := by exact_mod_cast not_lt.mp hc
    nlinarith
  have h4 : (1 : ℝ) ≤ m := by exact_mod_cast hm0
  have h3 : (2 : ℝ) ^ (-1074 : ℤ) ≤ 2 ^ e := zpow_le_zpow_right₀ (by norm_num) e1
  have h5 : (2 : ℝ) ^ (-1074 : ℤ) = 1 / 2 ^ 1074 := by
    rw [zpow_neg, one_div, show (1074 : ℤ) = ((1074 : ℕ) : ℤ) by norm_num, zpow_natCast]
  rw [h5] at h3
  refine h3.trans ?_
  nlinarith

/-- One step up: for a binary64 number below one. -/
theorem step_up (hr : RoundsToNearest ρ) {x : ℝ} (hx : IsDouble x) (h0 : 0 < x) (h1 : x < 1) :
    8 * x ≤ ρ (x * 10) ∧ ρ (x * 10) < 10 ∧ x * 10 * (1 - u) ≤ ρ (x * 10) ∧ ρ (x * 10) ≤ x * 10 * (1 + u) := by
  have hu := u_pos
  refine ⟨?_, ?_, ?_⟩
  · have := hr.ge_of_ge (isDouble_mul8 hx h0 h1) (x := x * 10) (by linarith)
    linarith
  · -- the largest binary64 number below one is 1 - 2^-53
    have hx1 : x ≤ 1 - 1 / 2 ^ 53 := by
      by_contra hc
      rw [not_le] at hc
      have : (2 : ℝ) ^ (-1 : ℤ) ≤ |x| := by rw [abs_of_pos h0]; norm_num at hc ⊢; linarith
      obtain ⟨n, hn⟩ := grid hx this
      have e2 : (2 : ℝ) ^ ((-1 : ℤ) - 52) = 1 / 2 ^ 53 := by norm_num
      rw [e2] at hn
      rw [hn] at hc h1
      have b1 : (n : ℝ) < ((2 ^ 53 : ℤ) : ℝ) := by push_cast; norm_num at h1 ⊢; linarith
      have b2 : ((2 ^ 53 - 1 : ℤ) : ℝ) < (n : ℝ) := by push_cast; norm_num at hc ⊢; linarith
      have b1 := Int.cast_lt.mp b1
      have b2 := Int.cast_lt.mp b2
      omega
    have hd : IsDouble ((10 : ℝ) - 1 / 2 ^ 49) :=
      ⟨10 * 2 ^ 49 - 1, -49, by norm_num, by norm_num, by norm_num, by norm_num⟩
    by_cases hc : x * 10 ≤ 10 - 1 / 2 ^ 49
    · have := hr.le_of_le hd hc
      have h3 : (0 : ℝ) < 1 / 2 ^ 49 := by positivity
      linarith
    · have h3 := hr.nearest (x * 10) _ hd
      rw [abs_of_pos (show (0 : ℝ) < x * 10 - (10 - 1 / 2 ^ 49) by linarith)] at h3
      have h4 := neg_abs_le (x * 10 - ρ (x * 10))
      have h5 : ρ (x * 10) ≤ x * 10 + (x * 10 - (10 - 1 / 2 ^ 49)) := by linarith
      refine h5.trans_lt ?_
      norm_num at hx1 ⊢
      linarith
  · by_cases hn : 1 / 2 ^ 1022 ≤ x * 10
    · have h10 : (10 : ℝ) ≤ 2 ^ 1023 :=
        le_trans (by norm_num : (10 : ℝ) ≤ 2 ^ 4) (pow_le_pow_right₀ (by norm_num) (by norm_num))
      exact round_bounds hr hn (by generalize (2 : ℝ) ^ 1023 = B at h10; linarith)
    · -- below the normal range the product is exact
      have hd : IsDouble (x * 10) := by
        obtain ⟨m, e, rfl, hm, e1, e2⟩ := hx
        have hp : (0 : ℝ) < 2 ^ e := by positivity
        have hm0 : 0 < m := by
          by_contra hc
          have : (m : ℝ) ≤ 0 := by exact_mod_cast not_lt.mp hc
          nlinarith
        refine ⟨m * 10, e, by push_cast; ring, ?_, e1, e2⟩
        by_contra hc
        rw [abs_of_pos (by omega), not_lt] at hc
        have h3 : (2 : ℝ) ^ 53 ≤ m * 10 := by exact_mod_cast hc
        have h4 : (2 : ℝ) ^ (-1074 : ℤ) ≤ 2 ^ e := zpow_le_zpow_right₀ (by norm_num) e1
        have h5 : (2 : ℝ) ^ 53 * 2 ^ (-1074 : ℤ) ≤ (m * 10) * 2 ^ e :=
          mul_le_mul h3 h4 (by positivity) (by positivity)
        have h6 : (2 : ℝ) ^ 53 * 2 ^ (-1074 : ℤ) = 1 / 2 ^ 1021 := by
          rw [← zpow_cast 53, ← zpow_add₀ (by norm_num), one_div, ← zpow_natCast, ← zpow_neg]; norm_num
        have h7 : (1 : ℝ) / 2 ^ 1022 ≤ 1 / 2 ^ 1021 :=
          one_div_le_one_div_of_le (by positivity) (pow_le_pow_right₀ (by norm_num) (by norm_num))
        refine hn (h7.trans (h6.symm.le.trans (h5.trans_eq ?_)))
        ring
      rw [hr.exact hd]
      constructor <;> nlinarith

/-- One step down: for a binary64 number that is at least ten. -/
theorem step_down (hr : RoundsToNearest ρ) {x : ℝ} (hx : IsDouble x) (h0 : 10 ≤ x) :
    1 ≤ ρ (x * ρ (1 / 10)) ∧ ρ (x * ρ (1 / 10)) ≤ x / 8 ∧
    x * (1 / 10) * (1 - u) ^ 2 ≤ ρ (x * ρ (1 / 10)) ∧ ρ (x * ρ (1 / 10)) ≤ x * (1 / 10) * (1 + u) ^ 2 := by
  have hu := u_pos
  have ht := round_tenth hr
  have t1 : (1 : ℝ) / 10 ≤ ρ (1 / 10) := by rw [ht]; norm_num
  have t2 : ρ (1 / 10) ≤ 1 / 10 * (1 + u) := by rw [ht]; unfold u; norm_num
  have hone : IsDouble (1 : ℝ) := by simpa using isDouble_int (K := ℝ) (k := 1) (by norm_num)
  have hu2 : u ≤ 1 / 1000 := by unfold u; norm_num
  refine ⟨hr.ge_of_ge hone (by nlinarith), hr.le_of_le (isDouble_div8 hx h0) (by nlinarith), ?_⟩
  have hxl := isDouble_lt hx
  have hb := round_bounds hr (x := x * ρ (1 / 10)) ?_ ?_
  · constructor
    · refine le_trans ?_ hb.1
      have h1 : 1 - u ≤ 1 := by linarith
      have h2 : 0 ≤ 1 - u := by linarith
      have h3 : x * (1 / 10) ≤ x * ρ (1 / 10) := mul_le_mul_of_nonneg_left t1 (by linarith)
      have h4 : (1 - u) ^ 2 ≤ 1 - u := by nlinarith
      have : 0 ≤ x * (1 / 10) := by linarith
      calc x * (1 / 10) * (1 - u) ^ 2 ≤ x * (1 / 10) * (1 - u) := mul_le_mul_of_nonneg_left h4 this
        _ ≤ _ := mul_le_mul_of_nonneg_right h3 h2
    · refine hb.2.trans ?_
      have h3 : x * ρ (1 / 10) ≤ x * (1 / 10 * (1 + u)) := mul_le_mul_of_nonneg_left t2 (by linarith)
      calc x * ρ (1 / 10) * (1 + u) ≤ x * (1 / 10 * (1 + u)) * (1 + u) :=
            mul_le_mul_of_nonneg_right h3 (by linarith)
        _ = _ := by ring
  · have h1 : (1 : ℝ) / 2 ^ 1022 ≤ 1 := by
      rw [div_le_one (by positivity)]; exact one_le_pow₀ (by norm_num)
    refine h1.trans ?_
    nlinarith
  · have h1 : (2 : ℝ) ^ 1024 = 2 ^ 1023 * 2 := pow_succ 2 1023
    rw [h1] at hxl
    generalize (2 : ℝ) ^ 1023 = B at hxl
    nlinarith

theorem decimal_down (hr : RoundsToNearest ρ) (n : ℕ) : ∀ (x : ℝ) (e : ℤ), IsDouble x → 1 ≤ x → x < 10 * 8 ^ n →
    ∃ (k : ℕ) (m : ℝ), k ≤ n ∧ 1 ≤ m ∧ m < 10 ∧ IsDouble m ∧
      x * (1 - u) ^ (2 * k) ≤ m * 10 ^ k ∧ m * 10 ^ k ≤ x * (1 + u) ^ (2 * k) ∧
      (∀ fuel, n + 1 ≤ fuel → mantissa ρ fuel x () = .ok m ()) ∧
      (∀ fuel, n + 1 ≤ fuel → exponentHelper ρ fuel x e () = .ok (e + k) ()) := by
  have hu := u_pos
  have hu2 : u ≤ 1 / 1000 := by unfold u; norm_num
  induction n with
  | zero =>
    intro x e hx h1 h2
    have h10 : ¬ 10 ≤ x := by simp at h2; exact not_le.mpr h2
    have h11 : ¬ x < 1 := not_lt.mpr h1
    refine ⟨0, x, le_rfl, h1, by simpa using h2, hx, by simp, by simp, ?_, ?_⟩ <;>
    · intro fuel hf
      obtain ⟨k, rfl⟩ : ∃ k, fuel = k + 1 := ⟨fuel - 1, by omega⟩
      simp [mantissa, exponentHelper, h10, h11]
  | succ n ih =>
    intro x e hx h1 h2
    by_cases h10 : 10 ≤ x
    · obtain ⟨s1, s2, s3, s4⟩ := step_down hr hx h10
      obtain ⟨k, m, a0, a1, a2, ad, a3, a3', a4, a5⟩ := ih (ρ (x * ρ (1 / 10))) (e + 1) (hr.double _) s1 (by
        rw [pow_succ] at h2; linarith)
      refine ⟨k + 1, m, by omega, a1, a2, ad, ?_, ?_, ?_, ?_⟩
      · calc x * (1 - u) ^ (2 * (k + 1)) = 10 * (x * (1 / 10) * (1 - u) ^ 2 * (1 - u) ^ (2 * k)) := by ring
          _ ≤ 10 * (ρ (x * ρ (1 / 10)) * (1 - u) ^ (2 * k)) := by
            have h3 : 0 ≤ (1 - u) ^ (2 * k) := pow_nonneg (by linarith) _
            have := mul_le_mul_of_nonneg_right s3 h3
            linarith
          _ ≤ 10 * (m * 10 ^ k) := by linarith
          _ = _ := by ring
      · calc m * 10 ^ (k + 1) = 10 * (m * 10 ^ k) := by ring
          _ ≤ 10 * (ρ (x * ρ (1 / 10)) * (1 + u) ^ (2 * k)) := by linarith
          _ ≤ 10 * (x * (1 / 10) * (1 + u) ^ 2 * (1 + u) ^ (2 * k)) := by
            have h3 : 0 ≤ (1 + u) ^ (2 * k) := pow_nonneg (by linarith) _
            have := mul_le_mul_of_nonneg_right s4 h3
            linarith
          _ = _ := by ring
      · intro fuel hf
        obtain ⟨j, rfl⟩ : ∃ k, fuel = k + 1 := ⟨fuel - 1, by omega⟩
        simp only [mantissa, h10, if_true, fmul]
        exact a4 j (by omega)
      · intro fuel hf
        obtain ⟨j, rfl⟩ : ∃ k, fuel = k + 1 := ⟨fuel - 1, by omega⟩
        simp only [exponentHelper, h10, if_true, fmul]
        rw [a5 j (by omega)]; push_cast; congr 1; ring
    · have h11 : ¬ x < 1 := not_lt.mpr h1
      refine ⟨0, x, by omega, h1, not_le.mp h10, hx, by simp, by simp, ?_, ?_⟩ <;>
      · intro fuel hf
        obtain ⟨k, rfl⟩ : ∃ k, fuel = k + 1 := ⟨fuel - 1, by omega⟩
        simp [mantissa, exponentHelper, h10, h11]

theorem decimal_up (hr : RoundsToNearest ρ) (n : ℕ) : ∀ (x : ℝ) (e : ℤ), IsDouble x → 0 < x → x < 10 →
    1 ≤ x * 8 ^ n →
    ∃ (k : ℕ) (m : ℝ), k ≤ n ∧ 1 ≤ m ∧ m < 10 ∧ IsDouble m ∧
      x * 10 ^ k * (1 - u) ^ k ≤ m ∧ m ≤ x * 10 ^ k * (1 + u) ^ k ∧
      (∀ fuel, n + 1 ≤ fuel → mantissa ρ fuel x () = .ok m ()) ∧
      (∀ fuel, n + 1 ≤ fuel → exponentHelper ρ fuel x e () = .ok (e - k) ()) := by
  have hu := u_pos
  have hu2 : u ≤ 1 / 1000 := by unfold u; norm_num
  induction n with
  | zero =>
    intro x e hx h0 h2 h1
    have h10 : ¬ 10 ≤ x := not_le.mpr h2
    have h11 : ¬ x < 1 := not_lt.mpr (by simpa using h1)
    refine ⟨0, x, le_rfl, by simpa using h1, h2, hx, by simp, by simp, ?_, ?_⟩ <;>
    · intro fuel hf
      obtain ⟨k, rfl⟩ : ∃ k, fuel = k + 1 := ⟨fuel - 1, by omega⟩
      simp [mantissa, exponentHelper, h10, h11]
  | succ n ih =>
    intro x e hx h0 h2 h1
    have h10 : ¬ 10 ≤ x := not_le.mpr h2
    by_cases h11 : x < 1
    · obtain ⟨s1, s2, s3, s4⟩ := step_up hr hx h0 h11
      obtain ⟨k, m, a0, a1, a2, ad, a3, a3', a4, a5⟩ := ih (ρ (x * 10)) (e - 1) (hr.double _) (by linarith) s2 (by
        rw [pow_succ] at h1
        have := mul_le_mul_of_nonneg_right s1 (by positivity : (0 : ℝ) ≤ 8 ^ n)
        linarith)
      have p1 : 0 ≤ (10 : ℝ) ^ k * (1 - u) ^ k := mul_nonneg (by positivity) (pow_nonneg (by linarith) _)
      have p2 : 0 ≤ (10 : ℝ) ^ k * (1 + u) ^ k := mul_nonneg (by positivity) (pow_nonneg (by linarith) _)
      refine ⟨k + 1, m, by omega, a1, a2, ad, ?_, ?_, ?_, ?_⟩
      · calc x * 10 ^ (k + 1) * (1 - u) ^ (k + 1) = x * 10 * (1 - u) * (10 ^ k * (1 - u) ^ k) := by ring
          _ ≤ ρ (x * 10) * (10 ^ k * (1 - u) ^ k) := mul_le_mul_of_nonneg_right s3 p1
          _ ≤ m := by linarith
      · calc m ≤ ρ (x * 10) * (10 ^ k * (1 + u) ^ k) := by linarith
          _ ≤ x * 10 * (1 + u) * (10 ^ k * (1 + u) ^ k) := mul_le_mul_of_nonneg_right s4 p2
          _ = _ := by ring
      · intro fuel hf
        obtain ⟨j, rfl⟩ : ∃ k, fuel = k + 1 := ⟨fuel - 1, by omega⟩
        simp only [mantissa, h10, h11, if_true, if_false, fmul]
        exact a4 j (by omega)
      · intro fuel hf
        obtain ⟨j, rfl⟩ : ∃ k, fuel = k + 1 := ⟨fuel - 1, by omega⟩
        simp only [exponentHelper, h10, h11, if_true, if_false, fmul]
        rw [a5 j (by omega)]; push_cast; congr 1; ring
    · refine ⟨0, x, by omega, not_lt.mp h11, h2, hx, by simp, by simp, ?_, ?_⟩ <;>
      · intro fuel hf
        obtain ⟨k, rfl⟩ : ∃ k, fuel = k + 1 := ⟨fuel - 1, by omega⟩
        simp [mantissa, exponentHelper, h10, h11]

/-- The decimal decomposition of every positive binary64 number. -/
theorem decimal_depth (hr : RoundsToNearest ρ) {x : ℝ} (hx : IsDouble x) (h0 : 0 < x) :
    ∃ (e : ℤ) (m : ℝ), |e| ≤ 358 ∧ 1 ≤ m ∧ m < 10 ∧ IsDouble m ∧
      x * (1 - u) ^ 716 ≤ m * 10 ^ e ∧ m * 10 ^ e ≤ x * (1 + u) ^ 716 ∧
      (∀ fuel, 359 ≤ fuel → mantissa ρ fuel x () = .ok m ()) ∧
      (∀ fuel, 359 ≤ fuel → exponent ρ fuel x () = .ok e ()) := by
  have hu := u_pos
  have hu2 : u ≤ 1 / 1000 := by unfold u; norm_num
  have lo : ∀ {k : ℕ}, k ≤ 716 → (1 - u) ^ 716 ≤ (1 - u) ^ k := fun h =>
    pow_le_pow_of_le_one (by linarith) (by linarith) h
  have hi : ∀ {k : ℕ}, k ≤ 716 → (1 + u) ^ k ≤ (1 + u) ^ 716 := fun h =>
    pow_le_pow_right₀ (by linarith) h
  rcases le_or_gt 1 x with h | h
  · have hb : x < 10 * 8 ^ 342 := by
      refine (isDouble_lt hx).trans_lt ?_
      rw [show (8 : ℝ) = 2 ^ 3 by norm_num, ← pow_mul]
      have : (2 : ℝ) ^ 1024 ≤ 2 ^ (3 * 342) := pow_le_pow_right₀ (by norm_num) (by norm_num)
      have hp : (0 : ℝ) < 2 ^ (3 * 342) := by positivity
      refine this.trans_lt ?_
      generalize (2 : ℝ) ^ (3 * 342) = B at hp
      linarith
    obtain ⟨k, m, a0, a1, a2, ad, a3, a3', a4, a5⟩ := decimal_down hr 342 x 0 hx h hb
    refine ⟨k, m, by rw [Nat.abs_cast]; omega, a1, a2, ad, ?_, ?_, fun fuel hf => a4 fuel (by omega), fun fuel hf => ?_⟩
    · rw [zpow_natCast]
      exact (mul_le_mul_of_nonneg_left (lo (by omega)) h0.le).trans a3
    · rw [zpow_natCast]
      exact a3'.trans (mul_le_mul_of_nonneg_left (hi (by omega)) h0.le)
    · have := a5 fuel (by omega)
      simpa [exponent] using this
  · have hb : 1 ≤ x * 8 ^ 358 := by
      have h1 := isDouble_ge hx h0
      have h2 := mul_le_mul_of_nonneg_right h1 (by positivity : (0 : ℝ) ≤ 8 ^ 358)
      refine le_trans (le_of_eq ?_) h2
      rw [show (8 : ℝ) = 2 ^ 3 by norm_num, ← pow_mul, one_div, inv_mul_cancel₀ (by positivity)]
    obtain ⟨k, m, a0, a1, a2, ad, a3, a3', a4, a5⟩ := decimal_up hr 358 x 0 hx h0 (by linarith) hb
    have hp : (0 : ℝ) < 10 ^ k := by positivity
    refine ⟨-k, m, by rw [abs_neg, Nat.abs_cast]; omega, a1, a2, ad, ?_, ?_, a4, fun fuel hf => ?_⟩
    · rw [zpow_neg, zpow_natCast, ← div_eq_mul_inv, le_div_iff₀ hp]
      have := mul_le_mul_of_nonneg_left (lo (k := k) (by omega)) (by positivity : 0 ≤ x * 10 ^ k)
      rw [mul_right_comm]
      exact this.trans a3
    · rw [zpow_neg, zpow_natCast, ← div_eq_mul_inv, div_le_iff₀ hp]
      have := mul_le_mul_of_nonneg_left (hi (k := k) (by omega)) (by positivity : 0 ≤ x * 10 ^ k)
      rw [mul_right_comm]
      exact a3'.trans this
    · have := a5 fuel hf
      simpa [exponent] using this

theorem pow716 : 1 - 1 / 10 ^ 13 ≤ (1 - u) ^ 716 ∧ (1 + u) ^ 716 ≤ 1 + 1 / 10 ^ 13 := by
  unfold u
  constructor
  · have := one_add_mul_le_pow (a := -(1 / 2 ^ 53 : ℝ)) (by norm_num) 716
    rw [← sub_eq_add_neg] at this
    refine le_trans ?_ this
    norm_num
  · -- (1+u)^716 (1-u)^716 ≤ 1
    have := one_add_mul_le_pow (a := -(1 / 2 ^ 53 : ℝ)) (by norm_num) 716
    rw [← sub_eq_add_neg] at this
    have h1 : ((1 : ℝ) + 1 / 2 ^ 53) ^ 716 * (1 - 1 / 2 ^ 53) ^ 716 ≤ 1 := by
      rw [← mul_pow]
      exact pow_le_one₀ (by norm_num) (by norm_num)
    have h2 : (0 : ℝ) < (1 + 1 / 2 ^ 53) ^ 716 := by positivity
    generalize ((1 : ℝ) + 1 / 2 ^ 53) ^ 716 = A at *
    generalize ((1 : ℝ) - 1 / 2 ^ 53) ^ 716 = B at *
    have h3 : A * (1 - 8 / 10 ^ 14) ≤ 1 := by
      refine le_trans (mul_le_mul_of_nonneg_left (le_trans ?_ this) h2.le) h1
      norm_num
    norm_num at h3 ⊢
    linarith

theorem decimal_fp (hr : RoundsToNearest ρ) {x : ℝ} (hx : IsDouble x) (h0 : 0 < x) :
    ∃ (e : ℤ) (m : ℝ), |e| ≤ 358 ∧ 1 ≤ m ∧ m < 10 ∧ IsDouble m ∧
      x * (1 - u) ^ 716 ≤ m * 10 ^ e ∧ m * 10 ^ e ≤ x * (1 + u) ^ 716 ∧
      Gives (fun fuel => mantissa ρ fuel x) m ∧ Gives (fun fuel => exponent ρ fuel x) e := by
  obtain ⟨e, m, h1, h2, h3, h4, h5, h6, h7, h8⟩ := decimal_depth hr hx h0
  exact ⟨e, m, h1, h2, h3, h4, h5, h6, ⟨359, h7⟩, ⟨359, h8⟩⟩

theorem decimal_depth' (hr : RoundsToNearest ρ) {x : ℝ} (hx : IsDouble x) (h0 : 0 < x) :
    ∃ (e : ℤ) (m : ℝ), |e| ≤ 358 ∧ 1 ≤ m ∧ m < 10 ∧ IsDouble m ∧
      x * (1 - 1 / 10 ^ 13) ≤ m * 10 ^ e ∧ m * 10 ^ e ≤ x * (1 + 1 / 10 ^ 13) ∧
      (∀ fuel, 359 ≤ fuel → mantissa ρ fuel x () = .ok m ()) ∧
      (∀ fuel, 359 ≤ fuel → exponent ρ fuel x () = .ok e ()) := by
  obtain ⟨e, m, h1, h2, h3, h4, h5, h6, h7, h8⟩ := decimal_depth hr hx h0
  exact ⟨e, m, h1, h2, h3, h4, (mul_le_mul_of_nonneg_left pow716.1 h0.le).trans h5,
    h6.trans (mul_le_mul_of_nonneg_left pow716.2 h0.le), h7, h8⟩

theorem decimal_fp' (hr : RoundsToNearest ρ) {x : ℝ} (hx : IsDouble x) (h0 : 0 < x) :
    ∃ (e : ℤ) (m : ℝ), |e| ≤ 358 ∧ 1 ≤ m ∧ m < 10 ∧ IsDouble m ∧
      x * (1 - 1 / 10 ^ 13) ≤ m * 10 ^ e ∧ m * 10 ^ e ≤ x * (1 + 1 / 10 ^ 13) ∧
      Gives (fun fuel => mantissa ρ fuel x) m ∧ Gives (fun fuel => exponent ρ fuel x) e := by
  obtain ⟨e, m, h1, h2, h3, h4, h5, h6, h7, h8⟩ := decimal_fp hr hx h0
  exact ⟨e, m, h1, h2, h3, h4, (mul_le_mul_of_nonneg_left pow716.1 h0.le).trans h5,
    h6.trans (mul_le_mul_of_nonneg_left pow716.2 h0.le), h7, h8⟩

end Cest.Fp
