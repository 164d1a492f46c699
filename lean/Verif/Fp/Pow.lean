import Verif.Fp.Round
import Verif.Cmath.Proofs
/-! Integer powers in binary64 (helper lemmas for C152). -/

namespace Cest.Fp
open Cest Cest.Cmath

variable {ρ : ℝ → ℝ}

/-- With a power in the normal range, all smaller ones are. -/
theorem pow_between {b L H : ℝ} (hb : 0 ≤ b) {n k : ℕ} (hk : k ≤ n) (hL : L ≤ 1) (hH : 1 ≤ H)
    (lo : L ≤ b ^ n) (hi : b ^ n ≤ H) : L ≤ b ^ k ∧ b ^ k ≤ H := by
  rcases le_total 1 b with h | h
  · exact ⟨hL.trans (one_le_pow₀ h), (pow_le_pow_right₀ h hk).trans hi⟩
  · exact ⟨lo.trans (pow_le_pow_of_le_one hb h hk), (pow_le_one₀ hb h).trans hH⟩

theorem small_of_le {k : ℕ} (hk : k ≤ 2 ^ 31) : (k : ℝ) * u ≤ 1 / 2 ^ 22 := by
  have : (k : ℝ) ≤ 2 ^ 31 := by exact_mod_cast hk
  calc (k : ℝ) * u ≤ 2 ^ 31 * u := mul_le_mul_of_nonneg_right this u_pos.le
    _ = 1 / 2 ^ 22 := by unfold u; norm_num

/-- `n = k + 1` factors, `k` multiplications. -/
theorem powNN_factor (hr : RoundsToNearest ρ) {b : ℝ} {n : ℕ} (hn : n ≤ 2 ^ 31)
    (lo : 1 / 2 ^ 1021 ≤ |b| ^ n) (hi : |b| ^ n ≤ 2 ^ 1022) (k : ℕ) (hk : k + 1 ≤ n) :
    ∃ θ, powNN ρ b (k + 1) = b ^ (k + 1) * θ ∧ 1 - k * u ≤ θ ∧ θ ≤ 1 + 1001 / 1000 * k * u := by
  have hu := u_pos
  induction k with
  | zero => exact ⟨1, by simp [powNN], by simp, by simp⟩
  | succ k ih =>
    obtain ⟨θ, e, l1, l2⟩ := ih (by omega)
    have hs := small_of_le (k := k + 1) (by omega)
    push_cast at hs
    have hku : 0 ≤ (k : ℝ) * u := by positivity
    have hs' : (k : ℝ) * u ≤ 1 / 2 ^ 22 := by nlinarith
    norm_num at hs hs'
    obtain ⟨p1, p2⟩ := pow_between (abs_nonneg b) hk (div_le_one_of_le₀ (one_le_pow₀ (by norm_num)) (by positivity))
      (one_le_pow₀ (by norm_num)) lo hi
    have hθ : |θ| = θ := abs_of_pos (by linarith)
    have e2 : |b * powNN ρ b (k + 1)| = |b| ^ (k + 1 + 1) * θ := by
      rw [e, ← mul_assoc, ← pow_succ', abs_mul, abs_pow, hθ]
    have q0 : 0 ≤ |b| ^ (k + 1 + 1) := by positivity
    obtain ⟨δ, e', m1, m2⟩ := rel_factor hr (x := b * powNN ρ b (k + 1))
      (by
        rw [e2]
        have h1 : (1 : ℝ) / 2 ^ 1022 = 1 / 2 ^ 1021 * (1 / 2) := by rw [pow_succ (2 : ℝ) 1021]; field_simp
        rw [h1]
        exact mul_le_mul p1 (by linarith) (by norm_num) q0)
      (by
        rw [e2, pow_succ (2 : ℝ) 1022]
        exact mul_le_mul p2 (by linarith) (by linarith) (by positivity))
    refine ⟨θ * δ, ?_, ?_, ?_⟩
    · show fmul ρ b (powNN ρ b (k + 1)) = _
      rw [fmul, e', e]; ring
    · push_cast
      have : (1 - k * u) * (1 - u) ≤ θ * δ := mul_le_mul l1 m1 (by linarith [small_of_le (k := 1) (by norm_num)]) (by linarith)
      nlinarith
    · push_cast
      have : θ * δ ≤ (1 + 1001 / 1000 * k * u) * (1 + u) := mul_le_mul l2 m2 (by linarith) (by nlinarith)
      nlinarith

/-- Exact powers are computed exactly. -/
theorem powNN_exact (hr : RoundsToNearest ρ) {b : ℝ} (n : ℕ) (h : ∀ k, 1 ≤ k → k ≤ n → IsDouble (b ^ k)) :
    powNN ρ b n = b ^ n := by
  induction n using Nat.twoStepInduction with
  | zero => simp [powNN]
  | one => simp [powNN]
  | more n _ ih =>
    rw [powNN, fmul, ih fun k h1 h2 => h k h1 (by omega), ← pow_succ']
    exact hr.exact (h (n + 2) (by omega) (le_refl _))

end Cest.Fp
