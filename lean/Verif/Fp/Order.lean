import Verif.Fp.Props

/-! Lemmas for C144: a rounding to nearest preserves order, and so do `pow` and `sinh`. -/

namespace Cest.Fp
open Cest Cest.Cmath

variable {ρ : ℝ → ℝ}

/-- A rounding to nearest preserves order, whichever way ties go. -/
theorem mono (hr : RoundsToNearest ρ) {x y : ℝ} (h : x ≤ y) : ρ x ≤ ρ y := by
  by_contra c
  have c := not_le.mp c
  have a := hr.nearest x (ρ y) (hr.double y)
  have b := hr.nearest y (ρ x) (hr.double x)
  rcases h.lt_or_eq with h | rfl
  · have k1 : (x - ρ x) ^ 2 ≤ (x - ρ y) ^ 2 := sq_le_sq.mpr a
    have k2 : (y - ρ y) ^ 2 ≤ (y - ρ x) ^ 2 := sq_le_sq.mpr b
    nlinarith [mul_pos (sub_pos.mpr h) (sub_pos.mpr c)]
  · exact lt_irrefl _ c

theorem round_nonneg (hr : RoundsToNearest ρ) {x : ℝ} (h : 0 ≤ x) : 0 ≤ ρ x := hr.ge_of_ge isDouble_zero h

theorem powNN_nonneg (hr : RoundsToNearest ρ) {x : ℝ} (h : 0 ≤ x) : ∀ n, 0 ≤ powNN ρ x n
  | 0 => by simp [powNN]
  | 1 => by simpa [powNN] using h
  | n + 2 => by
    rw [powNN]
    exact round_nonneg hr (mul_nonneg h (powNN_nonneg hr h (n + 1)))

theorem powNN_mono (hr : RoundsToNearest ρ) {x y : ℝ} (h : 0 ≤ x) (hxy : x ≤ y) :
    ∀ n, powNN ρ x n ≤ powNN ρ y n
  | 0 => by simp [powNN]
  | 1 => by simpa [powNN] using hxy
  | n + 2 => by
    rw [powNN, powNN]
    exact mono hr (mul_le_mul hxy (powNN_mono hr h hxy (n + 1)) (powNN_nonneg hr h _) (h.trans hxy))

/-- One level of the recursion of `sinh_helper`. -/
noncomputable def tri (ρ : ℝ → ℝ) (s : ℝ) : ℝ := fadd ρ (fmul ρ 3 s) (fmul ρ 4 (cube ρ s))

theorem tri_mono (hr : RoundsToNearest ρ) {a b : ℝ} (h : 0 ≤ a) (hab : a ≤ b) : tri ρ a ≤ tri ρ b := by
  have hb := h.trans hab
  unfold tri cube fadd fmul
  have s0 : 0 ≤ ρ (a * a) := round_nonneg hr (mul_nonneg h h)
  have s1 : ρ (a * a) ≤ ρ (b * b) := mono hr (mul_le_mul hab hab h hb)
  refine mono hr (add_le_add (mono hr (by linarith)) (mono hr ?_))
  have := mono hr (mul_le_mul s1 hab h (s0.trans s1))
  linarith

theorem tri_nonneg (hr : RoundsToNearest ρ) {a : ℝ} (h : 0 ≤ a) : 0 ≤ tri ρ a := by
  unfold tri cube fadd fmul
  have s0 : 0 ≤ ρ (a * a) := round_nonneg hr (mul_nonneg h h)
  have s1 : 0 ≤ ρ (ρ (a * a) * a) := round_nonneg hr (mul_nonneg s0 h)
  exact round_nonneg hr (add_nonneg (round_nonneg hr (by linarith)) (round_nonneg hr (by linarith)))

/-- What one call of `sinh_helper` does. -/
theorem sinhHelper_inv {fuel : ℕ} {x v : ℝ} (h : sinhHelper ρ (fuel + 1) x () = .ok v ()) :
    (x < tol ρ ∧ v = x) ∨
      (¬ x < tol ρ ∧ ∃ s, sinhHelper ρ fuel (ρ (x / 3)) () = .ok s () ∧ v = tri ρ s) := by
  rw [sinhHelper] at h
  by_cases c : x < tol ρ
  · left
    rw [if_pos c] at h
    injection h with h
    exact ⟨c, h.symm⟩
  · right
    rw [if_neg c] at h
    have e := fdiv_ok (ρ := ρ) (a := x) (three_ne_zero (α := ℝ))
    simp only [M.bind_apply, e] at h
    rcases q : sinhHelper ρ fuel (ρ (x / 3)) () with ⟨s, ⟨⟩⟩ | _ | _ | _
    · simp only [q, M.pure_apply] at h
      injection h with h
      exact ⟨c, s, rfl, h.symm⟩
    all_goals simp [q] at h

theorem sinhHelper_nonneg (hr : RoundsToNearest ρ) : ∀ (fuel : ℕ) (x v : ℝ), 0 ≤ x →
    sinhHelper ρ fuel x () = .ok v () → 0 ≤ v
  | 0, _, _, _, h => by cases h
  | fuel + 1, x, v, h0, h => by
    rcases sinhHelper_inv h with ⟨-, rfl⟩ | ⟨-, s, hs, rfl⟩
    · exact h0
    · exact tri_nonneg hr (sinhHelper_nonneg hr fuel _ s (round_nonneg hr (by linarith)) hs)

/-- One level above the tolerance is above the tolerance. -/
theorem tri_third (hr : RoundsToNearest ρ) : tol ρ ≤ tri ρ (ρ (tol ρ / 3)) ∧ ρ (tol ρ / 3) ≤ tol ρ ∧
    0 ≤ ρ (tol ρ / 3) := by
  have hu := u_pos
  have hu1 := u_lt
  norm_num at hu1
  obtain ⟨t1, t2⟩ := tol_bounds hr
  have a := rbB hr (y := tol ρ / 3) (by norm_num; linarith) (by
    have : (1 : ℝ) ≤ Big := by unfold Big; exact one_le_pow₀ (by norm_num)
    linarith)
  generalize tol ρ = t at *
  generalize ρ (t / 3) = A at *
  have a1 : t / 3 * (1 - u) ≤ A := a.1
  have A1 : 333 / 1000000 ≤ A := by nlinarith
  have A2 : A ≤ 334 / 1000000 := by nlinarith
  refine ⟨?_, by linarith, by linarith⟩
  have A3 : (333 / 1000000) ^ 3 ≤ A ^ 3 := pow_le_pow_left₀ (by norm_num) A1 3
  have A4 : A ^ 3 ≤ (334 / 1000000) ^ 3 := pow_le_pow_left₀ (by linarith) A2 3
  norm_num at A3 A4
  have k := (triple_rel hr (v := A) (by linarith) (by
    have : (1 : ℝ) ≤ Big := by unfold Big; exact one_le_pow₀ (by norm_num)
    linarith)).1
  unfold tri
  refine le_trans ?_ k
  have : 3 * A + 4 * A ^ 3 ≤ 1 := by linarith
  have : (3 * A + 4 * A ^ 3) * (6 * u) ≤ 6 * u := by nlinarith
  have : t / 3 * u ≤ u := by nlinarith
  linarith

/-- Results of `sinh_helper` from the last level on are at least a third of the tolerance. -/
theorem sinhHelper_ge (hr : RoundsToNearest ρ) : ∀ (fuel : ℕ) (x v : ℝ), ρ (tol ρ / 3) ≤ x →
    sinhHelper ρ fuel x () = .ok v () → ρ (tol ρ / 3) ≤ v
  | 0, _, _, _, h => by cases h
  | fuel + 1, x, v, h0, h => by
    obtain ⟨k1, k2, k3⟩ := tri_third hr
    rcases sinhHelper_inv h with ⟨-, rfl⟩ | ⟨c, s, hs, rfl⟩
    · exact h0
    · have hs := sinhHelper_ge hr fuel _ s (mono hr (by linarith [not_lt.mp c])) hs
      exact k2.trans (k1.trans (tri_mono hr k3 hs))

/-- `sinh_helper` preserves order. -/
theorem sinhHelper_mono (hr : RoundsToNearest ρ) : ∀ (f g : ℕ) (x y a b : ℝ), 0 ≤ x → x ≤ y →
    sinhHelper ρ f x () = .ok a () → sinhHelper ρ g y () = .ok b () → a ≤ b
  | 0, _, _, _, _, _, _, _, h, _ => by cases h
  | _ + 1, 0, _, _, _, _, _, _, _, h => by cases h
  | f + 1, g + 1, x, y, a, b, h0, hxy, hx, hy => by
    obtain ⟨k1, k2, k3⟩ := tri_third hr
    rcases sinhHelper_inv hx with ⟨c, rfl⟩ | ⟨c, s, hs, rfl⟩
    · rcases sinhHelper_inv hy with ⟨-, rfl⟩ | ⟨d, s', hs', rfl⟩
      · exact hxy
      · have := sinhHelper_ge hr g _ s' (mono hr (by linarith [not_lt.mp d])) hs'
        exact c.le.trans (k1.trans (tri_mono hr k3 this))
    · rcases sinhHelper_inv hy with ⟨d, -⟩ | ⟨-, s', hs', rfl⟩
      · exact absurd (hxy.trans_lt d) c
      · have := sinhHelper_mono hr f g _ _ s s' (round_nonneg hr (by linarith))
          (mono hr (by linarith)) hs hs'
        exact tri_mono hr (sinhHelper_nonneg hr f _ s (round_nonneg hr (by linarith)) hs) this

theorem sinh_mono (hr : RoundsToNearest ρ) {f g : ℕ} {x y a b : ℝ} (hxy : x ≤ y)
    (hx : sinh ρ f x () = .ok a ()) (hy : sinh ρ g y () = .ok b ()) : a ≤ b := by
  have neg : ∀ {f : ℕ} {x a : ℝ}, x < 0 → sinh ρ f x () = .ok a () →
      ∃ s, sinhHelper ρ f (-x) () = .ok s () ∧ a = -s := by
    intro f x a c h
    simp only [sinh, c, if_true, M.bind_apply] at h
    rcases q : sinhHelper ρ f (-x) () with ⟨s, ⟨⟩⟩ | _ | _ | _
    · simp only [q, M.pure_apply] at h
      injection h with h
      exact ⟨s, rfl, h.symm⟩
    all_goals simp [q] at h
  have pos : ∀ {f : ℕ} {x a : ℝ}, ¬ x < 0 → sinh ρ f x () = .ok a () → sinhHelper ρ f x () = .ok a () := by
    intro f x a c h
    simpa only [sinh, c, if_false] using h
  by_cases c : x < 0
  · obtain ⟨s, hs, rfl⟩ := neg c hx
    have s0 := sinhHelper_nonneg hr f _ s (by linarith) hs
    by_cases d : y < 0
    · obtain ⟨s', hs', rfl⟩ := neg d hy
      have := sinhHelper_mono hr g f (-y) (-x) s' s (by linarith) (by linarith) hs' hs
      linarith
    · have := sinhHelper_nonneg hr g _ b (not_lt.mp d) (pos d hy)
      linarith
  · have x0 := not_lt.mp c
    exact sinhHelper_mono hr f g x y a b x0 hxy (pos c hx) (pos (not_lt.mpr (x0.trans hxy)) hy)

end Cest.Fp
