import Verif.ComplexFn.IeeeProofs
import Verif.ComplexFn.Props

/-! Lemmas for C158: the values of the complex functions over all doubles. -/
namespace Cest.ComplexFn.Ieee
open Cest Cest.Ieee Cest.Ieee.D Cest.Ieee.Props
open Cest.Cmath (FM Gives IsDouble RoundsToNearest RoundsTiesEven)
open Cest.Fp (u u_pos u_lt)
open Classical

variable {ρ : ℝ → ℝ}

/-- The angle is off by this much at most. -/
noncomputable def angleErr (t : ℝ) : ℝ := 52 / 10 ^ 8 * (|t| + 6)

theorem angleErr_nonneg (t : ℝ) : 0 ≤ angleErr t := by unfold angleErr; positivity

theorem sin_all (h : RoundsTiesEven ρ) {A : D} {x : ℝ} (hA : Is A x) (hv : Valid A) :
    ∃ V v, Is V v ∧ Gives (fun fuel => sin ρ fuel A) V ∧ |v| ≤ 1 ∧ |v - Real.sin x| ≤ angleErr x := by
  obtain ⟨V, θ, h1, h2, h3⟩ := C154_sin_finite h hA hv
  refine ⟨V, _, h1, h2, Real.abs_sin_le_one θ, (Real.abs_sin_sub_sin_le θ x).trans (h3.trans ?_)⟩
  unfold angleErr
  have := abs_nonneg x
  split
  · rename_i hc; rw [abs_of_neg hc]; linarith
  · rename_i hc; rw [abs_of_nonneg (not_lt.mp hc)] at *; linarith

theorem cos_all (h : RoundsTiesEven ρ) {A : D} {x : ℝ} (hA : Is A x) (hv : Valid A) :
    ∃ V v, Is V v ∧ Gives (fun fuel => cos ρ fuel A) V ∧ |v| ≤ 1 ∧ |v - Real.cos x| ≤ angleErr x := by
  obtain ⟨V, θ, h1, h2, h3⟩ := C154_cos_finite h hA hv
  exact ⟨V, _, h1, h2, Real.abs_cos_le_one θ, (Real.abs_cos_sub_cos_le θ x).trans h3⟩

/-- A factor of at most one and a double: the product does not overflow.  `e` and `f` are the errors of the factors. -/
theorem mul_one_value (hr : RoundsToNearest ρ) {A B : D} {a b a' b' e f : ℝ} (hA : Is A a) (hB : Is B b) (lB : |b| < lim)
    (a1 : |a| ≤ 1) (ha : |a - a'| ≤ e) (hb : |b - b'| ≤ f) :
    (∃ v, Is (mul ρ A B) v ∧ |v - a' * b'| ≤ (1 + u) * f + (e + u) * |b'| + 1 / 2 ^ 1075) ∧
    ∃ v, Is (mul ρ B A) v ∧ |v - a' * b'| ≤ (1 + u) * f + (e + u) * |b'| + 1 / 2 ^ 1075 := by
  have hu := u_pos
  have hl : |a * b| < lim := by
    rw [abs_mul]
    refine lt_of_le_of_lt ?_ lB
    have := abs_nonneg b
    nlinarith
  have r := round_err_lim hr hl
  have b1 : |b| ≤ |b'| + f := by have := abs_sub_abs_le_abs_sub b b'; linarith
  have p1 : |a * b| ≤ |b| := by
    rw [abs_mul]
    exact mul_le_of_le_one_left (abs_nonneg b) a1
  have p2 : |a * b - a' * b'| ≤ f + e * |b'| := by
    rw [show a * b - a' * b' = a * (b - b') + (a - a') * b' by ring]
    refine (abs_add_le _ _).trans ?_
    rw [abs_mul, abs_mul]
    have := abs_nonneg (b - b')
    have := abs_nonneg b'
    nlinarith
  have p3 : |ρ (a * b) - a' * b'| ≤ (1 + u) * f + (e + u) * |b'| + CxFp.η := by
    have := abs_sub_le (ρ (a * b)) (a * b) (a' * b')
    have q : u * |a * b| ≤ u * (|b'| + f) := mul_le_mul_of_nonneg_left (p1.trans b1) hu.le
    linarith
  exact ⟨⟨_, Is.mul (ρ := ρ) hA hB hl, p3⟩, ⟨_, Is.mul (ρ := ρ) hB hA (by rwa [mul_comm]), by rw [mul_comm b a]; exact p3⟩⟩

theorem lim_gt (hr : RoundsToNearest ρ) : Real.exp 709 < lim ∧ 9 / 8 * Real.exp (7095 / 10) < lim := by
  have h : Real.exp (5677 / 8) < lim := (C136_exp_refuted hr).2.2.1
  refine ⟨lt_trans (Real.exp_lt_exp.mpr (by norm_num)) h, lt_of_le_of_lt ?_ h⟩
  have e : Real.exp (5677 / 8) = Real.exp (1 / 8) * Real.exp (7095 / 10) := by rw [← Real.exp_add]; norm_num
  rw [e]
  refine mul_le_mul_of_nonneg_right ?_ (Real.exp_pos _).le
  have := Real.add_one_le_exp (1 / 8 : ℝ)
  linarith

/-- Where a circular or hyperbolic function returns, the angle is finite and `cosh` returns. -/
theorem trig_cosh (hr : RoundsToNearest ρ) {A B : D} (vB : Valid B) {α : Type} {f : ℕ → FM α}
    (hn : ¬ A.Finite ∨ Never (fun fuel => cosh ρ fuel B) → Never f) (h : Returns f) :
    ∃ x y, Is A x ∧ Is B y ∧ Returns (fun fuel => cosh ρ fuel B) := by
  have no : ¬ Never f := by
    obtain ⟨V, N, hN⟩ := h
    intro hn
    have := hn N
    rw [hN N le_rfl] at this
    cases this
  obtain ⟨c, -, -, ht⟩ := C135_cosh hr
  have hA : A.Finite := by
    by_contra hc
    exact no (hn (Or.inl hc))
  have hB : ∃ y, Is B y ∧ |y| ≤ c := by
    by_contra hc
    exact no (hn (Or.inr ((ht _ vB).2.mpr hc)))
  obtain ⟨y, hy, hb⟩ := hB
  exact ⟨_, y, hA.is, hy, (ht _ vB).1.mpr ⟨y, hy, hb⟩⟩

/-- The four factors of the circular and hyperbolic functions, when `cosh` returns. -/
theorem factors (h : RoundsTiesEven ρ) {A B : D} {x y : ℝ} (hA : Is A x) (hB : Is B y) (vA : Valid A) (vB : Valid B)
    (hc : Returns (fun fuel => cosh ρ fuel B)) : ∃ C S K H : D, ∃ c s k g : ℝ,
    (Is C c ∧ Gives (fun fuel => cos ρ fuel A) C ∧ |c| ≤ 1 ∧ |c - Real.cos x| ≤ angleErr x) ∧
    (Is S s ∧ Gives (fun fuel => sin ρ fuel A) S ∧ |s| ≤ 1 ∧ |s - Real.sin x| ≤ angleErr x) ∧
    (Is K k ∧ Gives (fun fuel => cosh ρ fuel B) K ∧ |k| < lim ∧
      |k - Real.cosh y| ≤ (52 / 100000 + 4 / 10 ^ 6 * |y|) * Real.cosh y) ∧
    (Is H g ∧ Gives (fun fuel => sinh ρ fuel B) H ∧ |g| < lim ∧
      |g - Real.sinh y| ≤ (52 / 100000 + 4 / 10 ^ 6 * |y|) * Real.cosh y) := by
  have hr := h.1
  obtain ⟨c', c1, c2, ht⟩ := C135_cosh hr
  have y356 : |y| < 356 := by
    obtain ⟨y', hy', hb⟩ := (ht _ vB).1.mp hc
    have : y' = y := by rw [← hy'.2, ← hB.2]
    subst this
    linarith
  obtain ⟨C, c, a1, a2, a3, a4⟩ := cos_all h hA vA
  obtain ⟨S, s, b1, b2, b3, b4⟩ := sin_all h hA vA
  obtain ⟨K, k, k1, k2, k3⟩ := C136_cosh_partial hr hB vB (Or.inr hc)
  have p0 := Real.cosh_pos y
  have pc : Real.cosh y ≤ Real.exp 356 := by
    have e := Real.cosh_eq y
    have e1 : Real.exp y ≤ Real.exp 356 := Real.exp_le_exp.mpr ((le_abs_self y).trans y356.le)
    have e2 : Real.exp (-y) ≤ Real.exp 356 := Real.exp_le_exp.mpr ((neg_le_abs y).trans y356.le)
    linarith
  have y0 := abs_nonneg y
  have ps := Props.abs_sinh_le_cosh y
  have l2 : 2 * Real.exp 356 < lim := by
    refine lt_of_le_of_lt ?_ (lim_gt hr).1
    have e : Real.exp 709 = Real.exp 353 * Real.exp 356 := by rw [← Real.exp_add]; norm_num
    rw [e]
    refine mul_le_mul_of_nonneg_right ?_ (Real.exp_pos _).le
    have := Real.add_one_le_exp (353 : ℝ)
    linarith
  have kb : (52 / 100000 + 4 / 10 ^ 6 * |y|) * Real.cosh y ≤ Real.cosh y := by nlinarith
  refine ⟨C, S, K, ?_⟩
  rcases C136_sinh hr hB vB with ⟨H, g, g1, g2, g3, g4⟩ | ⟨-, hbad⟩
  · refine ⟨H, c, s, k, g, ⟨a1, a2, a3, a4⟩, ⟨b1, b2, b3, b4⟩, ⟨k1, k2, ?_, k3⟩, ⟨g1, g3, isDouble_lt_lim (g1.double g2), ?_⟩⟩
    · have := abs_sub_abs_le_abs_sub k (Real.cosh y)
      rw [abs_of_pos p0] at this
      linarith
    · refine g4.trans (mul_le_mul_of_nonneg_right ?_ p0.le)
      linarith
  · exfalso
    linarith

/-- What one product of the circular and hyperbolic functions is off by. -/
theorem prod_err {y e b' : ℝ} (he : 0 ≤ e) (hb : |b'| ≤ Real.cosh y) :
    (1 + u) * ((52 / 100000 + 4 / 10 ^ 6 * |y|) * Real.cosh y) + (e + u) * |b'| + 1 / 2 ^ 1075 ≤
      (e + 53 / 10 ^ 5 + 5 / 10 ^ 6 * |y|) * Real.cosh y + 1 / 2 ^ 1075 := by
  have hu := u_pos
  have hu1 := u_lt
  norm_num at hu1
  have p0 := Real.cosh_pos y
  have y0 := abs_nonneg y
  have h1 : (e + u) * |b'| ≤ (e + u) * Real.cosh y := mul_le_mul_of_nonneg_left hb (by linarith)
  have h2 : (1 + u) * (52 / 100000 + 4 / 10 ^ 6 * |y|) + u ≤ 53 / 10 ^ 5 + 5 / 10 ^ 6 * |y| := by nlinarith
  have h3 := mul_le_mul_of_nonneg_right h2 p0.le
  nlinarith

/-- The absolute value as computed: its logarithm. -/
theorem log_abs {v R : ℝ} (h1 : 1 / 2 ^ 1074 ≤ R) (hb : |v - R| ≤ 52 / 100000 * R + 1 / 2 ^ 1075) :
    |Real.log v - Real.log R| ≤ 12 / 10000 + 21 / 10 * (1 / 2 ^ 1075) / R := by
  have h2 : (1 : ℝ) / 2 ^ 1074 = 2 * (1 / 2 ^ 1075) := by
    rw [show (2 : ℝ) ^ 1075 = 2 ^ 1074 * 2 from pow_succ _ _]; field_simp
  rw [h2] at h1
  have h3 : (0 : ℝ) < 1 / 2 ^ 1075 := by positivity
  generalize (1 : ℝ) / 2 ^ 1075 = η at *
  have R0 : 0 < R := by linarith
  have q : |v / R - 1| ≤ 52 / 100000 + η / R := by
    rw [show v / R - 1 = (v - R) / R by field_simp, abs_div, abs_of_pos R0, div_le_iff₀ R0]
    refine hb.trans (le_of_eq ?_)
    field_simp
  have e0 : 0 < η / R := div_pos h3 R0
  have e1 : η / R ≤ 1 / 2 := by rw [div_le_iff₀ R0]; linarith
  have v0 : 0 < v := by have := (abs_le.mp hb).1; linarith
  have q0 : 0 < v / R := div_pos v0 R0
  rw [← Real.log_div v0.ne' R0.ne', show 21 / 10 * η / R = 21 / 10 * (η / R) by ring]
  have u1 := Real.log_le_sub_one_of_pos q0
  have u2 := Real.one_sub_inv_le_log_of_pos q0
  generalize v / R = t at *
  generalize η / R = d at *
  rw [abs_le] at q
  have u3 : t⁻¹ ≤ 1 + (12 / 10000 + 21 / 10 * d) := by
    rw [inv_le_comm₀ q0 (by linarith)]
    refine le_trans ?_ (show 1 - 52 / 100000 - d ≤ t by linarith)
    rw [inv_le_iff_one_le_mul₀ (by linarith)]
    nlinarith
  rw [abs_le]; constructor <;> linarith

end Cest.ComplexFn.Ieee
