import Verif.ComplexFn.IeeeSqrt
import Verif.ComplexFn.IeeeProps

/-! The values of the complex transcendental functions over all finite doubles (C158).  `ρ` rounds to nearest with ties
to even; `lim` is the overflow threshold 2^1024 - 2^970. -/
namespace Cest.ComplexFn.Ieee.Props
open Cest Cest.Ieee Cest.Ieee.D Cest.ComplexFn.Ieee
open Cest.Cmath (FM Gives IsDouble RoundsToNearest RoundsTiesEven)
open Cest.Fp (u u_pos u_lt)
open Classical

variable {ρ : ℝ → ℝ}

/-! ### C158: what the complex functions return

Full statement: whenever a function returns, the parts of the result are finite and near those of the function of the same name.
For `exp` this fails when the real part is beyond 709.5 (`C158_exp_refuted`).  `C158_sqrt_partial` leaves out absolute values below
2^-1050 and those above 0.999·2^1022. -/

theorem C158_polar (h : RoundsTiesEven ρ) {R T : D} {r t : ℝ} (hR : Is R r) (hT : Is T t) (vR : Valid R) (vT : Valid T) :
    ∃ P Q p q, Is P p ∧ Is Q q ∧ Gives (fun fuel => polar ρ fuel R T) (P, Q) ∧
      |p - (r * Complex.exp (t * Complex.I)).re| ≤ (52 / 10 ^ 8 * (|t| + 6) + 1 / 10 ^ 15) * |r| + 1 / 2 ^ 1075 ∧
      |q - (r * Complex.exp (t * Complex.I)).im| ≤ (52 / 10 ^ 8 * (|t| + 6) + 1 / 10 ^ 15) * |r| + 1 / 2 ^ 1075 := by
  have hr := h.1
  obtain ⟨C, c, a1, a2, a3, a4⟩ := cos_all h hT vT
  obtain ⟨S, s, b1, b2, b3, b4⟩ := sin_all h hT vT
  have e : (r : ℂ) * Complex.exp (t * Complex.I) = ⟨r * Real.cos t, r * Real.sin t⟩ := by
    rw [Complex.exp_mul_I]
    apply Complex.ext <;> simp [← Complex.ofReal_cos, ← Complex.ofReal_sin]
  rw [e]
  have lR := isDouble_lt_lim (hR.double vR)
  obtain ⟨-, p, p1, p2⟩ := mul_one_value hr a1 hR lR a3 a4 (b' := r) (f := 0) (by simp)
  obtain ⟨-, q, q1, q2⟩ := mul_one_value hr b1 hR lR b3 b4 (b' := r) (f := 0) (by simp)
  have hu1 := u_lt
  have le : (1 + u) * 0 + (angleErr t + u) * |r| + 1 / 2 ^ 1075 ≤
      (52 / 10 ^ 8 * (|t| + 6) + 1 / 10 ^ 15) * |r| + 1 / 2 ^ 1075 := by
    rw [mul_zero, zero_add]
    refine add_le_add_left (mul_le_mul_of_nonneg_right ?_ (abs_nonneg r)) _
    unfold angleErr
    refine add_le_add_right (hu1.le.trans (by norm_num)) _
  refine ⟨_, _, p, q, p1, q1, gives_bind a2 (gives_bind b2 gives_pure), ?_, ?_⟩
  · simpa only [mul_comm] using p2.trans le
  · simpa only [mul_comm] using q2.trans le

/-- `exp`: accurate for real parts above -710 and up to 709.5. -/
theorem C158_exp_partial (h : RoundsTiesEven ρ) {X Y : D} {x y : ℝ} (hX : Is X x) (hY : Is Y y) (vY : Valid Y)
    (h1 : -710 < x) (h2 : x ≤ 7095 / 10) :
    ∃ P Q p q, Is P p ∧ Is Q q ∧ Gives (fun fuel => complexExp ρ fuel X Y) (P, Q) ∧
      |p - (Complex.exp ⟨x, y⟩).re| ≤ (52 / 10 ^ 8 * (|y| + 6) + 11 / 10 ^ 5) * Real.exp x + 1 / 2 ^ 1075 ∧
      |q - (Complex.exp ⟨x, y⟩).im| ≤ (52 / 10 ^ 8 * (|y| + 6) + 11 / 10 ^ 5) * Real.exp x + 1 / 2 ^ 1075 := by
  have hr := h.1
  obtain ⟨E, v, e1, e2, e3⟩ := (Cest.Ieee.exp_value hr hX h1 h2)
  obtain ⟨C, c, a1, a2, a3, a4⟩ := cos_all h hY vY
  obtain ⟨S, s, b1, b2, b3, b4⟩ := sin_all h hY vY
  have ex : Complex.exp ⟨x, y⟩ = ⟨Real.exp x * Real.cos y, Real.exp x * Real.sin y⟩ := by
    apply Complex.ext
    · exact Complex.exp_re _
    · exact Complex.exp_im _
  rw [ex]
  have x0 := Real.exp_pos x
  have lE : |v| < lim := by
    have t := abs_sub_abs_le_abs_sub v (Real.exp x)
    rw [abs_of_pos x0] at t
    have m : Real.exp x ≤ Real.exp (7095 / 10) := Real.exp_le_exp.mpr h2
    have := (lim_gt hr).2
    linarith
  obtain ⟨-, p, p1, p2⟩ := mul_one_value hr a1 e1 lE a3 a4 e3
  obtain ⟨-, q, q1, q2⟩ := mul_one_value hr b1 e1 lE b3 b4 e3
  have le : (1 + u) * (1 / 10000 * Real.exp x) + (angleErr y + u) * |Real.exp x| + 1 / 2 ^ 1075 ≤
      (52 / 10 ^ 8 * (|y| + 6) + 11 / 10 ^ 5) * Real.exp x + 1 / 2 ^ 1075 := by
    have hu1 := u_lt
    rw [abs_of_pos x0, show (1 + u) * (1 / 10000 * Real.exp x) + (angleErr y + u) * Real.exp x =
      (angleErr y + (u + (1 + u) * (1 / 10000))) * Real.exp x by ring]
    refine add_le_add_left (mul_le_mul_of_nonneg_right ?_ x0.le) _
    unfold angleErr
    refine add_le_add_right ?_ _
    norm_num at hu1 ⊢
    linarith
  have g : Gives (fun fuel => polar ρ fuel E Y) (mul ρ E C, mul ρ E S) := gives_bind a2 (gives_bind b2 gives_pure)
  have e : ∀ fuel, complexExp ρ fuel X Y () = polar ρ fuel E Y () := fun fuel => by
    simp only [complexExp, M.bind_apply, e2]
  refine ⟨_, _, p, q, p1, q1, ?_, ?_, ?_⟩
  · simpa only [Gives, e] using g
  · rw [mul_comm (Real.exp x) (Real.cos y)]; exact p2.trans le
  · rw [mul_comm (Real.exp x) (Real.sin y)]; exact q2.trans le

/-- From -710 down, as far as the real `exp` is defined, the result is zero. -/
theorem C158_exp_underflow (h : RoundsTiesEven ρ) {X Y : D} {x y : ℝ} (hX : Is X x) (hY : Is Y y) (vY : Valid Y)
    (h1 : -2147483648 < x) (h2 : x ≤ -710) :
    (∃ P Q, Is P 0 ∧ Is Q 0 ∧ Gives (fun fuel => complexExp ρ fuel X Y) (P, Q)) ∧
    ‖Complex.exp ⟨x, y⟩‖ ≤ Real.exp (-710) := by
  have hr := h.1
  obtain ⟨C, c, a1, a2, -, -⟩ := cos_all h hY vY
  obtain ⟨S, s, b1, b2, -, -⟩ := sin_all h hY vY
  have hE := Cest.Ieee.exp_underflow hr hX h2 h1
  have g : Gives (fun fuel => polar ρ fuel (fin 0) Y) (mul ρ (fin 0) C, mul ρ (fin 0) S) :=
    gives_bind a2 (gives_bind b2 gives_pure)
  have e : ∀ fuel, complexExp ρ fuel X Y () = polar ρ fuel (fin 0) Y () := fun fuel => by
    simp only [complexExp, M.bind_apply, hE]
  have z : ∀ {A : D} {a : ℝ}, Is A a → Is (mul ρ (fin 0) A) 0 := by
    intro A a hA
    have := Is.mul (ρ := ρ) (is_fin 0) hA (by rw [zero_mul, abs_zero]; exact lt_trans (by norm_num) lim_big)
    rwa [zero_mul, round_zero hr] at this
  refine ⟨⟨_, _, z a1, z b1, by simpa only [Gives, e] using g⟩, ?_⟩
  rw [Complex.norm_exp]
  exact Real.exp_le_exp.mpr h2

/-- Beyond 709.5 the real exponential is infinite; for a real argument the imaginary part is then NaN, not zero.  At
709.625 the value is a finite double's. -/
theorem C158_exp_refuted (h : RoundsTiesEven ρ) {X Y : D} {x : ℝ} (hX : Is X x) (vX : Valid X) (hY : Is Y 0) (vY : Valid Y)
    (h1 : 7095 / 10 < x) (h2 : x ≤ 2147483647 + 1 / 2) :
    Gives (fun fuel => complexExp ρ fuel X Y) (inf false, nan) ∧ (Complex.exp ⟨x, 0⟩).im = 0 ∧ Real.exp (5677 / 8) < lim := by
  have hr := h.1
  have hE := Cest.Ieee.exp_overflow hr hX vX h1 h2
  obtain ⟨C, θ, a1, a2, a3⟩ := Cest.Ieee.Props.C154_cos_finite h hY vY
  obtain ⟨S, φ, b1, b2, b3⟩ := Cest.Ieee.Props.C154_sin_finite h hY vY
  have p : φ = 0 := by simpa using b3
  subst p
  rw [Real.sin_zero] at b1
  have c0 : 0 < Real.cos θ := by
    rw [sub_zero, abs_zero] at a3
    have t := abs_le.mp a3
    have := Real.pi_gt_three
    exact Real.cos_pos_of_mem_Ioo ⟨by norm_num at t ⊢; linarith, by norm_num at t ⊢; linarith⟩
  have g : Gives (fun fuel => polar ρ fuel (inf false) Y) (mul ρ (inf false) C, mul ρ (inf false) S) :=
    gives_bind a2 (gives_bind b2 gives_pure)
  have e : ∀ fuel, complexExp ρ fuel X Y () = polar ρ fuel (inf false) Y () := fun fuel => by
    simp only [complexExp, M.bind_apply, hE]
  have m1 : mul ρ (inf false) C = inf false := by
    rcases a1.cases with ⟨rfl, e0⟩ | rfl
    · exact absurd e0 c0.ne'
    · simp [D.mul, D.val, D.sign, c0.ne', c0.le]
  have m2 : mul ρ (inf false) S = nan := by
    rcases b1.cases with ⟨rfl, e0⟩ | rfl
    · simp [D.mul, D.val]
    · simp [D.mul, D.val]
  rw [m1, m2] at g
  refine ⟨by simpa only [Gives, e] using g, ?_, (Cest.Ieee.Props.C136_exp_refuted hr).2.2.1⟩
  rw [Complex.exp_im]
  simp

/-- `cos`, whenever it returns. -/
theorem C158_cos (h : RoundsTiesEven ρ) {X Y : D} (vX : Valid X) (vY : Valid Y) (hret : Returns (fun fuel => complexCos ρ fuel X Y)) :
    ∃ x y P Q p q, Is X x ∧ Is Y y ∧ Is P p ∧ Is Q q ∧ Gives (fun fuel => complexCos ρ fuel X Y) (P, Q) ∧
      |p - (Complex.cos ⟨x, y⟩).re| ≤ (52 / 10 ^ 8 * (|x| + 6) + 53 / 10 ^ 5 + 5 / 10 ^ 6 * |y|) * Real.cosh y + 1 / 2 ^ 1075 ∧
      |q - (Complex.cos ⟨x, y⟩).im| ≤ (52 / 10 ^ 8 * (|x| + 6) + 53 / 10 ^ 5 + 5 / 10 ^ 6 * |y|) * Real.cosh y + 1 / 2 ^ 1075 := by
  obtain ⟨x, y, hX, hY, hc⟩ := trig_cosh h.1 vY (fun hn => (trig_never hn).1) hret
  obtain ⟨C, S, K, H, c, s, k, g, ⟨a1, a2, a3, a4⟩, ⟨b1, b2, b3, b4⟩, ⟨k1, k2, k3, k4⟩, ⟨g1, g2, g3, g4⟩⟩ := factors h hX hY vX vY hc
  obtain ⟨⟨p, p1, p2⟩, -⟩ := mul_one_value h.1 a1 k1 k3 a3 a4 k4
  obtain ⟨⟨q, q1, q2⟩, -⟩ := mul_one_value h.1 b1.neg g1 g3 (by rwa [abs_neg])
    (show |-s - -Real.sin x| ≤ angleErr x by rw [show -s - -Real.sin x = -(s - Real.sin x) by ring, abs_neg]; exact b4) g4
  have e : Complex.cos ⟨x, y⟩ = ⟨Real.cos x * Real.cosh y, -Real.sin x * Real.sinh y⟩ := by
    rw [show (⟨x, y⟩ : ℂ) = x + y * Complex.I from Complex.mk_eq_add_mul_I x y, Complex.cos_add_mul_I]
    apply Complex.ext <;>
      simp [← Complex.ofReal_cos, ← Complex.ofReal_sin, ← Complex.ofReal_cosh, ← Complex.ofReal_sinh]
  refine ⟨x, y, _, _, p, q, hX, hY, p1, q1, gives_bind a2 (gives_bind k2 (gives_bind b2 (gives_bind g2 gives_pure))), ?_, ?_⟩
  · rw [e]
    exact p2.trans (prod_err (angleErr_nonneg x) (by rw [abs_of_pos (Real.cosh_pos y)]))
  · rw [e]
    exact q2.trans (prod_err (angleErr_nonneg x) (ComplexFn.Props.abs_sinh_le_cosh y))

/-- `sin`, whenever it returns. -/
theorem C158_sin (h : RoundsTiesEven ρ) {X Y : D} (vX : Valid X) (vY : Valid Y) (hret : Returns (fun fuel => complexSin ρ fuel X Y)) :
    ∃ x y P Q p q, Is X x ∧ Is Y y ∧ Is P p ∧ Is Q q ∧ Gives (fun fuel => complexSin ρ fuel X Y) (P, Q) ∧
      |p - (Complex.sin ⟨x, y⟩).re| ≤ (52 / 10 ^ 8 * (|x| + 6) + 53 / 10 ^ 5 + 5 / 10 ^ 6 * |y|) * Real.cosh y + 1 / 2 ^ 1075 ∧
      |q - (Complex.sin ⟨x, y⟩).im| ≤ (52 / 10 ^ 8 * (|x| + 6) + 53 / 10 ^ 5 + 5 / 10 ^ 6 * |y|) * Real.cosh y + 1 / 2 ^ 1075 := by
  obtain ⟨x, y, hX, hY, hc⟩ := trig_cosh h.1 vY (fun hn => (trig_never hn).2.1) hret
  obtain ⟨C, S, K, H, c, s, k, g, ⟨a1, a2, a3, a4⟩, ⟨b1, b2, b3, b4⟩, ⟨k1, k2, k3, k4⟩, ⟨g1, g2, g3, g4⟩⟩ := factors h hX hY vX vY hc
  obtain ⟨⟨p, p1, p2⟩, -⟩ := mul_one_value h.1 b1 k1 k3 b3 b4 k4
  obtain ⟨⟨q, q1, q2⟩, -⟩ := mul_one_value h.1 a1 g1 g3 a3 a4 g4
  have e : Complex.sin ⟨x, y⟩ = ⟨Real.sin x * Real.cosh y, Real.cos x * Real.sinh y⟩ := by
    rw [show (⟨x, y⟩ : ℂ) = x + y * Complex.I from Complex.mk_eq_add_mul_I x y, Complex.sin_add_mul_I]
    apply Complex.ext <;>
      simp [← Complex.ofReal_cos, ← Complex.ofReal_sin, ← Complex.ofReal_cosh, ← Complex.ofReal_sinh]
  refine ⟨x, y, _, _, p, q, hX, hY, p1, q1, gives_bind b2 (gives_bind k2 (gives_bind a2 (gives_bind g2 gives_pure))), ?_, ?_⟩
  · rw [e]
    exact p2.trans (prod_err (angleErr_nonneg x) (by rw [abs_of_pos (Real.cosh_pos y)]))
  · rw [e]
    exact q2.trans (prod_err (angleErr_nonneg x) (ComplexFn.Props.abs_sinh_le_cosh y))

/-- `cosh`, whenever it returns. -/
theorem C158_cosh (h : RoundsTiesEven ρ) {X Y : D} (vX : Valid X) (vY : Valid Y) (hret : Returns (fun fuel => complexCosh ρ fuel X Y)) :
    ∃ x y P Q p q, Is X x ∧ Is Y y ∧ Is P p ∧ Is Q q ∧ Gives (fun fuel => complexCosh ρ fuel X Y) (P, Q) ∧
      |p - (Complex.cosh ⟨x, y⟩).re| ≤ (52 / 10 ^ 8 * (|y| + 6) + 53 / 10 ^ 5 + 5 / 10 ^ 6 * |x|) * Real.cosh x + 1 / 2 ^ 1075 ∧
      |q - (Complex.cosh ⟨x, y⟩).im| ≤ (52 / 10 ^ 8 * (|y| + 6) + 53 / 10 ^ 5 + 5 / 10 ^ 6 * |x|) * Real.cosh x + 1 / 2 ^ 1075 := by
  obtain ⟨y, x, hY, hX, hc⟩ := trig_cosh h.1 vX (fun hn => (trig_never hn).2.2.1) hret
  obtain ⟨C, S, K, H, c, s, k, g, ⟨a1, a2, a3, a4⟩, ⟨b1, b2, b3, b4⟩, ⟨k1, k2, k3, k4⟩, ⟨g1, g2, g3, g4⟩⟩ := factors h hY hX vY vX hc
  obtain ⟨-, p, p1, p2⟩ := mul_one_value h.1 a1 k1 k3 a3 a4 k4
  obtain ⟨-, q, q1, q2⟩ := mul_one_value h.1 b1 g1 g3 b3 b4 g4
  have e : Complex.cosh ⟨x, y⟩ = ⟨Real.cos y * Real.cosh x, Real.sin y * Real.sinh x⟩ := by
    rw [show (⟨x, y⟩ : ℂ) = x + y * Complex.I from Complex.mk_eq_add_mul_I x y, Complex.cosh_add,
      Complex.cosh_mul_I, Complex.sinh_mul_I]
    apply Complex.ext <;>
      simp [← Complex.ofReal_cos, ← Complex.ofReal_sin, ← Complex.ofReal_cosh, ← Complex.ofReal_sinh] <;> ring
  refine ⟨x, y, _, _, p, q, hX, hY, p1, q1, gives_bind k2 (gives_bind a2 (gives_bind g2 (gives_bind b2 gives_pure))), ?_, ?_⟩
  · rw [e]
    exact p2.trans (prod_err (angleErr_nonneg y) (by rw [abs_of_pos (Real.cosh_pos x)]))
  · rw [e]
    exact q2.trans (prod_err (angleErr_nonneg y) (ComplexFn.Props.abs_sinh_le_cosh x))

/-- `sinh`, whenever it returns. -/
theorem C158_sinh (h : RoundsTiesEven ρ) {X Y : D} (vX : Valid X) (vY : Valid Y) (hret : Returns (fun fuel => complexSinh ρ fuel X Y)) :
    ∃ x y P Q p q, Is X x ∧ Is Y y ∧ Is P p ∧ Is Q q ∧ Gives (fun fuel => complexSinh ρ fuel X Y) (P, Q) ∧
      |p - (Complex.sinh ⟨x, y⟩).re| ≤ (52 / 10 ^ 8 * (|y| + 6) + 53 / 10 ^ 5 + 5 / 10 ^ 6 * |x|) * Real.cosh x + 1 / 2 ^ 1075 ∧
      |q - (Complex.sinh ⟨x, y⟩).im| ≤ (52 / 10 ^ 8 * (|y| + 6) + 53 / 10 ^ 5 + 5 / 10 ^ 6 * |x|) * Real.cosh x + 1 / 2 ^ 1075 := by
  obtain ⟨y, x, hY, hX, hc⟩ := trig_cosh h.1 vX (fun hn => (trig_never hn).2.2.2) hret
  obtain ⟨C, S, K, H, c, s, k, g, ⟨a1, a2, a3, a4⟩, ⟨b1, b2, b3, b4⟩, ⟨k1, k2, k3, k4⟩, ⟨g1, g2, g3, g4⟩⟩ := factors h hY hX vY vX hc
  obtain ⟨-, p, p1, p2⟩ := mul_one_value h.1 a1 g1 g3 a3 a4 g4
  obtain ⟨-, q, q1, q2⟩ := mul_one_value h.1 b1 k1 k3 b3 b4 k4
  have e : Complex.sinh ⟨x, y⟩ = ⟨Real.cos y * Real.sinh x, Real.sin y * Real.cosh x⟩ := by
    rw [show (⟨x, y⟩ : ℂ) = x + y * Complex.I from Complex.mk_eq_add_mul_I x y, Complex.sinh_add,
      Complex.cosh_mul_I, Complex.sinh_mul_I]
    apply Complex.ext <;>
      simp [← Complex.ofReal_cos, ← Complex.ofReal_sin, ← Complex.ofReal_cosh, ← Complex.ofReal_sinh] <;> ring
  refine ⟨x, y, _, _, p, q, hX, hY, p1, q1, gives_bind g2 (gives_bind a2 (gives_bind k2 (gives_bind b2 gives_pure))), ?_, ?_⟩
  · rw [e]
    exact p2.trans (prod_err (angleErr_nonneg y) (ComplexFn.Props.abs_sinh_le_cosh x))
  · rw [e]
    exact q2.trans (prod_err (angleErr_nonneg y) (by rw [abs_of_pos (Real.cosh_pos x)]))

/-- `log` of a finite number that is not zero, whenever it returns.  The last term of the bound matters for subnormal
numbers only. -/
theorem C158_log (hr : RoundsToNearest ρ) {X Y : D} {x y : ℝ} (hX : Is X x) (hY : Is Y y) (vX : Valid X) (vY : Valid Y)
    (h0 : ¬ (x = 0 ∧ y = 0)) (hret : Returns (fun fuel => complexLog ρ fuel X Y)) :
    ∃ P Q p q, Is P p ∧ Is Q q ∧ Gives (fun fuel => complexLog ρ fuel X Y) (P, Q) ∧
      |p - (Complex.log ⟨x, y⟩).re| ≤ 3 / 1000 + |(Complex.log ⟨x, y⟩).re| / 10 ^ 8 + 3 * (1 / 2 ^ 1075) / ‖(⟨x, y⟩ : ℂ)‖ ∧
      |q - (Complex.log ⟨x, y⟩).im| ≤ 1 / 19000 := by
  have dx := hX.double vX
  have dy := hY.double vY
  have hR := norm_ge dx dy h0
  have hR0 : 0 < ‖(⟨x, y⟩ : ℂ)‖ := lt_of_lt_of_le (by positivity) hR
  rw [Complex.log_re, Complex.log_im]
  rcases Cest.Ieee.Props.C136_complex_abs hr hX hY with ⟨A, a, a1, a2, a3⟩ | ⟨hg, -⟩
  · have a0 := abs_value_pos dx dy h0 a3
    obtain ⟨N, hN⟩ := a2
    have vA := abs_valid hr vX vY (hN N le_rfl)
    obtain ⟨L, l, l1, l2, l3⟩ := Cest.Ieee.Props.C136_log hr a1 vA a0
    obtain ⟨T, t, t1, t2, t3⟩ := Cest.Ieee.Props.C136_atan2 hr hY hX h0
    refine ⟨L, T, l, t, l1, t1, gives_bind ⟨N, hN⟩ (gives_bind l2 (gives_bind t2 gives_pure)), ?_, t3⟩
    have hl := log_abs hR a3
    clear a3 hR
    have e0 : 0 < (1 / 2 ^ 1075 : ℝ) / ‖(⟨x, y⟩ : ℂ)‖ := div_pos (by positivity) hR0
    rw [mul_div_assoc] at hl ⊢
    generalize (1 / 2 ^ 1075 : ℝ) / ‖(⟨x, y⟩ : ℂ)‖ = d at *
    have s1 := abs_sub_le l (Real.log a) (Real.log ‖(⟨x, y⟩ : ℂ)‖)
    have s2 := abs_sub_abs_le_abs_sub (Real.log a) (Real.log ‖(⟨x, y⟩ : ℂ)‖)
    linarith
  · obtain ⟨V, N, hN⟩ := hret
    have := log_over hr hg N
    rw [hN N le_rfl] at this
    cases this

/-- The logarithm of zero, with any signs, has an infinite real part and imaginary part zero. -/
theorem C158_log_zero (hr : RoundsToNearest ρ) {X Y : D} (hX : Is X 0) (hY : Is Y 0) (vX : Valid X) (vY : Valid Y) :
    Gives (fun fuel => complexLog ρ fuel X Y) (inf true, fin 0) := by
  obtain ⟨A, a, a1, ⟨N, hN⟩, a3⟩ := abs_within hr hX hY (by
    rw [show (⟨0, 0⟩ : ℂ) = 0 from rfl, norm_zero]
    exact mul_pos (by norm_num) (lt_trans (by norm_num) lim_big))
  have vA := abs_valid hr vX vY (hN N le_rfl)
  have a0 : a = 0 := by
    rw [show (⟨0, 0⟩ : ℂ) = 0 from rfl, norm_zero, mul_zero, zero_add, sub_zero] at a3
    by_contra hc
    have d := a1.double vA
    have lt : (1 : ℝ) / 2 ^ 1075 < 1 / 2 ^ 1074 :=
      one_div_lt_one_div_of_lt (by positivity) (pow_lt_pow_right₀ (by norm_num) (by norm_num))
    rcases lt_or_gt_of_ne hc with hl | hg
    · have := Fp.isDouble_ge d.neg (neg_pos.mpr hl)
      rw [abs_of_neg hl] at a3
      exact absurd (this.trans a3) (not_le.mpr lt)
    · have := Fp.isDouble_ge d hg
      rw [abs_of_pos hg] at a3
      exact absurd (this.trans a3) (not_le.mpr lt)
  subst a0
  have t : Gives (fun fuel => complexArg ρ fuel X Y) (fin 0) := by
    refine ⟨0, fun fuel _ => ?_⟩
    unfold complexArg
    have p1 : ¬ lt (fin 0) X := fun hc => lt_irrefl _ (((is_fin 0).lt hX).mp hc)
    have p2 : ¬ lt X (fin 0) := fun hc => lt_irrefl _ ((hX.lt (is_fin 0)).mp hc)
    have p3 : ¬ lt (fin 0) Y := fun hc => lt_irrefl _ (((is_fin 0).lt hY).mp hc)
    have p4 : ¬ lt Y (fin 0) := fun hc => lt_irrefl _ ((hY.lt (is_fin 0)).mp hc)
    simp only [atan2, p1, p2, p3, p4, if_false, and_false, false_and]
    rfl
  have l : Gives (fun fuel => Cest.Ieee.log ρ fuel A) (inf true) := ⟨0, fun fuel _ => log_zero fuel a1⟩
  exact gives_bind ⟨N, hN⟩ (gives_bind l (gives_bind t gives_pure))

/-- `sqrt`: near the principal square root `w`, each part with a relative error of at most 1/1000.  Missing from the full statement:
absolute values below 2^-1050, where the absolute value itself is inaccurate, and the gap of `C157_sqrt_partial`. -/
theorem C158_sqrt_partial (hr : RoundsToNearest ρ) {X Y : D} {x y : ℝ} (hX : Is X x) (hY : Is Y y) (vX : Valid X) (vY : Valid Y)
    (h1 : 1 / 2 ^ 1050 ≤ ‖(⟨x, y⟩ : ℂ)‖) (h2 : x = 0 ∨ ‖(⟨x, y⟩ : ℂ)‖ ≤ 999 / 1000 * 2 ^ 1022) :
    ∃ A B a b, ∃ w : ℂ, Is A a ∧ Is B b ∧ Gives (fun fuel => complexSqrt ρ fuel X Y) (A, B) ∧ w ^ 2 = ⟨x, y⟩ ∧
      (0 < w.re ∨ w.re = 0 ∧ 0 ≤ w.im) ∧
      |a - w.re| ≤ 1 / 1000 * |w.re| + 1 / 2 ^ 1075 ∧ |b - w.im| ≤ 1 / 1000 * |w.im| + 1 / 2 ^ 1075 := by
  have η0 : (0 : ℝ) < 1 / 2 ^ 1075 := by positivity
  by_cases hx0 : x = 0
  · subst hx0
    rw [norm_eq, zero_pow two_ne_zero, zero_add, Real.sqrt_sq_eq_abs] at h1
    obtain ⟨R, r, hR, g, rb⟩ := imag_root hr hY vY h1
    have hy0 : 0 < |y| := lt_of_lt_of_le (by positivity) h1
    clear h1 h2
    set T := Real.sqrt (|y| / 2) with hT
    have hT0 : 0 < T := Real.sqrt_pos.mpr (by linarith)
    have hT2 : T * T = |y| / 2 := Real.mul_self_sqrt (by linarith)
    have rb' : |r - T| ≤ 1 / 1000 * |T| + 1 / 2 ^ 1075 := by
      rw [abs_of_pos hT0]
      generalize (1 : ℝ) / 2 ^ 1075 = g at *
      linarith
    have e : eq X (fin 0) := (hX.eq (is_fin 0)).mpr rfl
    have gg : Gives (fun fuel => complexSqrt ρ fuel X Y) (R, if lt Y (fin 0) then neg R else R) := by
      simp only [complexSqrt, if_pos e]
      exact gives_bind g gives_pure
    by_cases hy' : y < 0
    · rw [if_pos ((hY.lt (is_fin 0)).mpr hy')] at gg
      refine ⟨R, neg R, r, -r, ⟨T, -T⟩, hR, hR.neg, gg, ?_, Or.inl hT0, rb', ?_⟩
      · rw [abs_of_neg hy'] at hT2
        rw [sq]
        apply Complex.ext
        · simp
        · simp; linarith
      · show |-r - -T| ≤ 1 / 1000 * |-T| + 1 / 2 ^ 1075
        rw [show -r - -T = -(r - T) by ring, abs_neg, abs_neg]; exact rb'
    · rw [if_neg (fun hc => hy' ((hY.lt (is_fin 0)).mp hc))] at gg
      refine ⟨R, R, r, r, ⟨T, T⟩, hR, hR, gg, ?_, Or.inl hT0, rb', rb'⟩
      rw [abs_of_nonneg (not_lt.mp hy')] at hT2
      rw [sq]
      apply Complex.ext
      · simp
      · simp; linarith
  · have e : ¬ eq X (fin 0) := fun hc => hx0 ((hX.eq (is_fin 0)).mp hc)
    obtain ⟨V, v, hV, g, hb, v0, l1, l2⟩ := radicand_within hr hX hY vX vY hx0 (h2.resolve_left hx0)
    obtain ⟨q1, q2⟩ := radicand hr hV hX vX hx0 v0 l1 l2
    have q3 := radicand_err hr h1 hb l1 l2
    obtain ⟨Q, t, hQ, g2, tb⟩ := Cest.Ieee.Props.C136_sqrt hr q1 (valid_is q1 (hr.double _)) q2
    set R := ‖(⟨x, y⟩ : ℂ)‖ with hR
    set S := Real.sqrt (2 * (R + |x|)) with hS
    have hR' : R = Real.sqrt (x ^ 2 + y ^ 2) := norm_eq x y
    obtain ⟨hS0, -, -⟩ := ComplexFn.Props.root_sq hR' hS hx0
    obtain ⟨rt1, rt2⟩ := root_exists hR' hS hx0
    have R0 : 0 < R := lt_of_lt_of_le (by positivity) h1
    have x0 := abs_nonneg x
    have tb' : |t - S| ≤ 88 / 100000 * S := by
      have c := sqrt_close q2.le (by linarith) q3
      rw [← hS] at c
      have := abs_sub_le t (Real.sqrt (ρ (2 * ρ (v + |x|)))) S
      have := (abs_le.mp c).2
      linarith
    have SS : S * S = 2 * (R + |x|) := Real.mul_self_sqrt (by linarith)
    have S1 : 1 / 2 ^ 540 ≤ S := by
      rw [hS]
      apply Real.le_sqrt_of_sq_le
      have : ((1 : ℝ) / 2 ^ 540) ^ 2 ≤ 1 / 2 ^ 1050 := by
        rw [div_pow, one_pow, ← pow_mul]
        exact one_div_le_one_div_of_le (by positivity) (pow_le_pow_right₀ (by norm_num) (by norm_num))
      linarith only [this, h1, x0, R0]
    have S2 : S ≤ 2 ^ 540 := by
      rw [hS]
      apply Real.sqrt_le_iff.mpr
      refine ⟨by positivity, ?_⟩
      have k : (4 : ℝ) * 2 ^ 1022 ≤ (2 ^ 540) ^ 2 := by
        rw [← pow_mul, show (4 : ℝ) = 2 ^ 2 by norm_num, ← pow_add]
        exact pow_le_pow_right₀ (by norm_num) (by norm_num)
      have k2 := h2.resolve_left hx0
      have k3 := re_le x y
      rw [← hR] at k3
      generalize ((2 : ℝ) ^ 540) ^ 2 = g at *
      generalize (2 : ℝ) ^ 1022 = g' at *
      linarith only [k, k2, k3, R0]
    have ySS : |y| ≤ S * S := by rw [SS]; have := im_le x y; rw [← hR] at this; linarith
    obtain ⟨⟨a, a1, a2⟩, ⟨b, b1, b2⟩⟩ := parts_value hr hQ hY S1 S2 ySS tb'
    obtain ⟨-, ⟨b', b1', b2'⟩⟩ := parts_value hr hQ hY.abs S1 S2 (by rwa [abs_abs]) tb'
    clear S1 S2 h1 h2 hb q3
    by_cases hpos : 0 < x
    · refine ⟨_, _, a, b, ⟨S / 2, y / S⟩, a1, b1, ?_, rt1 hpos, Or.inl (by show 0 < S / 2; linarith), a2, b2⟩
      simp only [complexSqrt, if_neg e, if_pos (((is_fin 0).lt hX).mpr hpos)]
      exact gives_bind g (gives_bind g2 gives_pure)
    · have hneg : x < 0 := lt_of_le_of_ne (not_lt.mp hpos) hx0
      have gg : Gives (fun fuel => complexSqrt ρ fuel X Y)
          (div ρ (abs Y) Q, if lt Y (fin 0) then neg (div ρ Q (fin 2)) else div ρ Q (fin 2)) := by
        simp only [complexSqrt, if_neg e, if_neg (fun hc => hpos (((is_fin 0).lt hX).mp hc))]
        exact gives_bind g (gives_bind g2 gives_pure)
      have rt := rt2 hneg
      by_cases hy' : y < 0
      · rw [if_pos ((hY.lt (is_fin 0)).mpr hy')] at gg
        rw [if_pos hy'] at rt
        refine ⟨_, _, b', -a, ⟨|y| / S, -(S / 2)⟩, b1', a1.neg, gg, rt, Or.inl (div_pos (abs_pos.mpr hy'.ne) hS0), b2', ?_⟩
        show |-a - -(S / 2)| ≤ 1 / 1000 * |-(S / 2)| + 1 / 2 ^ 1075
        rw [show -a - -(S / 2) = -(a - S / 2) by ring, abs_neg, abs_neg]; exact a2
      · rw [if_neg (fun hc => hy' ((hY.lt (is_fin 0)).mp hc))] at gg
        rw [if_neg hy'] at rt
        refine ⟨_, _, b', a, ⟨|y| / S, S / 2⟩, b1', a1, gg, rt, ?_, b2', a2⟩
        rcases eq_or_ne y 0 with hy0 | hy0
        · right
          refine ⟨by show |y| / S = 0; rw [hy0]; simp, by show 0 ≤ S / 2; linarith⟩
        · exact Or.inl (div_pos (abs_pos.mpr hy0) hS0)

/-! ### the hypotheses are met -/

/-- `cos(1000 + 300i)`, far outside the range of C123. -/
example (h : RoundsTiesEven ρ) : ∃ P Q p q, Is P p ∧ Is Q q ∧ Gives (fun fuel => complexCos ρ fuel (fin 1000) (fin 300)) (P, Q) ∧
    |p - (Complex.cos ⟨1000, 300⟩).re| ≤ 3 / 1000 * Real.cosh 300 + 1 / 2 ^ 1075 := by
  have d1 : IsDouble (1000 : ℝ) := by simpa using Cmath.isDouble_int (K := ℝ) (k := 1000) (by norm_num)
  have d2 : IsDouble (300 : ℝ) := by simpa using Cmath.isDouble_int (K := ℝ) (k := 300) (by norm_num)
  obtain ⟨c, c1, -, ht⟩ := C157_trig h.1
  have hret := (ht (fin 1000) (fin 300) (valid_fin d1) (valid_fin d2)).1.1.mpr
    ⟨(is_fin 1000).1, 300, is_fin 300, by rw [abs_of_pos (by norm_num)]; linarith⟩
  obtain ⟨x, y, P, Q, p, q, hx, hy, hP, hQ, hg, hp, -⟩ := C158_cos h (valid_fin d1) (valid_fin d2) hret
  have ex : x = 1000 := by rw [← hx.2]; rfl
  have ey : y = 300 := by rw [← hy.2]; rfl
  subst ex ey
  refine ⟨P, Q, p, q, hP, hQ, hg, hp.trans (add_le_add_left (mul_le_mul_of_nonneg_right ?_ (Real.cosh_pos _).le) _)⟩
  norm_num

/-- `log` of the smallest complex number with two subnormal parts. -/
example (hr : RoundsToNearest ρ) : Returns (fun fuel => complexLog ρ fuel (fin (1 / 2 ^ 1074)) (fin (1 / 2 ^ 1074))) := by
  have d : IsDouble ((1 : ℝ) / 2 ^ 1074) := by
    refine ⟨1, -1074, ?_, by norm_num, by norm_num, by norm_num⟩
    rw [zpow_neg, Int.cast_one, one_mul, one_div, show (1074 : ℤ) = ((1074 : ℕ) : ℤ) from rfl, zpow_natCast]
  refine (C157_log_finite hr (is_fin _) (is_fin _) (valid_fin d) (valid_fin d)).1 ?_
  refine lt_of_le_of_lt (Complex.norm_le_abs_re_add_abs_im _) ?_
  have p : |(1 : ℝ) / 2 ^ 1074| ≤ 1 := by
    rw [abs_of_pos (by positivity), div_le_one (by positivity)]
    exact one_le_pow₀ (by norm_num)
  have l := lim_big
  refine lt_of_le_of_lt (add_le_add p p) ?_
  linarith

end Cest.ComplexFn.Ieee.Props
