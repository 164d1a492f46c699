import Verif.Fp.RangeProps
import Verif.Fp.Hyp

/-! C150: identities between the elementary functions of `cmath.hpp`, in binary64: functions and their inverses,
sums of squares, and exponentials of sums.

The expressions are those a program would write: every operation on doubles is rounded (`ρ`). -/

namespace Cest.Fp.Props
open Cest Cest.Cmath

variable {ρ : ℝ → ℝ}

theorem exp_isDouble (hr : RoundsToNearest ρ) {x v : ℝ} (h : exp ρ x () = .ok v ()) : IsDouble v := by
  simp only [exp, M.bind_apply] at h
  split at h
  · split at h
    · split at h
      · split at h
        · split at h
          · simp only [M.pure_apply, Res.ok.injEq] at h
            rw [← h.1]
            exact hr.double _
          all_goals cases h
        all_goals cases h
      all_goals cases h
    all_goals cases h
  all_goals cases h

theorem exp_700 {x : ℝ} (h : |x| ≤ 700) : 1 / 2 ^ 1011 ≤ Real.exp x ∧ Real.exp x ≤ 2 ^ 1011 := by
  have key : ∀ {y : ℝ}, y ≤ 700 → Real.exp y ≤ 2 ^ 1011 := by
    intro y hy
    rw [← Real.le_log_iff_exp_le (by positivity), Real.log_pow]
    have := Real.log_two_gt_d9
    push_cast; norm_num at this ⊢; linarith
  have h' := abs_le.mp h
  refine ⟨?_, key h'.2⟩
  have h1 := key (y := -x) (by linarith)
  rw [Real.exp_neg] at h1
  rw [one_div]
  exact inv_le_of_inv_le₀ (Real.exp_pos x) h1

/-- `exp(log(x))` is `x` up to 14 parts in ten thousand. -/
theorem C150_exp_log (hr : RoundsToNearest ρ) {x : ℝ} (hx : IsDouble x) (h0 : 0 < x) (h1 : |Real.log x| ≤ 699) :
    ∃ l v, Gives (fun fuel => log ρ fuel x) (LogRes.val l) ∧ exp ρ l () = .ok v () ∧ |v - x| ≤ 14 / 10000 * x := by
  obtain ⟨l, hl, b⟩ := C107_log hr hx h0
  have b1 : |l - Real.log x| ≤ 121 / 100000 := b.trans (by linarith)
  have l1 : |l| ≤ 700 := by
    have := abs_sub_abs_le_abs_sub l (Real.log x)
    linarith
  obtain ⟨v, hv, c⟩ := C108_exp hr l1
  refine ⟨l, v, hl, hv, ?_⟩
  have e : Real.exp l = x * Real.exp (l - Real.log x) := by
    rw [Real.exp_sub, Real.exp_log h0]; field_simp
  have q := Real.abs_exp_sub_one_sub_id_le (x := l - Real.log x) (by linarith)
  generalize l - Real.log x = d at *
  have d2 : d ^ 2 ≤ (121 / 100000) ^ 2 := sq_le_sq' (by linarith [(abs_le.mp b1).1]) (abs_le.mp b1).2
  generalize Real.exp d = E at *
  rw [e] at c
  rw [abs_le] at b1 c q ⊢
  constructor <;> nlinarith

/-- `log(exp(x))` is `x` up to 14/10000. -/
theorem C150_log_exp (hr : RoundsToNearest ρ) {x : ℝ} (hx : |x| ≤ 700) :
    ∃ v l, exp ρ x () = .ok v () ∧ Gives (fun fuel => log ρ fuel v) (LogRes.val l) ∧ |l - x| ≤ 14 / 10000 := by
  obtain ⟨v, hv, b⟩ := C108_exp hr hx
  have e0 := Real.exp_pos x
  have v0 : 0 < v := by rw [abs_le] at b; linarith
  obtain ⟨l, hl, c⟩ := C107_log hr (exp_isDouble hr hv) v0
  refine ⟨v, l, hv, hl, ?_⟩
  have r0 : 0 < v / Real.exp x := div_pos v0 e0
  have r1 : |v / Real.exp x - 1| ≤ 1 / 10000 := by
    rw [div_sub_one e0.ne', abs_div, abs_of_pos e0, div_le_iff₀ e0]
    exact b
  have lr : Real.log v = x + Real.log (v / Real.exp x) := by
    rw [Real.log_div v0.ne' e0.ne', Real.log_exp]; ring
  have u1 := Real.log_le_sub_one_of_pos r0
  have u2 := Real.one_sub_inv_le_log_of_pos r0
  generalize v / Real.exp x = r at *
  rw [abs_le] at r1
  have u3 : r⁻¹ ≤ 100011 / 100000 := by
    rw [inv_le_comm₀ r0 (by norm_num)]
    norm_num
    linarith
  have l1 : |Real.log v| ≤ 701 := by
    rw [lr]
    refine (abs_add_le _ _).trans ?_
    have : |Real.log r| ≤ 1 := by rw [abs_le]; constructor <;> linarith
    linarith
  have c1 : |l - Real.log v| ≤ 1208 / 1000000 := c.trans (by linarith)
  rw [lr] at c1
  rw [abs_le] at c1 ⊢
  constructor <;> linarith

/-- `sqrt(x) * sqrt(x)` is `x` up to 103 parts in a hundred thousand. -/
theorem C150_sqrt_squared (hr : RoundsToNearest ρ) {x : ℝ} (x1 : 1 / 2 ^ 1000 ≤ x) (x2 : x ≤ 2 ^ 960) :
    ∃ r, Gives (fun fuel => sqrt ρ fuel x) r ∧ |ρ (r * r) - x| ≤ 103 / 100000 * x := by
  have x0 : 0 < x := lt_of_lt_of_le (by positivity) x1
  obtain ⟨r, h, -, b⟩ := C105_sqrt hr (x := x)
    (le_trans (one_div_le_one_div_of_le (by positivity) (pow_le_pow_right₀ (by norm_num) (by norm_num))) x1) x2
  refine ⟨r, h, ?_⟩
  have s0 : 0 < Real.sqrt x := Real.sqrt_pos.mpr x0
  have s2 := Real.mul_self_sqrt x0.le
  have hu := u_lt
  have hu0 := u_pos
  norm_num at hu
  rw [abs_le] at b
  have q1 : x * (99897 / 100000) ≤ r * r := by rw [← s2]; nlinarith
  have q2 : r * r ≤ x * (1001021 / 1000000) := by rw [← s2]; nlinarith
  have big : x * (1001021 / 1000000) ≤ 2 ^ 1023 := by
    refine le_trans (mul_le_mul x2 (by norm_num : (1001021 / 1000000 : ℝ) ≤ 2) (by norm_num) (by positivity)) ?_
    rw [← pow_succ]; exact pow_le_pow_right₀ (by norm_num) (by norm_num)
  have small : 1 / 2 ^ 1022 ≤ x * (99897 / 100000) := by
    refine le_trans ?_ (mul_le_mul_of_nonneg_left (by norm_num : (1 / 2 : ℝ) ≤ 99897 / 100000) x0.le)
    refine le_trans ?_ (mul_le_mul_of_nonneg_right x1 (by norm_num))
    rw [div_mul_div_comm, one_mul, ← pow_succ]
    exact one_div_le_one_div_of_le (by positivity) (pow_le_pow_right₀ (by norm_num) (by norm_num))
  obtain ⟨w1, w2⟩ := round_bounds hr (small.trans q1) (q2.trans big)
  clear x1 x2 big small
  rw [abs_le]
  constructor <;> nlinarith

/-- `sqrt(x * x)` is `|x|` up to 52 parts in a hundred thousand. -/
theorem C150_sqrt_of_square (hr : RoundsToNearest ρ) {x : ℝ} (x1 : 1 / 2 ^ 500 ≤ |x|) (x2 : |x| ≤ 2 ^ 479) :
    ∃ r, Gives (fun fuel => sqrt ρ fuel (ρ (x * x))) r ∧ |(|x| - r)| ≤ 52 / 100000 * |x| := by
  have x0 : 0 < |x| := lt_of_lt_of_le (by positivity) x1
  rw [← abs_mul_abs_self x]
  generalize |x| = z at *
  have z1 : 1 / 2 ^ 1000 ≤ z * z := by
    have := mul_le_mul x1 x1 (by positivity) x0.le
    rw [div_mul_div_comm, one_mul, ← pow_add] at this
    exact this
  have z2 : z * z ≤ 2 ^ 958 := by
    have := mul_le_mul x2 x2 x0.le (by positivity)
    rw [← pow_add] at this
    exact this
  have hu := u_lt
  have hu0 := u_pos
  norm_num at hu
  obtain ⟨w1, w2⟩ := round_bounds hr (x := z * z)
    (le_trans (one_div_le_one_div_of_le (by positivity) (pow_le_pow_right₀ (by norm_num) (by norm_num))) z1)
    (z2.trans (pow_le_pow_right₀ (by norm_num) (by norm_num)))
  have zz : 0 < z * z := by positivity
  have y1 : 1 / 2 ^ 1074 ≤ ρ (z * z) := by
    have : z * z * (1 / 2) ≤ ρ (z * z) := le_trans (mul_le_mul_of_nonneg_left (by linarith) zz.le) w1
    refine le_trans ?_ this
    refine le_trans ?_ (mul_le_mul_of_nonneg_right z1 (by norm_num))
    rw [div_mul_div_comm, one_mul, ← pow_succ]
    exact one_div_le_one_div_of_le (by positivity) (pow_le_pow_right₀ (by norm_num) (by norm_num))
  have y2 : ρ (z * z) ≤ 2 ^ 960 := by
    have : ρ (z * z) ≤ z * z * 2 := w2.trans (mul_le_mul_of_nonneg_left (by linarith) zz.le)
    refine this.trans ((mul_le_mul_of_nonneg_right z2 (by norm_num)).trans ?_)
    rw [← pow_succ]; exact pow_le_pow_right₀ (by norm_num) (by norm_num)
  obtain ⟨r, h, -, b⟩ := C105_sqrt hr y1 y2
  refine ⟨r, h, ?_⟩
  have s1 : z * (1 - 1 / 10 ^ 8) ≤ Real.sqrt (ρ (z * z)) := by
    apply Real.le_sqrt_of_sq_le
    refine le_trans ?_ w1
    rw [mul_pow, sq z]
    exact mul_le_mul_of_nonneg_left (by norm_num; linarith) zz.le
  have s2 : Real.sqrt (ρ (z * z)) ≤ z * (1 + 1 / 10 ^ 8) := by
    rw [Real.sqrt_le_left (by positivity)]
    refine w2.trans ?_
    rw [mul_pow, sq z]
    exact mul_le_mul_of_nonneg_left (by norm_num; linarith) zz.le
  generalize Real.sqrt (ρ (z * z)) = s at *
  clear z1 z2 y1 y2 x1 x2
  norm_num at s1 s2
  rw [abs_le] at b ⊢
  constructor <;> linarith

/-- `exp(x) * exp(y)` and `exp(x + y)` agree up to four parts in ten thousand. -/
theorem C150_exp_add (hr : RoundsToNearest ρ) {x y : ℝ} (h : |x| + |y| ≤ 699) :
    ∃ p q r, exp ρ x () = .ok p () ∧ exp ρ y () = .ok q () ∧ exp ρ (ρ (x + y)) () = .ok r () ∧ 0 < r ∧
      |ρ (p * q) - r| ≤ 4 / 10000 * r := by
  have hu := u_lt
  have hu0 := u_pos
  norm_num at hu
  have hxy : |x + y| ≤ 699 := (abs_add_le _ _).trans h
  have d1 : |ρ (x + y) - (x + y)| ≤ 1 / 10 ^ 8 := by
    refine (abs_err hr hxy ?_ ?_).trans ?_
    · exact le_trans (by rw [div_le_one (by positivity)]; exact one_le_pow₀ (by norm_num)) (by norm_num : (1 : ℝ) ≤ 699)
    · exact le_trans (by norm_num : (699 : ℝ) ≤ 2 ^ 10) (pow_le_pow_right₀ (by norm_num) (by norm_num))
    · norm_num; linarith
  have s700 : |ρ (x + y)| ≤ 700 := by
    have := abs_sub_abs_le_abs_sub (ρ (x + y)) (x + y)
    norm_num at d1
    linarith
  obtain ⟨p, hp, p1⟩ := C108_exp hr (x := x) (by linarith [abs_nonneg y])
  obtain ⟨q, hq, q1⟩ := C108_exp hr (x := y) (by linarith [abs_nonneg x])
  obtain ⟨r, hrr, r1⟩ := C108_exp hr s700
  have es : Real.exp (ρ (x + y)) = Real.exp x * Real.exp y * Real.exp (ρ (x + y) - (x + y)) := by
    rw [← Real.exp_add, ← Real.exp_add]; congr 1; ring
  have ed := Real.abs_exp_sub_one_sub_id_le (x := ρ (x + y) - (x + y)) (d1.trans (by norm_num))
  obtain ⟨lo, hi⟩ := exp_700 (x := x + y) (by linarith)
  rw [Real.exp_add] at lo hi
  have X0 := Real.exp_pos x
  have Y0 := Real.exp_pos y
  rw [es] at r1
  generalize ρ (x + y) - (x + y) = d at *
  have d2 : d ^ 2 ≤ (1 / 10 ^ 8) ^ 2 := sq_le_sq' (by linarith [(abs_le.mp d1).1]) (abs_le.mp d1).2
  generalize Real.exp d = E at *
  generalize Real.exp x = X at *
  generalize Real.exp y = Y at *
  norm_num at d1 d2
  have XY : 0 < X * Y := by positivity
  have hE : |E - 1| ≤ 1 / 10 ^ 7 := by
    rw [abs_le] at d1 ed ⊢
    norm_num
    constructor <;> linarith
  rw [abs_le] at p1 q1 r1 hE
  have pq1 : X * Y * (99979 / 100000) ≤ p * q := by
    have := mul_le_mul (show X * (9999 / 10000) ≤ p by linarith) (show Y * (9999 / 10000) ≤ q by linarith)
      (by positivity) (by linarith)
    nlinarith
  have pq2 : p * q ≤ X * Y * (100021 / 100000) := by
    have := mul_le_mul (show p ≤ X * (10001 / 10000) by linarith) (show q ≤ Y * (10001 / 10000) by linarith)
      (by linarith) (by positivity)
    nlinarith
  generalize X * Y = Z at *
  have big : Z * (100021 / 100000) ≤ 2 ^ 1023 := by
    refine le_trans (mul_le_mul hi (by norm_num : (100021 / 100000 : ℝ) ≤ 2) (by norm_num) (by positivity)) ?_
    rw [← pow_succ]; exact pow_le_pow_right₀ (by norm_num) (by norm_num)
  have small : 1 / 2 ^ 1022 ≤ Z * (99979 / 100000) := by
    refine le_trans ?_ (mul_le_mul_of_nonneg_left (by norm_num : (1 / 2 : ℝ) ≤ 99979 / 100000) XY.le)
    refine le_trans ?_ (mul_le_mul_of_nonneg_right lo (by norm_num))
    rw [div_mul_div_comm, one_mul, ← pow_succ]
    exact one_div_le_one_div_of_le (by positivity) (pow_le_pow_right₀ (by norm_num) (by norm_num))
  obtain ⟨w1, w2⟩ := round_bounds hr (small.trans pq1) (pq2.trans big)
  clear big small lo hi
  norm_num at hE
  have rr1 : Z * (99989 / 100000) ≤ r := by nlinarith
  have rr2 : r ≤ Z * (100011 / 100000) := by nlinarith
  have ww1 : Z * (99978 / 100000) ≤ ρ (p * q) := by nlinarith
  have ww2 : ρ (p * q) ≤ Z * (100022 / 100000) := by nlinarith
  refine ⟨p, q, r, hp, hq, hrr, by nlinarith, ?_⟩
  rw [abs_le]
  constructor <;> linarith

/-- `exp(x) * exp(-x)` is 1 up to three parts in ten thousand. -/
theorem C150_exp_neg (hr : RoundsToNearest ρ) {x : ℝ} (h : |x| ≤ 700) :
    ∃ p q, exp ρ x () = .ok p () ∧ exp ρ (-x) () = .ok q () ∧ |ρ (p * q) - 1| ≤ 3 / 10000 := by
  have hu := u_lt
  have hu0 := u_pos
  norm_num at hu
  obtain ⟨p, hp, p1⟩ := C108_exp hr h
  obtain ⟨q, hq, q1⟩ := C108_exp hr (x := -x) (by rwa [abs_neg])
  refine ⟨p, q, hp, hq, ?_⟩
  have e : Real.exp x * Real.exp (-x) = 1 := by rw [← Real.exp_add]; simp
  have X0 := Real.exp_pos x
  have Y0 := Real.exp_pos (-x)
  generalize Real.exp x = X at *
  generalize Real.exp (-x) = Y at *
  rw [abs_le] at p1 q1
  have pq1 : 99979 / 100000 ≤ p * q := by
    have := mul_le_mul (show X * (9999 / 10000) ≤ p by linarith) (show Y * (9999 / 10000) ≤ q by linarith)
      (by positivity) (by linarith)
    nlinarith
  have pq2 : p * q ≤ 100021 / 100000 := by
    have := mul_le_mul (show p ≤ X * (10001 / 10000) by linarith) (show q ≤ Y * (10001 / 10000) by linarith)
      (by linarith) (by positivity)
    nlinarith
  have w := abs_err hr (x := p * q) (B := 2) (by rw [abs_le]; constructor <;> linarith)
    (le_trans (by rw [div_le_one (by positivity)]; exact one_le_pow₀ (by norm_num)) (by norm_num : (1 : ℝ) ≤ 2))
    (le_trans (by norm_num : (2 : ℝ) ≤ 2 ^ 1) (pow_le_pow_right₀ (by norm_num) (by norm_num)))
  rw [abs_le] at w ⊢
  constructor <;> linarith

/-- `sin(x) * sin(x) + cos(x) * cos(x)` is 1 up to about three times the error of `cos`. -/
theorem C150_sin_cos (hr : RoundsToNearest ρ) {x : ℝ} (h : |x| ≤ 400) :
    ∃ s c, Gives (fun fuel => sin ρ fuel x) s ∧ Gives (fun fuel => cos ρ fuel x) c ∧
      |ρ (ρ (s * s) + ρ (c * c)) - 1| ≤ 31 / 10 * (2 / 10 ^ 6 * (|x| + 6) + 14 / 10 ^ 8 * (|x| + 7) ^ 2) := by
  have hu := u_lt
  have hu0 := u_pos
  norm_num at hu
  obtain ⟨s, hs, s1⟩ := C106_sin hr (x := x) (by linarith)
  obtain ⟨c, hc, c1⟩ := C106_cos hr h
  refine ⟨s, c, hs, hc, ?_⟩
  have ax := abs_nonneg x
  generalize |x| = z at *
  have es : 2 / 10 ^ 6 * (z + 4) + 14 / 10 ^ 8 * (z + 5) ^ 2 ≤ 2 / 10 ^ 6 * (z + 6) + 14 / 10 ^ 8 * (z + 7) ^ 2 := by
    norm_num; nlinarith
  have s2 := s1.trans es
  have elo : 1 / 10 ^ 5 ≤ 2 / 10 ^ 6 * (z + 6) + 14 / 10 ^ 8 * (z + 7) ^ 2 := by norm_num; nlinarith
  have ehi : 2 / 10 ^ 6 * (z + 6) + 14 / 10 ^ 8 * (z + 7) ^ 2 ≤ 25 / 1000 := by norm_num; nlinarith
  clear es s1
  generalize 2 / 10 ^ 6 * (z + 6) + 14 / 10 ^ 8 * (z + 7) ^ 2 = E at *
  have one := Real.sin_sq_add_cos_sq x
  generalize Real.sin x = S at *
  generalize Real.cos x = C at *
  have aS := sq_abs S
  have aC := sq_abs C
  have sum : |S| + |C| ≤ 3 / 2 := by nlinarith [sq_nonneg (|S| - |C|), abs_nonneg S, abs_nonneg C]
  have key : ∀ {v W : ℝ}, |v - W| ≤ E → |v * v - W ^ 2| ≤ 2 * E * |W| + 25 / 1000 * E := by
    intro v W hv
    have e : v * v - W ^ 2 = 2 * (v - W) * W + (v - W) * (v - W) := by ring
    rw [e]
    refine (abs_add_le _ _).trans (add_le_add ?_ ?_)
    · rw [abs_mul, abs_mul, abs_two]
      exact mul_le_mul_of_nonneg_right (mul_le_mul_of_nonneg_left hv (by norm_num)) (abs_nonneg W)
    · rw [abs_mul]
      exact mul_le_mul (hv.trans ehi) hv (abs_nonneg _) (by norm_num)
  have k1 := key s2
  have k2 := key c1
  have m : E * (|S| + |C|) ≤ E * (3 / 2) := mul_le_mul_of_nonneg_left sum (by linarith)
  have tot : |s * s + c * c - 1| ≤ 305 / 100 * E := by
    rw [← one, show s * s + c * c - (S ^ 2 + C ^ 2) = (s * s - S ^ 2) + (c * c - C ^ 2) by ring]
    refine (abs_add_le _ _).trans ?_
    linarith
  clear k1 k2 key m sum
  have ss := mul_self_nonneg s
  have cc := mul_self_nonneg c
  have t' := abs_le.mp tot
  have B1 : (1 : ℝ) / 2 ^ 900 ≤ 2 :=
    le_trans (by rw [div_le_one (by positivity)]; exact one_le_pow₀ (by norm_num)) (by norm_num : (1 : ℝ) ≤ 2)
  have B2 : (2 : ℝ) ≤ 2 ^ 1023 :=
    le_trans (by norm_num : (2 : ℝ) ≤ 2 ^ 1) (pow_le_pow_right₀ (by norm_num) (by norm_num))
  have w1 := abs_err hr (x := s * s) (B := 2) (by rw [abs_le]; constructor <;> linarith) B1 B2
  have w2 := abs_err hr (x := c * c) (B := 2) (by rw [abs_le]; constructor <;> linarith) B1 B2
  have w1' := abs_le.mp w1
  have w2' := abs_le.mp w2
  have w3 := abs_err hr (x := ρ (s * s) + ρ (c * c)) (B := 2) (by rw [abs_le]; constructor <;> linarith) B1 B2
  have w3' := abs_le.mp w3
  clear B1 B2 w1 w2 w3 tot
  norm_num at elo
  rw [abs_le]
  constructor <;> linarith

/-- The computed `cosh(x)` and `sinh(x)` satisfy `cosh² = 1 + sinh²` up to 11 parts in ten thousand. -/
theorem C150_cosh_sinh (hr : RoundsToNearest ρ) {x : ℝ} (hx : |x| ≤ 331) :
    ∃ s c, Gives (fun fuel => sinh ρ fuel x) s ∧ Gives (fun fuel => cosh ρ fuel x) c ∧
      |c ^ 2 - (1 + s ^ 2)| ≤ 11 / 10000 * (1 + s ^ 2) := by
  have hu := u_pos
  have hu1 := u_lt
  norm_num at hu1
  obtain ⟨θ, h1, -, hN⟩ := sinh_val hr (x := x) (by linarith)
  have hx0 := abs_nonneg x
  norm_num at h1
  have tb : |θ| ≤ 332 := by have := (abs_le.mp h1).2; linarith
  have cs := cosh_small (abs_nonneg θ) tb
  rw [Real.cosh_abs] at cs
  have hch := Real.cosh_sq θ
  set c := Real.cosh θ with hc
  have c1 : 1 ≤ c := Real.one_le_cosh θ
  set s := Real.sinh θ with hs
  have hT := T_ge
  have t0 := one_T
  norm_num at hT t0
  have cT : c ^ 2 * 2 ≤ T := by rw [T]; exact cs
  clear cs
  have e1 := rb0 hr (p := s * s) (g := 1) (by linarith) (mul_self_nonneg s) (by norm_num; nlinarith)
  have e1' := abs_le.mp e1
  have ss : s * s = c ^ 2 - 1 := by rw [hch]; ring
  rw [ss] at e1 e1'
  have q0 : 0 ≤ ρ (c ^ 2 - 1) := by
    apply hr.ge_of_ge isDouble_zero
    nlinarith
  have e2 := rb hr (y := 1 + ρ (c ^ 2 - 1)) (by norm_num; linarith) (by norm_num; nlinarith)
  generalize hq : ρ (c ^ 2 - 1) = q at *
  have X1 : c ^ 2 * (1 - 3 * u) ≤ ρ (1 + q) := by nlinarith
  have X2 : ρ (1 + q) ≤ c ^ 2 * (1 + 3 * u) := by nlinarith
  generalize hX : ρ (1 + q) = X at *
  have hXl : 1 / 2 ≤ X := by nlinarith
  obtain ⟨r, r1, r2, r3, hN'⟩ := sqrt_within hr (x := X)
    (le_trans (le_trans (one_div_le_one_div_of_le (by norm_num)
      (le_trans (by norm_num : (2 : ℝ) ≤ 2 ^ 1) (pow_le_pow_right₀ (by norm_num) (by norm_num)))) le_rfl) hXl) (by nlinarith)
  refine ⟨s, r, ⟨21, hN⟩, ⟨508, fun fuel hf => ?_⟩, ?_⟩
  · have e := hN fuel (by omega)
    have e' := hN' fuel hf
    simp only [cosh, M.bind_apply, e, square, fmul, fadd, ss, hq, hX]
    exact e'
  · rw [show 1 + s ^ 2 = c ^ 2 by rw [hch]; ring]
    have c2 : 0 < c ^ 2 := by positivity
    clear_value c s
    clear e1 e1' e2 cT hch h1 hN hN' ss hT t0 tb hx hx0 q0 hXl c1
    have y1 : c ^ 2 * (3 * u) ≤ c ^ 2 * (1 / 10 ^ 9) := mul_le_mul_of_nonneg_left (by norm_num; linarith) c2.le
    norm_num at y1
    rw [abs_le] at r3 ⊢
    constructor <;> nlinarith

/-- `atan(x) + atan(1 / x)` is π/2 up to 2/10000, for positive `x` whose reciprocal does not overflow. -/
theorem C150_atan_inv (hr : RoundsToNearest ρ) {x : ℝ} (x1 : 1 / 2 ^ 1023 ≤ x) :
    ∃ a b, Gives (fun fuel => atan ρ fuel x) a ∧ Gives (fun fuel => atan ρ fuel (ρ (1 / x))) b ∧
      |ρ (a + b) - Real.pi / 2| ≤ 2 / 10000 := by
  have hu := u_lt
  have hu0 := u_pos
  norm_num at hu
  have x0 : 0 < x := lt_of_lt_of_le (by positivity) x1
  obtain ⟨a, ha, a1⟩ := C121_atan hr x
  obtain ⟨b, hb, b1⟩ := C121_atan hr (ρ (1 / x))
  refine ⟨a, b, ha, hb, ?_⟩
  have i2 : |1 / x| ≤ 2 ^ 1023 := by
    rw [abs_of_pos (by positivity), one_div]
    rw [one_div] at x1
    exact inv_le_of_inv_le₀ (by positivity) x1
  have w := arctan_round hr i2
  have e : Real.arctan (1 / x) = Real.pi / 2 - Real.arctan x := by
    rw [one_div, Real.arctan_inv_of_pos x0]
  rw [e] at w
  have p1 := Real.pi_gt_three
  have p2 := Real.pi_lt_four
  clear x1 i2
  rw [abs_le] at a1 b1 w
  have s1 : |a + b| ≤ 4 := by rw [abs_le]; constructor <;> linarith
  have r := abs_err hr s1
    (le_trans (by rw [div_le_one (by positivity)]; exact one_le_pow₀ (by norm_num)) (by norm_num : (1 : ℝ) ≤ 4))
    (le_trans (by norm_num : (4 : ℝ) ≤ 2 ^ 2) (pow_le_pow_right₀ (by norm_num) (by norm_num)))
  rw [abs_le] at r ⊢
  constructor <;> linarith

/-! ### Examples -/

/-- Ties-to-even is a rounding to nearest, and 2 is a double within the bounds. -/
example : ∃ ρ : ℝ → ℝ, RoundsToNearest ρ ∧ ∃ l v, Gives (fun fuel => log ρ fuel 2) (LogRes.val l) ∧
    exp ρ l () = .ok v () ∧ |v - 2| ≤ 28 / 10000 := by
  obtain ⟨ρ, h⟩ := exists_roundsTiesEven (K := ℝ)
  have d2 : IsDouble (2 : ℝ) := by simpa using isDouble_int (K := ℝ) (k := 2) (by norm_num)
  obtain ⟨l, v, h1, h2, h3⟩ := C150_exp_log h.toRoundsToNearest d2 (by norm_num) (by
    rw [abs_of_pos (Real.log_pos (by norm_num))]
    linarith [Real.log_two_lt_d9])
  exact ⟨ρ, h.toRoundsToNearest, l, v, h1, h2, h3.trans (by norm_num)⟩

/-- For `x = 1` the sum of the squares is 1 up to 0.0001. -/
example (hr : RoundsToNearest ρ) : ∃ s c, Gives (fun fuel => sin ρ fuel 1) s ∧ Gives (fun fuel => cos ρ fuel 1) c ∧
    |ρ (ρ (s * s) + ρ (c * c)) - 1| ≤ 1 / 10000 := by
  obtain ⟨s, c, h1, h2, h3⟩ := C150_sin_cos hr (x := 1) (by norm_num)
  exact ⟨s, c, h1, h2, h3.trans (by norm_num)⟩

end Cest.Fp.Props
