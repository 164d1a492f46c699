import Verif.Ieee.Exp
import Verif.CxFp.Proofs

/-! `exp` on the whole range where it is neither infinite nor zero, and the arguments it is undefined for. -/
namespace Cest.Ieee
open Cest.Cmath (FM IsDouble RoundsToNearest)
open D Classical
open Cest.Fp (u u_pos u_lt)

variable {ρ : ℝ → ℝ}

/-- Rounding down to a little below the normal numbers. -/
theorem rb_sub (hr : RoundsToNearest ρ) {y : ℝ} (h1 : 1 / 2 ^ 1025 ≤ y) (h2 : y < lim) :
    y * (1 - 16 * u) ≤ ρ y ∧ ρ y ≤ y * (1 + 16 * u) := by
  have hu := u_pos
  have y0 : 0 < y := lt_of_lt_of_le (by positivity) h1
  have key : |ρ y - y| ≤ 16 * u * y := by
    rcases le_total y (2 ^ 1023) with h | h
    · have := CxFp.round_err hr (x := y) (by rwa [abs_of_pos y0])
      rw [abs_of_pos y0] at this
      have e : CxFp.η = 8 * u * (1 / 2 ^ 1025) := by
        unfold CxFp.η u
        rw [show (1075 : ℕ) = 50 + 1025 by norm_num, pow_add]
        generalize (2 : ℝ) ^ 1025 = W
        ring
      have h8 : 8 * u * (1 / 2 ^ 1025) ≤ 8 * u * y := mul_le_mul_of_nonneg_left h1 (by linarith)
      have : 0 < u * y := mul_pos hu y0
      linarith
    · have := rel_err_lim hr (x := y) (by
        rw [abs_of_pos y0]
        refine le_trans ?_ h
        exact (div_le_one_of_le₀ (one_le_pow₀ (by norm_num)) (by positivity)).trans (one_le_pow₀ (by norm_num)))
        (by rwa [abs_of_pos y0])
      rw [abs_of_pos y0] at this
      have : 0 < u * y := mul_pos hu y0
      linarith
  have := abs_le.mp key
  constructor <;> linarith

theorem exp_709 : Real.exp 1 ^ 709 ≤ 2 ^ 1023 * (95 / 100) := by
  rw [← Real.exp_nat_mul, ← Real.le_log_iff_exp_le (mul_pos (pow_pos two_pos _) (by norm_num)),
    Real.log_mul (pow_pos two_pos _).ne' (by norm_num), Real.log_pow]
  have h3 := Real.log_two_gt_d9
  have h4 : 1 - (95 / 100 : ℝ)⁻¹ ≤ Real.log (95 / 100) := Real.one_sub_inv_le_log_of_pos (by norm_num)
  push_cast
  norm_num at h3 h4 ⊢
  linarith

theorem exp_7095 {x : ℝ} (h : x ≤ 7095 / 10) : Real.exp x * (1 + 1 / 1000) < lim := by
  have h1 : Real.exp x ≤ 2 ^ 1024 * (8 / 10) := by
    rw [← Real.le_log_iff_exp_le (mul_pos (pow_pos two_pos _) (by norm_num)), Real.log_mul (pow_pos two_pos _).ne' (by norm_num),
      Real.log_pow]
    have h3 := Real.log_two_gt_d9
    have h4 : 1 - (8 / 10 : ℝ)⁻¹ ≤ Real.log (8 / 10) := Real.one_sub_inv_le_log_of_pos (by norm_num)
    push_cast
    norm_num at h3 h4 ⊢
    linarith
  unfold lim
  have e : (2 : ℝ) ^ 1024 = 2 ^ 54 * 2 ^ 970 := by rw [← pow_add]
  rw [e] at h1 ⊢
  clear e
  have p : (0 : ℝ) < 2 ^ 970 := by positivity
  generalize (2 : ℝ) ^ 970 = W at *
  norm_num at h1 ⊢
  linarith

theorem powE_value (hr : RoundsToNearest ρ) : ∀ k : ℕ, k ≤ 709 → ∃ w, Is (powNN ρ (mE ρ) k) w ∧
    Real.exp 1 ^ k * (1 - 3 / 10 ^ 15) ^ k ≤ w ∧ w ≤ Real.exp 1 ^ k * (1 + 3 / 10 ^ 15) ^ k
  | 0, _ => ⟨1, is_fin 1, by simp, by simp⟩
  | 1, _ => by
    obtain ⟨h1, h2⟩ := Fp.mE_fp hr
    have he := Real.exp_pos 1
    refine ⟨_, is_fin _, ?_, ?_⟩
    · rw [pow_one, pow_one]; norm_num at h1 ⊢; linarith
    · rw [pow_one, pow_one]; norm_num at h2 ⊢; linarith
  | k + 2, hk => by
    have hu := u_pos
    have hu1 := u_lt
    have he := Real.exp_one_gt_d9
    norm_num at hu1 he
    obtain ⟨w, hw, w1, w2⟩ := powE_value hr (k + 1) (by omega)
    obtain ⟨h1, h2⟩ := Fp.mE_fp hr
    obtain ⟨b1, b2⟩ := mE_bounds hr
    obtain ⟨p1, -⟩ := Fp.pow_u_bounds (n := k + 1) (by omega) (a := 3 / 10 ^ 15) (by norm_num) (by norm_num)
    obtain ⟨-, p2⟩ := Fp.pow_u_bounds (n := k + 2) (by omega) (a := 3 / 10 ^ 15) (by norm_num) (by norm_num)
    have hk1 : ((k + 1 : ℕ) : ℝ) ≤ 709 := by exact_mod_cast (by omega : k + 1 ≤ 709)
    have hk2 : ((k + 2 : ℕ) : ℝ) ≤ 709 := by exact_mod_cast hk
    have e1 : 1 ≤ Real.exp 1 ^ (k + 1) := one_le_pow₀ (by linarith)
    have q1 : (99 / 100 : ℝ) ≤ (1 - 3 / 10 ^ 15) ^ (k + 1) := by push_cast at hk1; norm_num at p1 ⊢; linarith
    have q2 : (1 + 3 / 10 ^ 15 : ℝ) ^ (k + 2) ≤ 101 / 100 := by push_cast at hk2; norm_num at p2 ⊢; linarith
    have w0 : 99 / 100 ≤ w := by
      refine le_trans ?_ w1
      calc (99 / 100 : ℝ) = 1 * (99 / 100) := by norm_num
        _ ≤ _ := mul_le_mul e1 q1 (by norm_num) (by linarith)
    have l1 : Real.exp 1 ^ (k + 2) * (1 - 3 / 10 ^ 15) ^ (k + 1) * (1 - 2 / 10 ^ 15) ≤ Cmath.mE ρ * w := by
      have := mul_le_mul h1 w1 (by positivity) (by linarith)
      refine le_trans (le_of_eq ?_) this
      rw [pow_succ (Real.exp 1) (k + 1)]; ring
    have l2 : Cmath.mE ρ * w ≤ Real.exp 1 ^ (k + 2) * (1 + 3 / 10 ^ 15) ^ (k + 1) * (1 + 2 / 10 ^ 15) := by
      have := mul_le_mul h2 w2 (by linarith) (by positivity)
      refine this.trans (le_of_eq ?_)
      rw [pow_succ (Real.exp 1) (k + 1)]; ring
    have X0 : 0 < Real.exp 1 ^ (k + 2) := by positivity
    have A0 : 0 < (1 - 3 / 10 ^ 15 : ℝ) ^ (k + 1) := by linarith
    have B0 : 0 < (1 + 3 / 10 ^ 15 : ℝ) ^ (k + 1) := by positivity
    have top : Cmath.mE ρ * w ≤ 2 ^ 1023 := by
      have t1 : Real.exp 1 ^ (k + 2) ≤ 2 ^ 1023 * (95 / 100) :=
        (pow_le_pow_right₀ (by linarith) hk).trans exp_709
      have t2 : (1 + 3 / 10 ^ 15 : ℝ) ^ (k + 1) * (1 + 2 / 10 ^ 15) ≤ 101 / 100 := by
        refine le_trans ?_ q2
        rw [pow_succ (1 + 3 / 10 ^ 15 : ℝ) (k + 1)]
        exact mul_le_mul_of_nonneg_left (by norm_num) B0.le
      refine l2.trans ?_
      rw [mul_assoc]
      refine (mul_le_mul t1 t2 (by positivity) (by positivity)).trans ?_
      rw [mul_assoc]
      exact mul_le_of_le_one_right (by positivity) (by norm_num)
    have bot : 1 ≤ Cmath.mE ρ * w := by nlinarith
    obtain ⟨r1, r2⟩ := rb_lim hr (y := Cmath.mE ρ * w) (by linarith) (lt_lim top)
    refine ⟨ρ (Cmath.mE ρ * w), (is_fin _).mul hw (by rw [abs_of_pos (by linarith)]; exact lt_lim top), ?_, ?_⟩
    · refine le_trans ?_ r1
      have := mul_le_mul_of_nonneg_right l1 (show 0 ≤ 1 - u by linarith)
      refine le_trans ?_ this
      rw [pow_succ (1 - 3 / 10 ^ 15 : ℝ) (k + 1), ← mul_assoc, mul_assoc _ (1 - 2 / 10 ^ 15 : ℝ)]
      refine mul_le_mul_of_nonneg_left ?_ (mul_pos X0 A0).le
      norm_num
      nlinarith
    · refine r2.trans ?_
      have := mul_le_mul_of_nonneg_right l2 (show 0 ≤ 1 + u by linarith)
      refine le_trans this ?_
      rw [pow_succ (1 + 3 / 10 ^ 15 : ℝ) (k + 1), ← mul_assoc, mul_assoc _ (1 + 2 / 10 ^ 15 : ℝ)]
      refine mul_le_mul_of_nonneg_left ?_ (mul_pos X0 B0).le
      norm_num
      nlinarith

theorem powE_rel (hr : RoundsToNearest ρ) {k : ℕ} (hk : k ≤ 709) : ∃ w, Is (powNN ρ (mE ρ) k) w ∧
    |w / Real.exp 1 ^ k - 1| ≤ 5 / 10 ^ 12 := by
  obtain ⟨w, hw, w1, w2⟩ := powE_value hr k hk
  refine ⟨w, hw, ?_⟩
  obtain ⟨p1, p2⟩ := Fp.pow_u_bounds (n := k) (by omega) (a := 3 / 10 ^ 15) (by norm_num) (by norm_num)
  have hk' : (k : ℝ) ≤ 709 := by exact_mod_cast hk
  have X0 : 0 < Real.exp 1 ^ k := by positivity
  rw [abs_le]
  constructor
  · rw [le_sub_iff_add_le, le_div_iff₀ X0]
    refine le_trans ?_ w1
    rw [mul_comm]
    refine mul_le_mul_of_nonneg_left ?_ X0.le
    norm_num at p1 ⊢; linarith
  · rw [sub_le_iff_le_add, div_le_iff₀ X0]
    refine w2.trans ?_
    rw [mul_comm]
    refine mul_le_mul_of_nonneg_right ?_ X0.le
    norm_num at p2 ⊢; linarith

theorem pow_full (hr : RoundsToNearest ρ) {n : ℤ} (hn : |n| ≤ 709) :
    ∃ P p, pow ρ (mE ρ) n () = .ok P () ∧ Is P p ∧ |p / Real.exp n - 1| ≤ 1 / 10 ^ 11 := by
  have hu := u_pos
  have hu1 := u_lt
  norm_num at hu1
  have he1 := Real.exp_one_gt_d9
  norm_num at he1
  have hexp : ∀ k : ℕ, Real.exp (k : ℝ) = Real.exp 1 ^ k := fun k => by rw [← Real.exp_nat_mul, mul_one]
  rw [abs_le] at hn
  rcases lt_or_ge n 0 with hneg | hpos
  · obtain ⟨k, hk⟩ : ∃ k : ℕ, n = -(k : ℤ) := ⟨(-n).toNat, by omega⟩
    subst hk
    obtain ⟨w, hw, hq⟩ := powE_rel hr (k := k) (by omega)
    have X0 : 0 < Real.exp 1 ^ k := by positivity
    have X1 : 1 ≤ Real.exp 1 ^ k := one_le_pow₀ (by linarith)
    have X2 : Real.exp 1 ^ k ≤ 2 ^ 1023 * (95 / 100) := (pow_le_pow_right₀ (by linarith) (by omega)).trans exp_709
    have hwe : w = Real.exp 1 ^ k * (w / Real.exp 1 ^ k) := by field_simp
    set q := w / Real.exp 1 ^ k with hqd
    norm_num at hq
    have q' := abs_le.mp hq
    have w0 : 0 < w := by rw [hwe]; exact mul_pos X0 (by linarith)
    have wb : 1 / 2 ^ 1023 ≤ 1 / w := by
      refine one_div_le_one_div_of_le w0 ?_
      rw [hwe]
      refine (mul_le_mul X2 (show q ≤ 101 / 100 by linarith) (by linarith) (by positivity)).trans ?_
      rw [mul_assoc]
      exact mul_le_of_le_one_right (by positivity) (by norm_num)
    have w2 : 1 / w ≤ 2 := by rw [div_le_iff₀ w0, hwe]; nlinarith
    have wl : 1 / w < lim := lt_lim (w2.trans (le_trans (by norm_num : (2 : ℝ) ≤ 2 ^ 1) (pow_le_pow_right₀ (by norm_num) (by norm_num))))
    obtain ⟨r1, r2⟩ := rb_sub hr (y := 1 / w) (le_trans (one_div_le_one_div_of_le (by positivity)
      (pow_le_pow_right₀ (by norm_num) (by norm_num))) wb) wl
    refine ⟨_, _, ?_, (is_fin 1).div (ρ := ρ) hw w0.ne' (by rw [abs_of_pos (by positivity)]; exact wl), ?_⟩
    · rw [pow, if_pos hneg, M.bind_of_ok (int_ok (by rw [neg_neg, abs_of_nonneg (by omega)]; omega)), neg_neg, Int.toNat_natCast]
      rfl
    · have e1 : Real.exp ((-(k : ℤ) : ℤ) : ℝ) = (Real.exp 1 ^ k)⁻¹ := by
        push_cast; rw [Real.exp_neg, hexp]
      rw [e1, div_inv_eq_mul]
      have e2 : 1 / w * Real.exp 1 ^ k = 1 / q := by rw [hqd]; field_simp
      have b1' := mul_le_mul_of_nonneg_right r1 X0.le
      have b2' := mul_le_mul_of_nonneg_right r2 X0.le
      rw [mul_right_comm, e2] at b1' b2'
      have q0 : 0 < q := by linarith
      have q1 : 1 / q ≤ 1 + 6 / 10 ^ 12 := by
        rw [div_le_iff₀ q0]; norm_num; nlinarith
      have q2 : 1 - 6 / 10 ^ 12 ≤ 1 / q := by
        rw [le_div_iff₀ q0]; norm_num; nlinarith
      generalize 1 / q = iq at *
      generalize ρ (1 / w) * Real.exp 1 ^ k = Z at *
      norm_num at q1 q2
      have iu : iq * u ≤ 2 * u := mul_le_mul_of_nonneg_right (by linarith) hu.le
      rw [abs_le]
      norm_num
      constructor <;> linarith
  · obtain ⟨k, hk⟩ : ∃ k : ℕ, n = (k : ℤ) := ⟨n.toNat, by omega⟩
    subst hk
    obtain ⟨w, hw, hq⟩ := powE_rel hr (k := k) (by omega)
    refine ⟨_, w, pow_ok _ hpos, by rwa [Int.toNat_natCast], ?_⟩
    rw [Int.cast_natCast, hexp]
    exact hq.trans (by norm_num)

/-- `exp` between the argument from which it is zero and the one up to which it is finite. -/
theorem exp_value (hr : RoundsToNearest ρ) {A : D} {x : ℝ} (hA : Is A x) (h1 : -710 < x) (h2 : x ≤ 7095 / 10) :
    ∃ V v, Is V v ∧ exp ρ A () = .ok V () ∧ |v - Real.exp x| ≤ 1 / 10000 * Real.exp x := by
  have hu := u_pos
  have hu1 := u_lt
  norm_num at hu1
  obtain ⟨n', r', q1, q2, q3, d2, d3⟩ := Fp.reduce_fp hr (x := x) (by rw [abs_le]; constructor <;> linarith)
  obtain ⟨n, r, R, g1, g2, g3, g4, g5, hn, -, -, up, down⟩ := reduce_all hr hA (by linarith) (by linarith)
  rw [q1] at g4
  rw [q2] at g5
  have hnn : n' = n := by
    have : (n' : ℝ) = n := by injection g4
    exact_mod_cast this
  have hrr : r' = r := by injection g5
  subst hnn hrr
  obtain ⟨P, p, f1, f2, f3⟩ := pow_full hr (n := n') (abs_le.mpr ⟨down h1, up h2⟩)
  obtain ⟨H, h, k1, k2, k3, k4⟩ := expHelper_pos hr g3
  obtain ⟨h', gh, hh⟩ := Fp.expHelper_fp hr d2
  rw [k2] at gh
  cases gh
  have hen : 0 < Real.exp n' := Real.exp_pos _
  have hb := Real.exp_bound d2 (n := 8) (by norm_num)
  have hr8 : |r'| ^ 8 ≤ 1 := pow_le_one₀ (abs_nonneg _) d2
  have hb' : |Real.exp r' - ∑ k ∈ Finset.range 8, r' ^ k / (Nat.factorial k : ℝ)| ≤ 28 / 1000000 := by
    refine hb.trans ?_
    have : ((Nat.succ 8 : ℕ) : ℝ) / ((Nat.factorial 8 : ℕ) * (8 : ℕ)) ≤ 28 / 1000000 := by
      norm_num [Nat.factorial]
    calc |r'| ^ 8 * (((Nat.succ 8 : ℕ) : ℝ) / ((Nat.factorial 8 : ℕ) * (8 : ℕ)))
        ≤ 1 * (28 / 1000000) := mul_le_mul hr8 this (by positivity) (by norm_num)
      _ = 28 / 1000000 := one_mul _
  generalize ∑ k ∈ Finset.range 8, r' ^ k / (Nat.factorial k : ℝ) = Q at hh hb'
  have er1 : 36 / 100 ≤ Real.exp r' := by
    have h1 : Real.exp (-1) ≤ Real.exp r' := Real.exp_le_exp.mpr (abs_le.mp d2).1
    have h2 : Real.exp (-1) = (Real.exp 1)⁻¹ := Real.exp_neg 1
    have h3 := Real.exp_one_lt_d9
    have h4 : (36 : ℝ) / 100 ≤ (Real.exp 1)⁻¹ := by
      rw [le_inv_comm₀ (by norm_num) (Real.exp_pos 1)]
      norm_num at h3 ⊢; linarith
    linarith
  have hsplit : Real.exp x = Real.exp n' * (Real.exp r' * Real.exp ((x - n') - r')) := by
    rw [← Real.exp_add, ← Real.exp_add]; congr 1; ring
  have ed : |Real.exp ((x - n') - r') - 1| ≤ 2 * u := by
    have hs : |(x - n') - r'| ≤ u := by rw [abs_sub_comm]; exact d3
    have h1 := Real.abs_exp_sub_one_le (x := (x - n') - r') (by linarith)
    linarith
  set δ := Real.exp ((x - n') - r')
  have hpe : p = Real.exp n' * (p / Real.exp n') := by field_simp
  set ξ := p / Real.exp n'
  generalize Real.exp r' = E at *
  have a1 := abs_le.mp f3
  have a2 := abs_le.mp hh
  have a3 := abs_le.mp hb'
  have a4 := abs_le.mp ed
  norm_num at a1
  have hph : p * h = Real.exp n' * (ξ * h) := by rw [mul_comm ξ h, ← mul_assoc, mul_right_comm, ← hpe]
  have h0 : 35 / 100 ≤ h := by linarith
  have hm1 : 34 / 100 ≤ ξ * h := by nlinarith
  have c1 : E * (1 - 8 / 100000) ≤ h := by nlinarith
  have c2 : h ≤ E * (1 + 8 / 100000) := by nlinarith
  have p0 : 0 < p := by rw [hpe]; exact mul_pos hen (by linarith)
  have top : p * h < lim := by
    refine lt_of_le_of_lt ?_ (exp_7095 h2)
    rw [hph, hsplit, mul_assoc]
    refine mul_le_mul_of_nonneg_left ?_ hen.le
    have s1 : ξ * h ≤ (1 + 1 / 100000000000) * (E * (1 + 8 / 100000)) := mul_le_mul (by linarith) c2 k4.le (by norm_num)
    have s2 : E * (1 - 1 / 100000) ≤ E * δ := mul_le_mul_of_nonneg_left (by linarith) (by linarith)
    linarith
  have bot : 1 / 2 ^ 1025 ≤ p * h := by
    have t1 : (1 : ℝ) / (2 ^ 1023 * (95 / 100)) ≤ Real.exp n' := by
      have h1 : Real.exp (((-709 : ℤ)) : ℝ) ≤ Real.exp n' := Real.exp_le_exp.mpr (by exact_mod_cast down h1)
      refine le_trans ?_ h1
      have h2 : Real.exp (((-709 : ℤ)) : ℝ) = (Real.exp 1 ^ 709)⁻¹ := by
        rw [← Real.exp_nat_mul, ← Real.exp_neg]; congr 1; push_cast; ring
      rw [h2, ← one_div]
      exact one_div_le_one_div_of_le (by positivity) exp_709
    rw [hph]
    refine le_trans ?_ (mul_le_mul t1 hm1 (by norm_num) hen.le)
    rw [show (1025 : ℕ) = 1023 + 2 by norm_num, pow_add]
    have : (0 : ℝ) < 1 / 2 ^ 1023 := by positivity
    rw [← one_div_mul_one_div, ← one_div_mul_one_div, mul_assoc]
    exact mul_le_mul_of_nonneg_left (by norm_num) this.le
  obtain ⟨b1, b2⟩ := rb_sub hr bot top
  refine ⟨_, _, f2.mul (ρ := ρ) k3.1 (by rw [abs_of_pos (mul_pos p0 k4)]; exact top), ?_, ?_⟩
  · rw [exp, M.bind_of_ok g1, M.bind_of_ok (toInt_ofInt hn), M.bind_of_ok f1, M.bind_of_ok g2, M.bind_of_ok k1]
    rfl
  · rw [hph] at b1 b2 ⊢
    rw [hsplit]
    exact Fp.exp_arith (w := 16 * u) (by linarith) (by linarith) hen.le (by linarith) a1.1 a1.2 h0 c1 c2
      (by linarith) (by linarith) b1 b2

/-- The arguments `exp` is undefined for: the ones that do not fit in an `int` after rounding, and the smallest
`int`, which has no negative. -/
theorem exp_undef (hr : RoundsToNearest ρ) {A : D} {x : ℝ} (hA : Is A x) (hv : Valid A)
    (h : x ≤ -2147483648 ∨ 2147483647 + 1 / 2 < x) : exp ρ A () = .ub .precond := by
  have hl := lim_big
  norm_num at hl
  rcases toInt_or x with ⟨i, hi⟩ | hu
  rotate_left
  · rw [exp, M.bind_apply, nearest, M.bind_apply, hA.toInt, hu]
  obtain ⟨hb, rfl⟩ := toInt_range hi
  rw [abs_le] at hb
  have hin : Cmath.intMin ≤ Cmath.trunc x ∧ Cmath.trunc x ≤ Cmath.intMax := by
    unfold Cmath.toInt at hi
    split at hi
    · assumption
    · cases hi
  simp only [Cmath.intMin, Cmath.intMax] at hin
  have hsub : Is (sub ρ A (fin (1 / 2))) (ρ (x - 1 / 2)) := hA.sub hr (is_fin _) (by rw [abs_lt]; constructor <;> linarith)
  have hadd : Is (add ρ A (fin (1 / 2))) (ρ (x + 1 / 2)) := hA.add hr (is_fin _) (by rw [abs_lt]; constructor <;> linarith)
  have hlt : lt (ofInt (Cmath.trunc x)) (sub ρ A (fin (1 / 2))) ↔ (Cmath.trunc x : ℝ) < ρ (x - 1 / 2) :=
    (is_fin _).lt hsub
  rcases h with h | h
  · have e : Cmath.trunc x = -2147483648 := by
      have : Cmath.trunc x ≤ -2147483648 := by
        rw [Cmath.trunc_of_nonpos (by linarith)]
        exact Int.ceil_le.mpr (by push_cast; exact h)
      omega
    have hd : IsDouble ((-2147483648 : ℤ) : ℝ) := Cmath.isDouble_int (by norm_num)
    have hn : ¬ (Cmath.trunc x : ℝ) < ρ (x - 1 / 2) := by
      rw [e, not_lt]
      exact hr.le_of_le hd (by push_cast; linarith)
    have hne : nearest ρ A () = .ok (ofInt (-2147483648)) () := by
      rw [nearest, hA.toInt, M.bind_of_ok hi, if_neg (fun hc => hn (hlt.mp hc)), M.bind_of_ok hi, e]; rfl
    have ht : toInt (ofInt (-2147483648)) () = .ok (-2147483648) () := by
      have ht : Cmath.trunc (((-2147483648 : ℤ)) : ℝ) = -2147483648 := Cmath.trunc_int _
      show Cmath.toInt (((-2147483648 : ℤ)) : ℝ) () = _
      rw [Cmath.toInt_ok (by rw [ht]; simp only [Cmath.intMin]; omega) (by rw [ht]; simp only [Cmath.intMax]; omega), ht]
    rw [exp, M.bind_of_ok hne, M.bind_of_ok ht, M.bind_apply, pow, if_pos (by norm_num), M.bind_apply]
    have : Cmath.int (-(-2147483648)) () = .ub .precond := by
      rw [Cmath.int, if_neg (by simp only [Cmath.intMin, Cmath.intMax]; omega)]; rfl
    rw [this]
  · have e : Cmath.trunc x = 2147483647 := by
      have : 2147483647 ≤ Cmath.trunc x := by
        rw [Cmath.trunc_of_nonneg (by linarith)]
        exact Int.le_floor.mpr (by push_cast; linarith)
      omega
    have hx2 : x < 2147483648 := by
      rw [Cmath.trunc_of_nonneg (by linarith), Int.floor_eq_iff] at e
      push_cast at e
      linarith [e.2]
    obtain ⟨k, hk⟩ := Fp.grid (hA.double hv) (k := 30) (by rw [abs_of_pos (by linarith)]; norm_num; linarith)
    have ek : (2 : ℝ) ^ (30 - 52 : ℤ) = 1 / 2 ^ 22 := by rw [show (30 - 52 : ℤ) = -22 by norm_num, zpow_neg]; norm_num
    have d3 : IsDouble (x - 1 / 2) := by
      refine ⟨k - 2 ^ 21, -22, ?_, ?_, by norm_num, by norm_num⟩
      · rw [hk, ek, zpow_neg]; push_cast; norm_num; ring
      · rw [ek] at hk
        have k1 : ((2147483647 * 2 ^ 22 : ℤ) : ℝ) < k := by push_cast; norm_num at hk ⊢; linarith
        have k2 : (k : ℝ) < ((2147483648 * 2 ^ 22 : ℤ) : ℝ) := by push_cast; norm_num at hk ⊢; linarith
        have k1' : (2147483647 * 2 ^ 22 : ℤ) < k := by exact_mod_cast k1
        have k2' : k < (2147483648 * 2 ^ 22 : ℤ) := by exact_mod_cast k2
        norm_num at k1' k2' ⊢
        rw [abs_lt]; constructor <;> omega
    have hp : (Cmath.trunc x : ℝ) < ρ (x - 1 / 2) := by
      rw [hr.exact d3, e]; push_cast; linarith
    have hd : IsDouble ((2147483648 : ℤ) : ℝ) := Cmath.isDouble_int (by norm_num)
    have hge := hr.ge_of_ge hd (x := x + 1 / 2) (by push_cast; linarith)
    push_cast at hge
    have hub : Cmath.toInt (ρ (x + 1 / 2)) () = .ub .precond := by
      unfold Cmath.toInt
      rw [if_neg]
      · rfl
      rintro ⟨-, h2⟩
      rw [Cmath.trunc_of_nonneg (by linarith)] at h2
      have : (2147483648 : ℤ) ≤ ⌊ρ (x + 1 / 2)⌋ := Int.le_floor.mpr (by push_cast; exact hge)
      simp only [Cmath.intMax] at h2
      omega
    rw [exp, M.bind_apply, nearest, hA.toInt, M.bind_of_ok hi, if_pos (hlt.mpr hp), hadd.toInt, M.bind_apply, hub]

/-- It is defined for all others. -/
theorem exp_defined (hr : RoundsToNearest ρ) {A : D} {x : ℝ} (hA : Is A x) (hv : Valid A) (h1 : -2147483648 < x)
    (h2 : x ≤ 2147483647 + 1 / 2) : ∃ V, exp ρ A () = .ok V () := by
  rcases le_or_gt x (-710) with h | h
  · exact ⟨_, exp_underflow hr hA h h1⟩
  · rcases le_or_gt x (7095 / 10) with h' | h'
    · obtain ⟨V, v, -, g, -⟩ := exp_value hr hA h h'
      exact ⟨V, g⟩
    · exact ⟨_, exp_overflow hr hA hv h' h2⟩

theorem exp_m710 (hr : RoundsToNearest ρ) :
    |ρ (Real.exp (-710)) - Real.exp (-710)| ≤ 1 / 10 ^ 14 * Real.exp (-710) := by
  have hu1 := u_lt
  norm_num at hu1
  have h1 : 1 / 2 ^ 1025 ≤ Real.exp (-710) := by
    rw [Real.exp_neg, ← one_div]
    refine one_div_le_one_div_of_le (Real.exp_pos _) ?_
    rw [← Real.le_log_iff_exp_le (pow_pos two_pos _), Real.log_pow]
    have h3 := Real.log_two_gt_d9
    push_cast
    norm_num at h3 ⊢
    linarith
  have h2 : Real.exp (-710) ≤ 1 := by rw [Real.exp_le_one_iff]; norm_num
  obtain ⟨a, b⟩ := rb_sub hr h1 (lt_of_le_of_lt h2 (lt_trans (by norm_num) lim_big))
  have e0 := Real.exp_pos (-710)
  have : Real.exp (-710) * (16 * u) ≤ Real.exp (-710) * (1 / 10 ^ 14) :=
    mul_le_mul_of_nonneg_left (by norm_num; linarith) e0.le
  rw [abs_le]
  constructor <;> linarith

end Cest.Ieee
