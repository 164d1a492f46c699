import Verif.Fp.Decimal
import Verif.Fp.Trig
import Verif.Cmath.ExpLog

/-! `log` in binary64 arithmetic. -/
namespace Cest.Fp
open Cest Cest.Cmath

variable {ρ : ℝ → ℝ}

theorem pow_nonneg_ok (b : ℝ) {n : ℤ} (h : 0 ≤ n) : pow ρ b n () = .ok (powNN ρ b n.toNat) () := by
  simp [pow, not_lt.mpr h]

/-- Powers of a number in `[-1, 1]`: absolute error. -/
theorem powNN_err (hr : RoundsToNearest ρ) {y : ℝ} (hy : |y| ≤ 1) : ∀ k : ℕ, k ≤ 1000 →
    |powNN ρ y k - y ^ k| ≤ k * (2 * u)
  | 0, _ => by simp [powNN]
  | 1, _ => by simp [powNN, u_pos.le]
  | k + 2, hk => by
    have ih := powNN_err hr hy (k + 1) (by omega)
    have hu := u_pos
    have hu1 := u_lt
    norm_num at hu1
    simp only [powNN, fmul]
    set p := powNN ρ y (k + 1)
    have hk' : ((k + 1 : ℕ) : ℝ) ≤ 1000 := by exact_mod_cast (by omega : k + 1 ≤ 1000)
    have hp1 : |y ^ (k + 1)| ≤ 1 := by rw [abs_pow]; exact pow_le_one₀ (abs_nonneg y) hy
    have hp : |p| ≤ 2 := by
      have h1 := abs_sub_abs_le_abs_sub p (y ^ (k + 1))
      have h2 : ((k + 1 : ℕ) : ℝ) * (2 * u) ≤ 1 := by nlinarith
      linarith
    have h3 : |y * p| ≤ 2 := by
      rw [abs_mul]
      have := mul_le_mul hy hp (abs_nonneg p) (by norm_num)
      linarith
    have h4 := err hr h3 (by norm_num) (by norm_num)
    have h5 : |y * p - y ^ (k + 2)| ≤ ((k + 1 : ℕ) : ℝ) * (2 * u) := by
      rw [show y * p - y ^ (k + 2) = y * (p - y ^ (k + 1)) by ring, abs_mul]
      have := mul_le_mul hy ih (abs_nonneg _) (by norm_num)
      linarith
    have h6 := abs_sub_le (ρ (y * p)) (y * p) (y ^ (k + 2))
    push_cast at *
    linarith

/-- A term `pow(y, k) / c` of one of the polynomials. -/
theorem term_err (hr : RoundsToNearest ρ) {y : ℝ} (hy : |y| ≤ 1) {k : ℤ} (h0 : 0 ≤ k) (hk : k ≤ 20) {c : ℝ}
    (hc : 1 ≤ c) : ∃ t, (pow ρ y k >>= fun p => fdiv ρ p c) () = .ok t () ∧ |t - y ^ k.toNat / c| ≤ 50 * u := by
  have hu := u_pos
  have hu1 := u_lt
  norm_num at hu1
  have hp := powNN_err hr hy k.toNat (by omega)
  refine ⟨ρ (powNN ρ y k.toNat / c), ?_, ?_⟩
  · exact (M.bind_of_ok (pow_nonneg_ok y h0)).trans (fdiv_ok (by linarith))
  have hk' : ((k.toNat : ℕ) : ℝ) ≤ 20 := by exact_mod_cast (by omega : k.toNat ≤ 20)
  have e1 : |powNN ρ y k.toNat - y ^ k.toNat| ≤ 40 * u := by nlinarith
  have hy1 : |y ^ k.toNat| ≤ 1 := by rw [abs_pow]; exact pow_le_one₀ (abs_nonneg y) hy
  have hp1 := abs_sub_abs_le_abs_sub (powNN ρ y k.toNat) (y ^ k.toNat)
  have e2 := err hr (x := powNN ρ y k.toNat / c) (B := 2) (by
    rw [abs_div, abs_of_pos (by linarith : 0 < c), div_le_iff₀ (by linarith)]
    linarith) (by norm_num) (by norm_num)
  have e3 : |powNN ρ y k.toNat / c - y ^ k.toNat / c| ≤ 40 * u := by
    rw [← sub_div, abs_div, abs_of_pos (by linarith : 0 < c), div_le_iff₀ (by linarith)]
    nlinarith
  have := abs_sub_le (ρ (powNN ρ y k.toNat / c)) (powNN ρ y k.toNat / c) (y ^ k.toNat / c)
  linarith

/-- Accumulating a term. -/
theorem add_err (hr : RoundsToNearest ρ) {s S t X E : ℝ} (hs : |s - S| ≤ E) (ht : |t - X| ≤ 50 * u)
    (hS : |S + X| ≤ 9) (hE : E ≤ 1 / 2) : |fadd ρ s t - (S + X)| ≤ E + 60 * u := by
  have hu := u_pos
  have hu1 := u_lt
  norm_num at hu1
  have h1 : |s + t - (S + X)| ≤ E + 50 * u := by
    rw [abs_le] at *
    constructor <;> linarith
  have h2 := abs_sub_abs_le_abs_sub (s + t) (S + X)
  have h3 := err hr (x := s + t) (B := 10) (by linarith) (by norm_num) (by norm_num)
  have := abs_sub_le (fadd ρ s t) (s + t) (S + X)
  simp only [fadd] at *
  linarith

theorem bind2 {A B C : Type} {m : FM A} {f : A → FM B} {t : B} (h : (m >>= f) () = .ok t ()) (g : B → FM C) :
    (m >>= fun p => f p >>= g) () = g t () := by
  simp only [M.bind_apply] at h ⊢
  cases hm : m () with
  | ok a s => simp only [hm] at h ⊢; cases s; rw [h]
  | throw s => simp [hm] at h
  | ub k => simp [hm] at h
  | timeout => simp [hm] at h

theorem pow_abs_le {y : ℝ} (hy : |y| ≤ 1) (k : ℕ) {c : ℝ} (hc : 1 ≤ c) : |y ^ k / c| ≤ 1 / c := by
  rw [abs_div, abs_of_pos (by linarith : 0 < c), abs_pow]
  exact div_le_div_of_nonneg_right (pow_le_one₀ (abs_nonneg y) hy) (by linarith)

theorem logHelper2_fp (hr : RoundsToNearest ρ) {y : ℝ} (hy : |y| ≤ 1) :
    ∃ v, logHelper2 ρ y () = .ok v () ∧
      |v - ∑ k ∈ Finset.range 6, 2 * (1 / (2 * (k : ℝ) + 1)) * y ^ (2 * k + 1)| ≤ 1000 * u := by
  have hu := u_pos
  have hu1 := u_lt
  norm_num at hu1
  obtain ⟨t3, g3, h3⟩ := term_err hr hy (k := 3) (by norm_num) (by norm_num) (c := 3) (by norm_num)
  obtain ⟨t5, g5, h5⟩ := term_err hr hy (k := 5) (by norm_num) (by norm_num) (c := 5) (by norm_num)
  obtain ⟨t7, g7, h7⟩ := term_err hr hy (k := 7) (by norm_num) (by norm_num) (c := 7) (by norm_num)
  obtain ⟨t9, g9, h9⟩ := term_err hr hy (k := 9) (by norm_num) (by norm_num) (c := 9) (by norm_num)
  obtain ⟨t11, g11, h11⟩ := term_err hr hy (k := 11) (by norm_num) (by norm_num) (c := 11) (by norm_num)
  have b3 := pow_abs_le hy 3 (c := 3) (by norm_num)
  have b5 := pow_abs_le hy 5 (c := 5) (by norm_num)
  have b7 := pow_abs_le hy 7 (c := 7) (by norm_num)
  have b9 := pow_abs_le hy 9 (c := 9) (by norm_num)
  have b11 := pow_abs_le hy 11 (c := 11) (by norm_num)
  simp only [Int.reduceToNat] at h3 h5 h7 h9 h11
  have y' := abs_le.mp hy
  have b3' := abs_le.mp b3
  have b5' := abs_le.mp b5
  have b7' := abs_le.mp b7
  have b9' := abs_le.mp b9
  have b11' := abs_le.mp b11
  have s3 := add_err hr (s := y) (S := y) (E := 0) (by simp) h3 (by rw [abs_le]; constructor <;> linarith) (by norm_num)
  have s5 := add_err hr s3 h5 (by rw [abs_le]; constructor <;> linarith) (by linarith)
  have s7 := add_err hr s5 h7 (by rw [abs_le]; constructor <;> linarith) (by linarith)
  have s9 := add_err hr s7 h9 (by rw [abs_le]; constructor <;> linarith) (by linarith)
  have s11 := add_err hr s9 h11 (by rw [abs_le]; constructor <;> linarith) (by linarith)
  set a := fadd ρ (fadd ρ (fadd ρ (fadd ρ (fadd ρ y t3) t5) t7) t9) t11 with ha
  have hS : |y + y ^ 3 / 3 + y ^ 5 / 5 + y ^ 7 / 7 + y ^ 9 / 9 + y ^ 11 / 11| ≤ 4 := by
    rw [abs_le]; constructor <;> linarith
  have h1 := abs_sub_abs_le_abs_sub a (y + y ^ 3 / 3 + y ^ 5 / 5 + y ^ 7 / 7 + y ^ 9 / 9 + y ^ 11 / 11)
  have e := err hr (x := 2 * a) (B := 10) (by rw [abs_mul, abs_of_pos (by norm_num : (0 : ℝ) < 2)]; linarith)
    (by norm_num) (by norm_num)
  refine ⟨ρ (2 * a), ?_, ?_⟩
  · rw [logHelper2]
    refine (bind2 g3 _).trans ?_
    refine (bind2 g5 _).trans ?_
    refine (bind2 g7 _).trans ?_
    refine (bind2 g9 _).trans ?_
    exact (bind2 g11 _).trans rfl
  · have e0 : ∑ k ∈ Finset.range 6, 2 * (1 / (2 * (k : ℝ) + 1)) * y ^ (2 * k + 1) =
        2 * (y + y ^ 3 / 3 + y ^ 5 / 5 + y ^ 7 / 7 + y ^ 9 / 9 + y ^ 11 / 11) := by
      simp [Finset.sum_range_succ]; norm_num; ring
    rw [e0]
    generalize y + y ^ 3 / 3 + y ^ 5 / 5 + y ^ 7 / 7 + y ^ 9 / 9 + y ^ 11 / 11 = S at *
    rw [abs_le] at s11 e ⊢
    constructor <;> linarith

theorem log_shift {a b : ℝ} (ha : 0 < a) (hb : 0 < b) : Real.log a - Real.log b ≤ (a - b) / b := by
  rw [← Real.log_div ha.ne' hb.ne']
  refine (Real.log_le_sub_one_of_pos (by positivity)).trans (le_of_eq ?_)
  field_simp

theorem log_shift_abs {a b : ℝ} (ha : 2 / 5 ≤ a) (hb : 2 / 5 ≤ b) : |Real.log a - Real.log b| ≤ 3 * |a - b| := by
  have h1 := log_shift (a := a) (b := b) (by linarith) (by linarith)
  have h2 := log_shift (a := b) (b := a) (by linarith) (by linarith)
  have h3 : (a - b) / b ≤ 3 * |a - b| := by
    rw [div_le_iff₀ (by linarith)]
    nlinarith [le_abs_self (a - b), abs_nonneg (a - b)]
  have h4 : (b - a) / a ≤ 3 * |a - b| := by
    rw [div_le_iff₀ (by linarith), abs_sub_comm]
    nlinarith [le_abs_self (b - a), abs_nonneg (b - a)]
  rw [abs_le]; constructor <;> linarith

/-- `log_helper` on the numbers that reach it. -/
theorem logHelper_fp (hr : RoundsToNearest ρ) {s : ℝ} (s1 : 99 / 100 ≤ s) (s2 : s ≤ 3165 / 1000) :
    ∃ v, logHelper ρ s () = .ok v () ∧ |v - Real.log s| ≤ 431 / 10000000 := by
  have hu := u_pos
  have hu1 := u_lt
  norm_num at hu1
  have e1 := err hr (x := s - 1) (B := 3) (by rw [abs_le]; constructor <;> linarith) (by norm_num) (by norm_num)
  have e2 := err hr (x := s + 1) (B := 5) (by rw [abs_le]; constructor <;> linarith) (by norm_num) (by norm_num)
  have e1' := abs_le.mp e1
  have e2' := abs_le.mp e2
  have hd : 0 < ρ (s + 1) := by linarith
  set y0 := (s - 1) / (s + 1) with hy0
  have hy0b : -(6 / 1000) ≤ y0 ∧ y0 ≤ 5199 / 10000 := by
    rw [hy0, le_div_iff₀ (by linarith), div_le_iff₀ (by linarith)]
    constructor <;> linarith
  have e3 : |ρ (s - 1) / ρ (s + 1) - y0| ≤ 10 * u := by
    have : ρ (s - 1) / ρ (s + 1) - y0 = ((ρ (s - 1) - (s - 1)) - y0 * (ρ (s + 1) - (s + 1))) / ρ (s + 1) := by
      rw [hy0]; field_simp; ring
    rw [this, abs_div, abs_of_pos hd, div_le_iff₀ hd]
    refine (abs_sub _ _).trans ?_
    rw [abs_mul]
    have : |y0| ≤ 1 := by rw [abs_le]; constructor <;> linarith
    have := mul_le_mul this e2 (abs_nonneg _) (by norm_num)
    nlinarith
  have e3' := abs_le.mp e3
  have e4 := err hr (x := ρ (s - 1) / ρ (s + 1)) (B := 1) (by rw [abs_le]; constructor <;> linarith) (by norm_num)
    (by norm_num)
  have e4' := abs_le.mp e4
  set y := ρ (ρ (s - 1) / ρ (s + 1)) with hy
  have hyb : |y| ≤ 52 / 100 := by rw [abs_le]; constructor <;> linarith
  obtain ⟨v, g, hv⟩ := logHelper2_fp hr (y := y) (by linarith)
  have ht := atanh_tail hyb
  refine ⟨v, (M.bind_of_ok (fdiv_ok hd.ne')).trans g, ?_⟩
  have hyb' := abs_le.mp hyb
  have l1 := log_shift_abs (a := 1 + y) (b := 1 + y0) (by linarith) (by linarith)
  have l2 := log_shift_abs (a := 1 - y) (b := 1 - y0) (by linarith) (by linarith)
  have d : |y - y0| ≤ 11 * u := by rw [abs_le]; constructor <;> linarith
  rw [show 1 + y - (1 + y0) = y - y0 by ring] at l1
  rw [show 1 - y - (1 - y0) = -(y - y0) by ring, abs_neg] at l2
  have hlog : Real.log (1 + y0) - Real.log (1 - y0) = Real.log s := by
    rw [← Real.log_div (by linarith) (by linarith)]
    congr 1
    rw [hy0]; field_simp; ring
  have l1' := abs_le.mp (l1.trans (mul_le_mul_of_nonneg_left d (by norm_num)))
  have l2' := abs_le.mp (l2.trans (mul_le_mul_of_nonneg_left d (by norm_num)))
  rw [abs_le] at hv ht ⊢
  constructor <;> linarith

theorem log_depth (hr : RoundsToNearest ρ) {x : ℝ} (hx : IsDouble x) (h0 : 0 < x) :
    ∃ v, (∀ fuel, 359 ≤ fuel → log ρ fuel x () = .ok (LogRes.val v) ()) ∧
      |v - Real.log x| ≤ 12 / 10000 + |Real.log x| / 100000000 := by
  have hu := u_pos
  have hu1 := u_lt
  norm_num at hu1
  obtain ⟨e, m, he, m1, m2, -, z1, z2, g1, g2⟩ := decimal_depth' hr hx h0
  have hm0 : 0 < m := by linarith
  have hT := T_ge
  obtain ⟨s, -, s0, s1, g3⟩ : ∃ r, IsDouble r ∧ 0 < r ∧ |r * r - m| ≤ 1000001 / 1000000000 * (r * r) ∧
      ∀ fuel, 18 ≤ fuel → sqrt ρ fuel m () = .ok r () := by
    obtain ⟨t, t0, rfl⟩ : ∃ t, 0 < t ∧ m = t * t :=
      ⟨Real.sqrt m, Real.sqrt_pos.mpr hm0, (Real.mul_self_sqrt hm0.le).symm⟩
    have t1 : 1 ≤ t := by nlinarith
    have ht := one_T
    norm_num at ht hT
    refine sqrt_depth hr t0 (by linarith) (by linarith) (n := 16) ?_
    have : (1 + t * t) / (2 * t) ≤ 55 / 10 := by
      rw [div_le_iff₀ (by linarith)]; nlinarith
    refine (mul_le_mul_of_nonneg_left this (by norm_num)).trans (by norm_num)
  rw [abs_le] at s1
  have sl : 99 / 100 ≤ s := by nlinarith
  have sh : s ≤ 3165 / 1000 := by nlinarith
  obtain ⟨l, g4, hl⟩ := logHelper_fp hr sl sh
  -- the last line of the function
  have he' : |(e : ℝ)| ≤ 358 := by exact_mod_cast he
  set c : ℝ := 23025851 / 10000000 with hc
  have c1 := err hr (x := c) (B := 3) (by rw [hc, abs_of_pos (by norm_num)]; norm_num) (by norm_num) (by norm_num)
  have c2 : |ρ c * e - c * e| ≤ 2000 * u := by
    rw [← sub_mul, abs_mul]
    have := mul_le_mul c1 he' (abs_nonneg _) (by linarith)
    linarith
  have c3 : |c * e| ≤ 830 := by
    rw [abs_mul, hc, abs_of_pos (by norm_num)]
    norm_num
    linarith
  have c2' := abs_le.mp c2
  have c3' := abs_le.mp c3
  have c4 := err hr (x := ρ c * e) (B := 1000) (by rw [abs_le]; constructor <;> linarith) (by norm_num) (by norm_num)
  have c4' := abs_le.mp c4
  have hls0 : -(2 / 100) ≤ Real.log s := by
    have h1 := Real.one_sub_inv_le_log_of_pos s0
    have h2 : s⁻¹ ≤ 102 / 100 := by
      rw [inv_le_comm₀ s0 (by norm_num)]; norm_num; linarith
    linarith
  have hls1 : Real.log s ≤ 3 := by
    have := Real.log_le_sub_one_of_pos s0
    linarith
  have hl' := abs_le.mp hl
  have c5 := err hr (x := 2 * l) (B := 10) (by rw [abs_le]; constructor <;> linarith) (by norm_num) (by norm_num)
  have c5' := abs_le.mp c5
  have c6 := err hr (x := ρ (2 * l) + ρ (ρ c * e)) (B := 1000) (by rw [abs_le]; constructor <;> linarith)
    (by norm_num) (by norm_num)
  have c6' := abs_le.mp c6
  refine ⟨ρ (ρ (2 * l) + ρ (ρ c * e)), fun fuel hf => ?_, ?_⟩
  · have f1 := g1 fuel hf
    have f2 := g2 fuel hf
    have f3 := g3 fuel (by omega)
    simp only [log, h0.ne', if_false, not_lt.mpr h0.le]
    refine (M.bind_of_ok f1).trans ?_
    refine (M.bind_of_ok f3).trans ?_
    refine (M.bind_of_ok g4).trans ?_
    exact (M.bind_of_ok f2).trans rfl
  · have hlm : |2 * Real.log s - Real.log m| ≤ 1003 / 1000000 := by
      have hq : 2 * Real.log s - Real.log m = -Real.log (m / s ^ 2) := by
        rw [Real.log_div hm0.ne' (by positivity), Real.log_pow]; push_cast; ring
      rw [hq, abs_neg]
      have hs2 : 0 < s ^ 2 := by positivity
      have q1 : m / s ^ 2 ≤ 1 + 1001 / 1000000 := by rw [div_le_iff₀ hs2]; nlinarith
      have q2 : 1 - 1001 / 1000000 ≤ m / s ^ 2 := by rw [le_div_iff₀ hs2]; nlinarith
      have q0 : 0 < m / s ^ 2 := by positivity
      rw [abs_le]
      constructor
      · have h1 := Real.one_sub_inv_le_log_of_pos q0
        have h2 : (m / s ^ 2)⁻¹ ≤ 1 + 1003 / 1000000 := by
          rw [inv_le_comm₀ q0 (by norm_num)]
          refine le_trans ?_ q2
          norm_num
        linarith
      · have := Real.log_le_sub_one_of_pos q0
        linarith
    have hp10 : (0 : ℝ) < 10 ^ e := by positivity
    have hlx : |Real.log x - (Real.log m + e * Real.log 10)| ≤ 1 / 10 ^ 12 := by
      rw [← Real.log_zpow, ← Real.log_mul hm0.ne' hp10.ne']
      have hz0 : 0 < m * 10 ^ e := by positivity
      generalize m * (10 : ℝ) ^ e = z at *
      have a1 := log_shift h0 hz0
      have a2 := log_shift hz0 h0
      have b1 : (x - z) / z ≤ 1 / 10 ^ 12 := by
        rw [div_le_iff₀ hz0]; norm_num at z1 z2 ⊢; linarith
      have b2 : (z - x) / x ≤ 1 / 10 ^ 12 := by
        rw [div_le_iff₀ h0]; norm_num at z1 z2 ⊢; linarith
      rw [abs_le]; constructor <;> linarith
    have l10 := log_ten_near
    have hlogm0 : 0 ≤ Real.log m := Real.log_nonneg m1
    have hlogm1 : Real.log m ≤ Real.log 10 := Real.log_le_log hm0 m2.le
    have l10' := abs_le.mp l10
    norm_num at hlx
    have hlx' := abs_le.mp hlx
    have he2 : |(e : ℝ)| ≤ |Real.log x| + 2 := by
      have h2 : 2 ≤ Real.log 10 := by linarith
      have h3 : Real.log 10 ≤ 29 / 10 := by linarith
      have h1 : |(e : ℝ)| * Real.log 10 ≤ |Real.log x| + 3 := by
        rw [← abs_of_pos (by linarith : 0 < Real.log 10), ← abs_mul]
        have hx1 := le_abs_self (Real.log x)
        have hx2 := neg_abs_le (Real.log x)
        rw [abs_le]; constructor <;> linarith
      have h4 := mul_le_mul_of_nonneg_left h2 (abs_nonneg (e : ℝ))
      linarith only [h4, h1, abs_nonneg (Real.log x)]
    have herr : |(e : ℝ) * (c - Real.log 10)| ≤ (|Real.log x| + 2) * (1 / 100000000) := by
      rw [abs_mul]
      apply mul_le_mul he2 _ (abs_nonneg _) (by positivity)
      rw [abs_sub_comm]; exact l10
    have herr' := abs_le.mp herr
    have hlm' := abs_le.mp hlm
    have hA := abs_nonneg (Real.log x)
    clear_value c
    rw [mul_sub] at herr'
    rw [abs_le]
    constructor
    · linarith only [herr'.1, hlm'.1, hlx'.2, c6'.1, c5'.1, c4'.1, c2'.1, hl'.1, hu1, hA]
    · linarith only [herr'.2, hlm'.2, hlx'.1, c6'.2, c5'.2, c4'.2, c2'.2, hl'.2, hu1, hA]

theorem log_fp (hr : RoundsToNearest ρ) {x : ℝ} (hx : IsDouble x) (h0 : 0 < x) :
    ∃ v, Gives (fun fuel => log ρ fuel x) (LogRes.val v) ∧
      |v - Real.log x| ≤ 12 / 10000 + |Real.log x| / 100000000 := by
  obtain ⟨v, h, hb⟩ := log_depth hr hx h0
  exact ⟨v, ⟨359, h⟩, hb⟩

end Cest.Fp
