import Verif.Fp.Log

/-! `exp` in binary64 arithmetic. -/
namespace Cest.Fp
open Cest Cest.Cmath

variable {ρ : ℝ → ℝ}

theorem isDouble_half_int {k : ℤ} (h : |k| < 2 ^ 53) : IsDouble ((k : ℝ) / 2) :=
  ⟨k, -1, by norm_num [zpow_neg]; ring, h, by norm_num, by norm_num⟩

/-- The argument reduction: an integer `n` within one of `x`, and a fraction close to `x - n`. -/
theorem reduce_fp (hr : RoundsToNearest ρ) {x : ℝ} (hx : |x| ≤ 1000) :
    ∃ (n : ℤ) (r : ℝ), nearest ρ x () = .ok (n : ℝ) () ∧ fraction ρ x () = .ok r () ∧
      |x - n| < 1 ∧ |r| ≤ 1 ∧ |r - (x - n)| ≤ u := by
  have hb := trunc_bounds x
  have hx' := abs_le.mp hx
  have ht := abs_lt.mp hb.1
  have t1 : -1001 ≤ trunc x := by
    have : ((-1001 : ℤ) : ℝ) ≤ (trunc x : ℝ) := by push_cast; linarith
    exact_mod_cast this
  have t2 : trunc x ≤ 1001 := by
    have : (trunc x : ℝ) ≤ ((1001 : ℤ) : ℝ) := by push_cast; linarith
    exact_mod_cast this
  have ok1 : toInt x () = .ok (trunc x) () := toInt_ok (by simp only [intMin]; omega) (by simp only [intMax]; omega)
  have hone : IsDouble (1 : ℝ) := by simpa using isDouble_int (K := ℝ) (k := 1) (by norm_num)
  have hi : IsDouble ((trunc x : ℤ) : ℝ) := isDouble_int (by rw [abs_lt]; constructor <;> omega)
  by_cases h : (trunc x : ℝ) < ρ (x - 1 / 2)
  · have h' : (trunc x : ℝ) < x - 1 / 2 := by
      by_contra hc
      exact absurd (hr.le_of_le hi (not_lt.mp hc)) (not_le.mpr h)
    obtain ⟨hx0, -⟩ := trunc_half h'
    have d1 : IsDouble (((trunc x + 1 : ℤ)) : ℝ) := isDouble_int (by rw [abs_lt]; constructor <;> omega)
    have d2 : IsDouble (((2 * trunc x + 3 : ℤ) : ℝ) / 2) := isDouble_half_int (by rw [abs_lt]; constructor <;> omega)
    have l1 := hr.ge_of_ge d1 (x := x + 1 / 2) (by push_cast; linarith)
    have l2 := hr.le_of_le d2 (x := x + 1 / 2) (by push_cast; linarith)
    push_cast at l1 l2
    have htr : trunc (ρ (x + 1 / 2)) = trunc x + 1 := by
      have h0 : (0 : ℝ) ≤ trunc x := by
        rw [trunc_of_nonneg hx0]
        exact_mod_cast Int.floor_nonneg.mpr hx0
      rw [trunc_of_nonneg (by linarith), Int.floor_eq_iff]
      push_cast
      constructor <;> linarith
    have ok2 : toInt (ρ (x + 1 / 2)) () = .ok (trunc x + 1) () := by
      rw [toInt_ok (by rw [htr]; simp only [intMin]; omega) (by rw [htr]; simp only [intMax]; omega), htr]
    have hlt : |x - ((trunc x + 1 : ℤ) : ℝ)| < 1 := by
      push_cast; rw [abs_lt]; constructor <;> linarith
    have e := err hr (x := ((trunc x + 1 : ℤ) : ℝ) - x) (B := 1) (by rw [abs_sub_comm]; exact hlt.le) le_rfl
      (by norm_num)
    refine ⟨trunc x + 1, -ρ (((trunc x + 1 : ℤ) : ℝ) - x), ?_, ?_, hlt, ?_, ?_⟩
    · rw [nearest]
      refine (M.bind_of_ok ok1).trans ?_
      refine (congrFun (if_pos h) _).trans ?_
      exact (M.bind_of_ok ok2).trans rfl
    · rw [fraction]
      refine (M.bind_of_ok ok1).trans ?_
      refine (congrFun (if_pos h) _).trans ?_
      exact (M.bind_of_ok ok2).trans rfl
    · rw [abs_neg]
      have hl := abs_lt.mp hlt
      have a1 := hr.le_of_le hone (x := ((trunc x + 1 : ℤ) : ℝ) - x) (by linarith)
      have a2 := hr.ge_of_ge hone.neg (x := ((trunc x + 1 : ℤ) : ℝ) - x) (by linarith)
      rw [abs_le]; exact ⟨a2, a1⟩
    · rw [show -ρ (((trunc x + 1 : ℤ) : ℝ) - x) - (x - ((trunc x + 1 : ℤ) : ℝ)) =
        -(ρ (((trunc x + 1 : ℤ) : ℝ) - x) - (((trunc x + 1 : ℤ) : ℝ) - x)) by ring, abs_neg]
      linarith
  · have hlt : |x - ((trunc x : ℤ) : ℝ)| < 1 := hb.1
    have e := err hr (x := x - (trunc x : ℝ)) (B := 1) hlt.le le_rfl (by norm_num)
    refine ⟨trunc x, ρ (x - (trunc x : ℝ)), ?_, ?_, hlt, ?_, by linarith⟩
    · rw [nearest]
      refine (M.bind_of_ok ok1).trans ?_
      refine (congrFun (if_neg h) _).trans ?_
      exact (M.bind_of_ok ok1).trans rfl
    · rw [fraction]
      refine (M.bind_of_ok ok1).trans ?_
      refine (congrFun (if_neg h) _).trans ?_
      exact (M.bind_of_ok ok1).trans rfl
    · have a1 := hr.le_of_le hone (x := x - (trunc x : ℝ)) (by linarith)
      have a2 := hr.ge_of_ge hone.neg (x := x - (trunc x : ℝ)) (by linarith)
      rw [abs_le]; exact ⟨a2, a1⟩

theorem expHelper_fp (hr : RoundsToNearest ρ) {r : ℝ} (hy : |r| ≤ 1) :
    ∃ v, expHelper ρ r () = .ok v () ∧
      |v - ∑ k ∈ Finset.range 8, r ^ k / (Nat.factorial k : ℝ)| ≤ 1000 * u := by
  have hu := u_pos
  have hu1 := u_lt
  norm_num at hu1
  obtain ⟨t2, g2, h2⟩ := term_err hr hy (k := 2) (by norm_num) (by norm_num) (c := 2) (by norm_num)
  obtain ⟨t3, g3, h3⟩ := term_err hr hy (k := 3) (by norm_num) (by norm_num) (c := 6) (by norm_num)
  obtain ⟨t4, g4, h4⟩ := term_err hr hy (k := 4) (by norm_num) (by norm_num) (c := 24) (by norm_num)
  obtain ⟨t5, g5, h5⟩ := term_err hr hy (k := 5) (by norm_num) (by norm_num) (c := 120) (by norm_num)
  obtain ⟨t6, g6, h6⟩ := term_err hr hy (k := 6) (by norm_num) (by norm_num) (c := 720) (by norm_num)
  obtain ⟨t7, g7, h7⟩ := term_err hr hy (k := 7) (by norm_num) (by norm_num) (c := 5040) (by norm_num)
  have b2 := abs_le.mp (pow_abs_le hy 2 (c := 2) (by norm_num))
  have b3 := abs_le.mp (pow_abs_le hy 3 (c := 6) (by norm_num))
  have b4 := abs_le.mp (pow_abs_le hy 4 (c := 24) (by norm_num))
  have b5 := abs_le.mp (pow_abs_le hy 5 (c := 120) (by norm_num))
  have b6 := abs_le.mp (pow_abs_le hy 6 (c := 720) (by norm_num))
  have b7 := abs_le.mp (pow_abs_le hy 7 (c := 5040) (by norm_num))
  simp only [Int.reduceToNat] at h2 h3 h4 h5 h6 h7
  have y' := abs_le.mp hy
  have s1 := add_err hr (s := 1) (S := 1) (t := r) (X := r) (E := 0) (by simp) (by simp [hu.le])
    (by rw [abs_le]; constructor <;> linarith) (by norm_num)
  have s2 := add_err hr s1 h2 (by rw [abs_le]; constructor <;> linarith) (by linarith)
  have s3 := add_err hr s2 h3 (by rw [abs_le]; constructor <;> linarith) (by linarith)
  have s4 := add_err hr s3 h4 (by rw [abs_le]; constructor <;> linarith) (by linarith)
  have s5 := add_err hr s4 h5 (by rw [abs_le]; constructor <;> linarith) (by linarith)
  have s6 := add_err hr s5 h6 (by rw [abs_le]; constructor <;> linarith) (by linarith)
  have s7 := add_err hr s6 h7 (by rw [abs_le]; constructor <;> linarith) (by linarith)
  refine ⟨fadd ρ (fadd ρ (fadd ρ (fadd ρ (fadd ρ (fadd ρ (fadd ρ 1 r) t2) t3) t4) t5) t6) t7, ?_, ?_⟩
  rotate_left
  · have e0 : ∑ k ∈ Finset.range 8, r ^ k / (Nat.factorial k : ℝ) =
        1 + r + r ^ 2 / 2 + r ^ 3 / 6 + r ^ 4 / 24 + r ^ 5 / 120 + r ^ 6 / 720 + r ^ 7 / 5040 := by
      simp [Finset.sum_range_succ, Nat.factorial]
    rw [e0]
    exact s7.trans (by linarith)
  · rw [expHelper]
    refine (bind2 g2 _).trans ?_
    refine (bind2 g3 _).trans ?_
    refine (bind2 g4 _).trans ?_
    refine (bind2 g5 _).trans ?_
    refine (bind2 g6 _).trans ?_
    exact (bind2 g7 _).trans rfl

theorem pow_u_bounds {n : ℕ} (hn : n ≤ 1000) {a : ℝ} (a0 : 0 ≤ a) (a1 : a ≤ 1 / 10 ^ 14) :
    1 - n * a ≤ (1 - a) ^ n ∧ (1 + a) ^ n ≤ 1 + 2 * (n * a) := by
  have hn' : (n : ℝ) ≤ 1000 := by exact_mod_cast hn
  have hn0 : (0 : ℝ) ≤ n := by positivity
  norm_num at a1
  have lo : 1 - n * a ≤ (1 - a) ^ n := by
    have := one_add_mul_le_pow (a := -a) (by linarith) n
    rw [← sub_eq_add_neg] at this
    linarith
  refine ⟨lo, ?_⟩
  have h1 : (1 + a) ^ n * (1 - a) ^ n ≤ 1 := by
    rw [← mul_pow]
    exact pow_le_one₀ (by nlinarith) (by nlinarith)
  have h2 : 0 < (1 + a) ^ n := by positivity
  have h3 : (1 + a) ^ n * (1 - n * a) ≤ 1 := (mul_le_mul_of_nonneg_left lo h2.le).trans h1
  have h4 : (n : ℝ) * a ≤ 1 / 100 := by nlinarith
  have h5 : 0 ≤ (n : ℝ) * a := by positivity
  generalize (n : ℝ) * a = z at *
  generalize (1 + a) ^ n = A at *
  by_contra hc
  nlinarith

/-- Powers of a base that is at least one: relative error. -/
theorem powNN_rel (hr : RoundsToNearest ρ) {b : ℝ} (hb : 1 ≤ b) : ∀ n : ℕ, n ≤ 1000 → b ^ n ≤ 2 ^ 1022 →
    b ^ n * (1 - u) ^ n ≤ powNN ρ b n ∧ powNN ρ b n ≤ b ^ n * (1 + u) ^ n
  | 0, _, _ => by simp [powNN]
  | 1, _, _ => by
    have := u_pos
    simp only [powNN, pow_one]
    constructor <;> nlinarith
  | n + 2, hn, hle => by
    have hu := u_pos
    have hu1 := u_lt
    have ih := powNN_rel hr hb (n + 1) (by omega)
      ((pow_le_pow_right₀ hb (by omega)).trans hle)
    simp only [powNN, fmul]
    set p := powNN ρ b (n + 1)
    have l1 : b ^ (n + 2) * (1 - u) ^ (n + 1) ≤ b * p := by
      have := mul_le_mul_of_nonneg_left ih.1 (by linarith : 0 ≤ b)
      refine le_trans (le_of_eq ?_) this
      ring
    have l2 : b * p ≤ b ^ (n + 2) * (1 + u) ^ (n + 1) := by
      have := mul_le_mul_of_nonneg_left ih.2 (by linarith : 0 ≤ b)
      refine this.trans (le_of_eq ?_)
      ring
    obtain ⟨q1, q2⟩ := pow_u_bounds (n := n + 1) (by omega) hu.le (by norm_num at hu1 ⊢; linarith)
    have hn1 : ((n + 1 : ℕ) : ℝ) ≤ 1000 := by exact_mod_cast (by omega : n + 1 ≤ 1000)
    have hsm : ((n + 1 : ℕ) : ℝ) * u ≤ 1 / 4 := by norm_num at hu1; nlinarith
    have b1 : 1 ≤ b ^ (n + 2) := one_le_pow₀ hb
    have h5 : 1 / 2 ≤ b * p := by
      refine le_trans ?_ l1
      have : (1 : ℝ) * (1 / 2) ≤ b ^ (n + 2) * (1 - u) ^ (n + 1) :=
        mul_le_mul b1 (by linarith) (by norm_num) (by linarith)
      linarith
    have h6 : b * p ≤ 2 ^ 1023 := by
      refine l2.trans ?_
      rw [show (1023 : ℕ) = 1022 + 1 by norm_num, pow_succ (2 : ℝ) 1022]
      refine mul_le_mul hle (q2.trans ?_) (pow_nonneg (by linarith) _) (by positivity)
      linarith
    have h7 : (1 : ℝ) / 2 ^ 1022 ≤ 1 / 2 :=
      one_div_le_one_div_of_le (by norm_num) (le_trans (by norm_num : (2 : ℝ) ≤ 2 ^ 1)
        (pow_le_pow_right₀ (by norm_num) (by norm_num)))
    obtain ⟨r1, r2⟩ := round_bounds hr (h7.trans h5) h6
    norm_num at hu1
    constructor
    · refine le_trans ?_ r1
      rw [pow_succ (1 - u) (n + 1), ← mul_assoc]
      exact mul_le_mul_of_nonneg_right l1 (by linarith)
    · refine r2.trans ?_
      rw [pow_succ (1 + u) (n + 1), ← mul_assoc]
      exact mul_le_mul_of_nonneg_right l2 (by linarith)

theorem exp_le_big {n : ℕ} (hn : n ≤ 701) : Real.exp 1 ^ n ≤ 2 ^ 1012 := by
  have he : Real.exp 1 ≤ 27183 / 10000 := by
    have := Real.exp_one_lt_d9
    norm_num at this ⊢; linarith
  have h1 : Real.exp 1 ^ n ≤ (27183 / 10000) ^ n := pow_le_pow_left₀ (Real.exp_pos 1).le he n
  have h2 : ((27183 : ℝ) / 10000) ^ n ≤ (27183 / 10000) ^ 701 := pow_le_pow_right₀ (by norm_num) hn
  have h3 : ((27183 : ℝ) / 10000) ^ 7 ≤ 1097 := by norm_num
  have h4 : (1097 : ℝ) ^ 10 ≤ 2 ^ 101 := by norm_num
  have h5 : ((27183 : ℝ) / 10000) ^ 700 ≤ 2 ^ 1010 := by
    rw [show (700 : ℕ) = 7 * 10 * 10 by norm_num, pow_mul, pow_mul, show (1010 : ℕ) = 101 * 10 by norm_num, pow_mul]
    refine pow_le_pow_left₀ (by positivity) ?_ 10
    exact (pow_le_pow_left₀ (by positivity) h3 10).trans h4
  refine h1.trans (h2.trans ?_)
  rw [pow_succ, show (1012 : ℕ) = 1010 + 2 by norm_num, pow_add (2 : ℝ)]
  exact mul_le_mul h5 (by norm_num) (by norm_num) (by positivity)

theorem mE_fp (hr : RoundsToNearest ρ) :
    Real.exp 1 * (1 - 2 / 10 ^ 15) ≤ mE ρ ∧ mE ρ ≤ Real.exp 1 * (1 + 2 / 10 ^ 15) := by
  have hu1 := u_lt
  obtain ⟨h1, h2⟩ := mE_near
  have hT := T_ge
  have ht := one_T
  norm_num at hT ht
  have := rb hr (y := mE id) (by simp only [mE, id]; norm_num; linarith) (by simp only [mE, id]; norm_num; linarith)
  simp only [mE, id] at *
  have he := Real.exp_one_gt_d9
  norm_num at *
  constructor <;> nlinarith

theorem pow_mE_fp (hr : RoundsToNearest ρ) {n : ℤ} (hn : |n| ≤ 701) :
    ∃ p, pow ρ (mE ρ) n () = .ok p () ∧ |p / Real.exp n - 1| ≤ 1 / 10 ^ 11 := by
  have hu := u_pos
  have hu1 := u_lt
  have he := Real.exp_pos 1
  have he1 := Real.exp_one_gt_d9
  norm_num at he1
  obtain ⟨E1, E2⟩ := mE_fp hr
  have hE1 : 1 ≤ mE ρ := by norm_num at E1; nlinarith
  -- the power with a natural exponent
  have key : ∀ k : ℕ, k ≤ 701 → |powNN ρ (mE ρ) k / Real.exp 1 ^ k - 1| ≤ 8 / 10 ^ 12 := by
    intro k hk
    have hk' : (k : ℝ) ≤ 701 := by exact_mod_cast hk
    have hk0 : (0 : ℝ) ≤ k := by positivity
    have hep : 0 < Real.exp 1 ^ k := by positivity
    obtain ⟨a1, a2⟩ := pow_u_bounds (n := k) (by omega) (a := 2 / 10 ^ 15) (by norm_num) (by norm_num)
    obtain ⟨b1, b2⟩ := pow_u_bounds (n := k) (by omega) hu.le (by norm_num at hu1 ⊢; linarith)
    have m1 : Real.exp 1 ^ k * (1 - 2 / 10 ^ 15) ^ k ≤ mE ρ ^ k := by
      rw [← mul_pow]; exact pow_le_pow_left₀ (mul_nonneg he.le (by norm_num)) E1 k
    have m2 : mE ρ ^ k ≤ Real.exp 1 ^ k * (1 + 2 / 10 ^ 15) ^ k := by
      rw [← mul_pow]; exact pow_le_pow_left₀ (by linarith) E2 k
    have hbig : mE ρ ^ k ≤ 2 ^ 1022 := by
      refine m2.trans ?_
      rw [show (1022 : ℕ) = 1012 + 10 by norm_num, pow_add]
      refine mul_le_mul (exp_le_big hk) (a2.trans ?_) (by positivity) (by positivity)
      norm_num
      linarith
    obtain ⟨c1, c2⟩ := powNN_rel hr hE1 k (by omega) hbig
    rw [abs_le]
    norm_num at hu1
    have z : (k : ℝ) * u ≤ 3 / 10 ^ 13 := by norm_num; nlinarith
    have z0 : 0 ≤ (k : ℝ) * u := by positivity
    have w : (k : ℝ) * (2 / 10 ^ 15) ≤ 2 / 10 ^ 12 := by norm_num; linarith
    have w0 : 0 ≤ (k : ℝ) * (2 / 10 ^ 15) := by positivity
    have n1 : (0 : ℝ) ≤ (1 - u) ^ k := pow_nonneg (by linarith) _
    have n2 : (0 : ℝ) ≤ (1 + u) ^ k := pow_nonneg (by linarith) _
    have n3 : (0 : ℝ) ≤ (1 - 2 / 10 ^ 15) ^ k := pow_nonneg (by norm_num) _
    have n4 : (0 : ℝ) ≤ (1 + 2 / 10 ^ 15) ^ k := pow_nonneg (by norm_num) _
    have d1 : Real.exp 1 ^ k * (1 - 2 / 10 ^ 15) ^ k * (1 - u) ^ k ≤ powNN ρ (mE ρ) k :=
      (mul_le_mul_of_nonneg_right m1 n1).trans c1
    have d2 : powNN ρ (mE ρ) k ≤ Real.exp 1 ^ k * (1 + 2 / 10 ^ 15) ^ k * (1 + u) ^ k :=
      c2.trans (mul_le_mul_of_nonneg_right m2 n2)
    clear m1 m2 c1 c2 hbig E1 E2 hE1
    generalize powNN ρ (mE ρ) k = Q at *
    generalize Real.exp 1 ^ k = X at *
    generalize (1 - u) ^ k = A at *
    generalize (1 + u) ^ k = B at *
    generalize (1 - 2 / 10 ^ 15 : ℝ) ^ k = C at *
    generalize (1 + 2 / 10 ^ 15 : ℝ) ^ k = D at *
    generalize (k : ℝ) * u = y at *
    generalize (k : ℝ) * (2 / 10 ^ 15) = v at *
    norm_num at z w
    have lo : 1 - 8 / 10 ^ 12 ≤ C * A := by
      have : (1 - v) * (1 - y) ≤ C * A := mul_le_mul a1 b1 (by linarith) n3
      norm_num
      nlinarith
    have hi : D * B ≤ 1 + 8 / 10 ^ 12 := by
      have : D * B ≤ (1 + 2 * v) * (1 + 2 * y) := mul_le_mul a2 b2 n2 (by linarith)
      norm_num
      nlinarith
    constructor
    · rw [le_sub_iff_add_le, le_div_iff₀ hep]
      refine le_trans ?_ d1
      rw [mul_assoc, mul_comm]
      refine mul_le_mul_of_nonneg_left ?_ hep.le
      linarith
    · rw [sub_le_iff_le_add, div_le_iff₀ hep]
      refine d2.trans ?_
      rw [mul_assoc, mul_comm]
      refine mul_le_mul_of_nonneg_right ?_ hep.le
      linarith
  have hexp : ∀ k : ℕ, Real.exp (k : ℝ) = Real.exp 1 ^ k := fun k => by rw [← Real.exp_nat_mul, mul_one]
  obtain ⟨k, rfl | rfl⟩ := Int.eq_nat_or_neg n
  · have hk : k ≤ 701 := by rw [Nat.abs_cast] at hn; omega
    refine ⟨_, pow_nonneg_ok _ (by omega), ?_⟩
    rw [Int.toNat_natCast, Int.cast_natCast, hexp]
    refine (key k hk).trans (by norm_num)
  · have hk : k ≤ 701 := by rw [abs_neg, Nat.abs_cast] at hn; omega
    rcases Nat.eq_zero_or_pos k with rfl | hk0
    · refine ⟨1, by simp [pow, powNN], by simp⟩
    have hkk := key k hk
    have hep : 0 < Real.exp 1 ^ k := by positivity
    set p := powNN ρ (mE ρ) k with hp
    have hkk' := abs_le.mp hkk
    have hbig := exp_le_big hk
    have hge : 1 ≤ Real.exp 1 ^ k := one_le_pow₀ (by linarith)
    have hpe : p = Real.exp 1 ^ k * (p / Real.exp 1 ^ k) := by field_simp
    set q := p / Real.exp 1 ^ k with hq
    norm_num at hkk'
    have hp0 : 0 < p := by rw [hpe]; exact mul_pos hep (by linarith)
    have r1 : 1 / 2 ^ 1022 ≤ 1 / p := by
      refine one_div_le_one_div_of_le hp0 ?_
      rw [hpe, show (1022 : ℕ) = 1012 + 10 by norm_num, pow_add]
      refine mul_le_mul hbig ?_ (by linarith) (by positivity)
      norm_num; linarith
    have r2 : 1 / p ≤ 2 ^ 1023 := by
      have h1 : 1 / p ≤ 2 := by
        rw [div_le_iff₀ hp0, hpe]; nlinarith
      exact h1.trans (le_trans (by norm_num : (2 : ℝ) ≤ 2 ^ 1) (pow_le_pow_right₀ (by norm_num) (by norm_num)))
    obtain ⟨b1, b2⟩ := round_bounds hr r1 r2
    refine ⟨ρ (1 / p), ?_, ?_⟩
    · rw [pow, if_pos (by omega)]
      have hi : intMin ≤ (k : ℤ) ∧ (k : ℤ) ≤ intMax := by simp only [intMin, intMax]; omega
      have : int (-(-(k : ℤ))) () = .ok (k : ℤ) () := by simp [int, hi]
      refine (M.bind_of_ok this).trans ?_
      rw [Int.toNat_natCast, ← hp]
      exact fdiv_ok hp0.ne'
    · have e1 : Real.exp ((-(k : ℤ) : ℤ) : ℝ) = (Real.exp 1 ^ k)⁻¹ := by
        push_cast; rw [Real.exp_neg, hexp]
      rw [e1, div_inv_eq_mul]
      have e2 : 1 / p * Real.exp 1 ^ k = 1 / q := by rw [hq]; field_simp
      have b1' := mul_le_mul_of_nonneg_right b1 hep.le
      have b2' := mul_le_mul_of_nonneg_right b2 hep.le
      rw [mul_right_comm, e2] at b1' b2'
      have q0 : 0 < q := by linarith
      have q1 : 1 / q ≤ 1 + 9 / 10 ^ 12 := by
        rw [div_le_iff₀ q0]; norm_num; nlinarith
      have q2 : 1 - 9 / 10 ^ 12 ≤ 1 / q := by
        rw [le_div_iff₀ q0]; norm_num; nlinarith
      norm_num at q1 q2 hu1
      have iq : 0 < 1 / q := by positivity
      norm_num at iq
      rw [one_div q] at b1' b2'
      have iu : q⁻¹ * u ≤ 2 * u := mul_le_mul_of_nonneg_right (by linarith) hu.le
      rw [mul_sub, mul_one] at b1'
      rw [mul_add, mul_one] at b2'
      generalize ρ (1 / p) * Real.exp 1 ^ k = Z at *
      rw [abs_le]
      norm_num
      constructor <;> linarith

theorem exp_arith {N R δ ξ h w v : ℝ} (hw : 0 ≤ w) (hw1 : w ≤ 1 / 100000000000000) (hN : 0 ≤ N) (hR : 0 ≤ R)
    (x1 : 1 ≤ ξ + 1 / 100000000000) (x2 : ξ ≤ 100000000001 / 100000000000) (h0 : 35 / 100 ≤ h)
    (c1 : R * (1 - 8 / 100000) ≤ h) (c2 : h ≤ R * (1 + 8 / 100000))
    (d1 : -(2 * w) ≤ δ - 1) (d2 : δ - 1 ≤ 2 * w)
    (b1 : N * (ξ * h) * (1 - w) ≤ v) (b2 : v ≤ N * (ξ * h) * (1 + w)) :
    |v - N * (R * δ)| ≤ 1 / 10000 * (N * (R * δ)) := by
  have z1 : 1 - 2 / 100000000000 ≤ ξ * (1 - w) := by nlinarith
  have z2 : ξ * (1 + w) ≤ 1 + 2 / 100000000000 := by nlinarith
  have rd1 : R * δ ≤ R * (1 + 1 / 100000000000) := mul_le_mul_of_nonneg_left (by linarith) hR
  have rd2 : R * (1 - 1 / 100000000000) ≤ R * δ := mul_le_mul_of_nonneg_left (by linarith) hR
  have y1 : (1 - 1 / 10000) * (R * δ) ≤ ξ * h * (1 - w) := by
    have e2 : (1 - 2 / 100000000000) * (R * (1 - 8 / 100000)) ≤ ξ * (1 - w) * h :=
      mul_le_mul z1 c1 (by linarith) (by linarith)
    linarith
  have y2 : ξ * h * (1 + w) ≤ (1 + 1 / 10000) * (R * δ) := by
    have e2 : ξ * (1 + w) * h ≤ (1 + 2 / 100000000000) * (R * (1 + 8 / 100000)) :=
      mul_le_mul z2 c2 (by linarith) (by linarith)
    linarith
  have w1 := mul_le_mul_of_nonneg_left y1 hN
  have w2 := mul_le_mul_of_nonneg_left y2 hN
  rw [abs_le]
  constructor <;> linarith

/-- `exp` in binary64: relative error at most one part in ten thousand for `|x| ≤ 700`. -/
theorem exp_fp (hr : RoundsToNearest ρ) {x : ℝ} (hx : |x| ≤ 700) :
    ∃ v, exp ρ x () = .ok v () ∧ |v - Real.exp x| ≤ 1 / 10000 * Real.exp x := by
  have hu := u_pos
  have hu1 := u_lt
  norm_num at hu1
  obtain ⟨n, r, g1, g2, d1, d2, d3⟩ := reduce_fp hr (x := x) (by linarith)
  have hx' := abs_le.mp hx
  have d1' := abs_lt.mp d1
  have n1 : -701 ≤ n := by
    have : ((-702 : ℤ) : ℝ) < n := by push_cast; linarith
    have : (-702 : ℤ) < n := by exact_mod_cast this
    omega
  have n2 : n ≤ 701 := by
    have : (n : ℝ) < ((702 : ℤ) : ℝ) := by push_cast; linarith
    have : n < (702 : ℤ) := by exact_mod_cast this
    omega
  obtain ⟨p, gp, hp⟩ := pow_mE_fp hr (n := n) (by rw [abs_le]; omega)
  obtain ⟨h, gh, hh⟩ := expHelper_fp hr d2
  have hen : 0 < Real.exp n := Real.exp_pos _
  -- the polynomial
  have hb := Real.exp_bound d2 (n := 8) (by norm_num)
  have hr8 : |r| ^ 8 ≤ 1 := pow_le_one₀ (abs_nonneg _) d2
  have hb' : |Real.exp r - ∑ k ∈ Finset.range 8, r ^ k / (Nat.factorial k : ℝ)| ≤ 28 / 1000000 := by
    refine hb.trans ?_
    have : ((Nat.succ 8 : ℕ) : ℝ) / ((Nat.factorial 8 : ℕ) * (8 : ℕ)) ≤ 28 / 1000000 := by
      norm_num [Nat.factorial]
    calc |r| ^ 8 * (((Nat.succ 8 : ℕ) : ℝ) / ((Nat.factorial 8 : ℕ) * (8 : ℕ)))
        ≤ 1 * (28 / 1000000) := mul_le_mul hr8 this (by positivity) (by norm_num)
      _ = 28 / 1000000 := one_mul _
  generalize ∑ k ∈ Finset.range 8, r ^ k / (Nat.factorial k : ℝ) = P at hh hb'
  have er1 : 36 / 100 ≤ Real.exp r := by
    have h1 : Real.exp (-1) ≤ Real.exp r := Real.exp_le_exp.mpr (abs_le.mp d2).1
    have h2 : Real.exp (-1) = (Real.exp 1)⁻¹ := Real.exp_neg 1
    have h3 := Real.exp_one_lt_d9
    have h4 : (36 : ℝ) / 100 ≤ (Real.exp 1)⁻¹ := by
      rw [le_inv_comm₀ (by norm_num) (Real.exp_pos 1)]
      norm_num at h3 ⊢; linarith
    linarith
  have er2 : Real.exp r ≤ 272 / 100 := by
    have h1 : Real.exp r ≤ Real.exp 1 := Real.exp_le_exp.mpr (abs_le.mp d2).2
    have h3 := Real.exp_one_lt_d9
    norm_num at h3; linarith
  -- the exact value
  have hsplit : Real.exp x = Real.exp n * (Real.exp r * Real.exp ((x - n) - r)) := by
    rw [← Real.exp_add, ← Real.exp_add]; congr 1; ring
  have ed : |Real.exp ((x - n) - r) - 1| ≤ 2 * u := by
    have hs : |(x - n) - r| ≤ u := by rw [abs_sub_comm]; exact d3
    have h1 := Real.abs_exp_sub_one_le (x := (x - n) - r) (by linarith)
    linarith
  set δ := Real.exp ((x - n) - r)
  have hpe : p = Real.exp n * (p / Real.exp n) := by field_simp
  set ξ := p / Real.exp n
  generalize Real.exp r = R at *
  have a1 := abs_le.mp hp
  have a2 := abs_le.mp hh
  have a3 := abs_le.mp hb'
  have a4 := abs_le.mp ed
  norm_num at a1
  have hph : p * h = Real.exp n * (ξ * h) := by rw [mul_comm ξ h, ← mul_assoc, mul_right_comm, ← hpe]
  have h0 : 35 / 100 ≤ h := by linarith
  have hm1 : 34 / 100 ≤ ξ * h := by nlinarith
  have hm2 : ξ * h ≤ 3 := by nlinarith
  have c1 : R * (1 - 8 / 100000) ≤ h := by nlinarith
  have c2 : h ≤ R * (1 + 8 / 100000) := by nlinarith
  -- range of the last product
  have hlo : (1 : ℝ) / 2 ^ 1012 ≤ Real.exp n := by
    have h1 : Real.exp (((-701 : ℤ)) : ℝ) ≤ Real.exp n := Real.exp_le_exp.mpr (by exact_mod_cast n1)
    refine le_trans ?_ h1
    have h2 : Real.exp (((-701 : ℤ)) : ℝ) = (Real.exp 1 ^ 701)⁻¹ := by
      rw [← Real.exp_nat_mul, ← Real.exp_neg]; congr 1; push_cast; ring
    rw [h2, ← one_div]
    exact one_div_le_one_div_of_le (by positivity) (exp_le_big le_rfl)
  have hhi : Real.exp n ≤ 2 ^ 1012 := by
    have h1 : Real.exp n ≤ Real.exp ((701 : ℤ) : ℝ) := Real.exp_le_exp.mpr (by exact_mod_cast n2)
    refine h1.trans ?_
    have h2 : Real.exp ((701 : ℤ) : ℝ) = Real.exp 1 ^ 701 := by
      rw [← Real.exp_nat_mul]; congr 1; push_cast; ring
    rw [h2]
    exact exp_le_big le_rfl
  have r1 : (1 : ℝ) / 2 ^ 1022 ≤ p * h := by
    rw [hph, show (1022 : ℕ) = 1012 + 10 by norm_num, pow_add, ← one_div_mul_one_div]
    exact mul_le_mul hlo (by norm_num; linarith) (by positivity) hen.le
  have r2 : p * h ≤ 2 ^ 1023 := by
    rw [hph, show (1023 : ℕ) = 1012 + 11 by norm_num, pow_add]
    exact mul_le_mul hhi (by norm_num; linarith) (by linarith) (by positivity)
  obtain ⟨b1, b2⟩ := round_bounds hr r1 r2
  have hti : toInt (n : ℝ) () = .ok n () := by
    have ht : trunc (n : ℝ) = n := trunc_int n
    rw [toInt_ok (by rw [ht]; simp only [intMin]; omega) (by rw [ht]; simp only [intMax]; omega), ht]
  refine ⟨ρ (p * h), ?_, ?_⟩
  · rw [exp]
    refine (M.bind_of_ok g1).trans ?_
    refine (M.bind_of_ok hti).trans ?_
    refine (M.bind_of_ok gp).trans ?_
    refine (M.bind_of_ok g2).trans ?_
    exact (M.bind_of_ok gh).trans rfl
  · rw [hph] at b1 b2 ⊢
    rw [hsplit]
    exact exp_arith hu.le (hu1.le.trans (by norm_num)) hen.le (by linarith) a1.1 a1.2 h0 c1 c2 a4.1 a4.2 b1 b2

end Cest.Fp
