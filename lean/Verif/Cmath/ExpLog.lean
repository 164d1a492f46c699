import Verif.Cmath.Trig
import Mathlib.Analysis.SpecialFunctions.Log.Deriv
import Mathlib.Analysis.SpecificLimits.Basic
import Mathlib.Analysis.SpecialFunctions.Pow.Real

/-! Lemmas about exp and log in exact arithmetic. -/

namespace Cest.Cmath

section
set_option linter.unusedSectionVars false
variable {K : Type} [Field K] [LinearOrder K] [IsStrictOrderedRing K] [FloorRing K]

theorem pow_lit (r : K) {n : ℤ} (h : 0 ≤ n) : pow id r n () = .ok (r ^ n.toNat) () := by
  simp [pow, not_lt.mpr h, powNN_exact]

theorem pow_zpow (b : K) {n : ℤ} (h1 : intMin < n) (h2 : n ≤ intMax) (hb : n < 0 → b ≠ 0) :
    pow id b n () = .ok (b ^ n) () := by
  by_cases hn : n < 0
  · have hi : intMin ≤ -n ∧ -n ≤ intMax := by simp only [intMin, intMax] at *; omega
    obtain ⟨k, rfl⟩ : ∃ k : ℕ, n = -(k : ℤ) := ⟨n.natAbs, by omega⟩
    simp only [neg_neg] at hi
    have hk : b ^ k ≠ 0 := pow_ne_zero _ (hb hn)
    rw [pow, if_pos hn]
    simp [M.bind_apply, int, hi, powNN_exact, fdiv_ok hk]
  · have : 0 ≤ n := not_lt.mp hn
    rw [pow_lit b this]
    congr 1
    rw [← zpow_natCast]; congr 1; omega

theorem expHelper_val (r : K) :
    expHelper id r () = .ok (∑ k ∈ Finset.range 8, r ^ k / (Nat.factorial k : K)) () := by
  simp only [expHelper, M.bind_apply, pow_lit r (by norm_num : (0 : ℤ) ≤ 2),
    pow_lit r (by norm_num : (0 : ℤ) ≤ 3), pow_lit r (by norm_num : (0 : ℤ) ≤ 4),
    pow_lit r (by norm_num : (0 : ℤ) ≤ 5), pow_lit r (by norm_num : (0 : ℤ) ≤ 6),
    pow_lit r (by norm_num : (0 : ℤ) ≤ 7), fdiv_ok (by norm_num : (2 : K) ≠ 0),
    fdiv_ok (by norm_num : (6 : K) ≠ 0), fdiv_ok (by norm_num : (24 : K) ≠ 0),
    fdiv_ok (by norm_num : (120 : K) ≠ 0), fdiv_ok (by norm_num : (720 : K) ≠ 0),
    fdiv_ok (by norm_num : (5040 : K) ≠ 0), M.pure_apply, fadd, id]
  simp [Finset.sum_range_succ, Nat.factorial]

theorem nearest_fraction {x : K} (h1 : intMin ≤ trunc x) (h2 : x ≤ (intMax : K) + 1 / 2) :
    ∃ n : ℤ, intMin ≤ n ∧ n ≤ intMax ∧ nearest id x () = .ok (n : K) () ∧
      fraction id x () = .ok (x - n) () ∧ |x - n| < 1 ∧ (0 ≤ x → |x - n| ≤ 1 / 2) := by
  have hb := trunc_bounds x
  have hmax : trunc x ≤ intMax := by
    rcases le_total 0 x with h | h
    · have : (trunc x : K) ≤ (intMax : K) + 1 / 2 := (hb.2.1 h).trans h2
      have h3 : (trunc x : K) < ((intMax + 1 : ℤ) : K) := by push_cast; linarith
      have : trunc x < intMax + 1 := by exact_mod_cast h3
      omega
    · have : trunc x ≤ 0 := by
        rw [trunc_of_nonpos h]
        exact Int.ceil_nonpos.mpr h
      simp only [intMax]; omega
  by_cases h : (trunc x : K) < x - 1 / 2
  · obtain ⟨hx, ht⟩ := trunc_half h
    have hle : trunc x + 1 ≤ intMax := by
      have : (trunc x : K) < (intMax : K) := by linarith
      have : trunc x < intMax := by exact_mod_cast this
      omega
    have ok1 := toInt_ok h1 hmax
    have ok2 : toInt (x + 1 / 2) () = .ok (trunc x + 1) () := by
      rw [toInt_ok (by rw [ht]; omega) (by rw [ht]; exact hle), ht]
    have := abs_lt.mp hb.1
    refine ⟨trunc x + 1, by omega, hle, ?_, ?_, ?_, ?_⟩
    · simp only [nearest, M.bind_apply, ok1, fsub, id, gt_iff_lt, h, if_true, fadd, ok2, M.pure_apply]
    · simp only [fraction, M.bind_apply, ok1, fsub, id, gt_iff_lt, h, if_true, fadd, ok2, M.pure_apply]
      congr 1; ring
    · push_cast; rw [abs_lt]; constructor <;> linarith
    · intro _; push_cast; rw [abs_le]; constructor <;> linarith
  · have ok1 := toInt_ok h1 hmax
    refine ⟨trunc x, h1, hmax, ?_, ?_, hb.1, ?_⟩
    · simp only [nearest, M.bind_apply, ok1, fsub, id, gt_iff_lt, h, if_false, M.pure_apply]
    · simp only [fraction, M.bind_apply, ok1, fsub, id, gt_iff_lt, h, if_false, M.pure_apply]
    · intro hx
      have := hb.2.1 hx
      rw [abs_of_nonneg (by linarith)]
      linarith

theorem nearest_ub {x : K} (h : (intMax : K) + 1 / 2 < x) : nearest id x () = .ub .precond := by
  by_cases ht : intMin ≤ trunc x ∧ trunc x ≤ intMax
  · have ht' : (trunc x : K) < x - 1 / 2 := by
      have : (trunc x : K) ≤ intMax := by exact_mod_cast ht.2
      linarith
    obtain ⟨hx, he⟩ := trunc_half ht'
    have ub : toInt (x + 1 / 2) () = .ub .precond := by
      apply toInt_ub
      rintro ⟨-, h2⟩
      rw [trunc_of_nonneg (by linarith)] at h2
      have h3 := Int.lt_floor_add_one (x + 1 / 2)
      have h4 : ((⌊x + 1 / 2⌋ : ℤ) : K) ≤ intMax := by exact_mod_cast h2
      linarith
    simp only [nearest, M.bind_apply, toInt_ok ht.1 ht.2, fsub, id, gt_iff_lt, ht', if_true, fadd, ub]
  · simp only [nearest, M.bind_apply, toInt_ub ht]

theorem exp_val {x : K} (h1 : intMin ≤ trunc x) (h2 : x ≤ (intMax : K) + 1 / 2) :
    ∃ n : ℤ, intMin ≤ n ∧ n ≤ intMax ∧ nearest id x () = .ok (n : K) () ∧ |x - n| < 1 ∧
      (n ≠ intMin →
        exp id x () = .ok (mE id ^ n * ∑ k ∈ Finset.range 8, (x - n) ^ k / (Nat.factorial k : K)) ()) := by
  obtain ⟨n, a1, a2, a3, a4, a5, -⟩ := nearest_fraction h1 h2
  refine ⟨n, a1, a2, a3, a5, fun hne => ?_⟩
  have ok : toInt (n : K) () = .ok n () := by
    have := trunc_int (K := K) n
    rw [toInt_ok (by omega) (by omega), this]
  have hE : mE (id : K → K) ≠ 0 := by simp [mE]
  simp only [exp, M.bind_apply, a3, ok, pow_zpow (mE id) (by omega) a2 (fun _ => hE), a4, expHelper_val,
    M.pure_apply, fmul, id]
end

theorem mE_near : mE id ≤ Real.exp 1 ∧ Real.exp 1 * (1 - 1 / 1000000000000000) ≤ mE id := by
  have h := Real.exp_one_near_20
  rw [abs_le] at h
  have h1 := h.1
  have h2 := h.2
  simp only [mE, id]
  norm_num at h1 h2 ⊢
  constructor <;> linarith

/-- A power of a number slightly below one. -/
theorem zpow_near {q : ℝ} (h0 : 0 < q) (h1 : q ≤ 1) (h2 : 1 - 1 / 1000000000000000 ≤ q) {n : ℤ}
    (hn : |n| ≤ 1000001) : |q ^ n - 1| ≤ 1 / 100000000 := by
  have hb : ∀ k : ℕ, k ≤ 1000001 → 1 - 1 / 900000000 ≤ q ^ k ∧ q ^ k ≤ 1 := by
    intro k hk
    refine ⟨?_, pow_le_one₀ h0.le h1⟩
    have := one_add_mul_le_pow (a := q - 1) (by linarith) k
    have e : 1 + (q - 1) = q := by ring
    rw [e] at this
    have hk' : (k : ℝ) ≤ 1000001 := by exact_mod_cast hk
    have hk0 : (0 : ℝ) ≤ k := by positivity
    nlinarith
  obtain ⟨k, rfl | rfl⟩ := Int.eq_nat_or_neg n
  · obtain ⟨b1, b2⟩ := hb k (by rw [abs_of_nonneg (by omega)] at hn; omega)
    rw [zpow_natCast, abs_le]
    constructor <;> linarith
  · obtain ⟨b1, b2⟩ := hb k (by rw [abs_neg, abs_of_nonneg (by omega)] at hn; omega)
    have hp : 0 < q ^ k := pow_pos h0 _
    rw [zpow_neg, zpow_natCast, abs_le]
    have i1 : 1 ≤ (q ^ k)⁻¹ := (one_le_inv₀ hp).mpr b2
    have i2 : (q ^ k)⁻¹ ≤ 1 + 1 / 100000000 := by
      rw [inv_le_comm₀ hp (by norm_num)]
      refine le_trans ?_ b1
      norm_num
    constructor <;> linarith

theorem exp_near {x : ℝ} (hx : |x| ≤ 1000000) :
    ∃ v, exp id x () = .ok v () ∧ |v - Real.exp x| ≤ 1 / 10000 * Real.exp x := by
  rw [abs_le] at hx
  have ht := abs_lt.mp (trunc_bounds x).1
  have t1 : intMin ≤ trunc x := by
    have : ((intMin : ℤ) : ℝ) ≤ (trunc x : ℝ) := by simp only [intMin]; push_cast; linarith
    exact_mod_cast this
  obtain ⟨n, a1, a2, -, a4, a5⟩ := exp_val t1 (by simp only [intMax]; push_cast; linarith : x ≤ (intMax : ℝ) + 1 / 2)
  have hr := abs_lt.mp a4
  have hn : |n| ≤ 1000001 := by
    rw [abs_le]
    constructor
    · have : ((-1000001 : ℤ) : ℝ) ≤ (n : ℝ) := by push_cast; linarith
      exact_mod_cast this
    · have : (n : ℝ) ≤ ((1000001 : ℤ) : ℝ) := by push_cast; linarith
      exact_mod_cast this
  have hne : n ≠ intMin := by
    rintro rfl
    rw [abs_le] at hn; simp only [intMin] at hn; omega
  refine ⟨_, a5 hne, ?_⟩
  set r := x - n with hrdef
  have hb := Real.exp_bound (x := r) a4.le (n := 8) (by norm_num)
  set P := ∑ k ∈ Finset.range 8, r ^ k / (Nat.factorial k : ℝ) with hP
  have hr8 : |r| ^ 8 ≤ 1 := pow_le_one₀ (abs_nonneg _) a4.le
  have hb' : |Real.exp r - P| ≤ 28 / 1000000 := by
    refine hb.trans ?_
    have e : (((8 : ℕ).succ : ℝ) / ((Nat.factorial 8 : ℕ) * (8 : ℕ))) = 9 / 322560 := by
      norm_num [Nat.factorial]
    rw [e]; nlinarith
  have her : (36 / 100 : ℝ) ≤ Real.exp r := by
    have h1 := Real.exp_neg_one_gt_d9
    have h2 : Real.exp (-1) ≤ Real.exp r := Real.exp_le_exp.mpr hr.1.le
    norm_num at h1 ⊢
    linarith
  have her0 := Real.exp_pos r
  have hPr : |P / Real.exp r - 1| ≤ 8 / 100000 := by
    rw [show P / Real.exp r - 1 = -(Real.exp r - P) / Real.exp r by field_simp; ring, abs_div, abs_neg,
      abs_of_pos her0, div_le_iff₀ her0]
    linarith
  obtain ⟨e1, e2⟩ := mE_near
  have he := Real.exp_pos 1
  have hEp : 0 < mE (id : ℝ → ℝ) := by simp only [mE, id]; norm_num
  have hq := zpow_near (q := mE id / Real.exp 1) (by positivity) ((div_le_one he).mpr e1)
    ((le_div_iff₀ he).mpr (by linarith)) hn
  have hx' : Real.exp x = Real.exp 1 ^ n * Real.exp r := by
    rw [← Real.rpow_intCast, Real.exp_one_rpow, ← Real.exp_add]; congr 1; rw [hrdef]; ring
  have hz : mE id ^ n = Real.exp 1 ^ n * (mE id / Real.exp 1) ^ n := by
    rw [div_zpow, mul_div_cancel₀]
    exact (zpow_pos he n).ne'
  have hexp : mE id ^ n * P = Real.exp x * ((mE id / Real.exp 1) ^ n * (P / Real.exp r)) := by
    rw [hz, hx']; field_simp
  rw [hexp]
  set A := (mE id / Real.exp 1) ^ n
  set B := P / Real.exp r
  rw [show Real.exp x * (A * B) - Real.exp x = Real.exp x * (A * B - 1) by ring, abs_mul,
    abs_of_pos (Real.exp_pos x), mul_comm]
  apply mul_le_mul_of_nonneg_right _ (Real.exp_pos x).le
  rw [abs_le] at hq hPr ⊢
  constructor <;> nlinarith

/-! ### log -/

theorem logHelper2_val {K : Type} [Field K] [LinearOrder K] [IsStrictOrderedRing K] [FloorRing K] (y : K) :
    logHelper2 id y () = .ok (∑ k ∈ Finset.range 6, 2 * (1 / (2 * (k : K) + 1)) * y ^ (2 * k + 1)) () := by
  simp only [logHelper2, M.bind_apply, pow_lit y (by norm_num : (0 : ℤ) ≤ 3),
    pow_lit y (by norm_num : (0 : ℤ) ≤ 5), pow_lit y (by norm_num : (0 : ℤ) ≤ 7),
    pow_lit y (by norm_num : (0 : ℤ) ≤ 9), pow_lit y (by norm_num : (0 : ℤ) ≤ 11),
    fdiv_ok (by norm_num : (3 : K) ≠ 0),
    fdiv_ok (by norm_num : (5 : K) ≠ 0), fdiv_ok (by norm_num : (7 : K) ≠ 0),
    fdiv_ok (by norm_num : (9 : K) ≠ 0), fdiv_ok (by norm_num : (11 : K) ≠ 0),
    M.pure_apply, fadd, fmul, id]
  congr 1
  simp [Finset.sum_range_succ]
  norm_num
  ring

theorem atanh_tail {y : ℝ} (hy : |y| ≤ 52 / 100) :
    |(∑ k ∈ Finset.range 6, 2 * (1 / (2 * (k : ℝ) + 1)) * y ^ (2 * k + 1)) -
      (Real.log (1 + y) - Real.log (1 - y))| ≤ 43 / 1000000 := by
  have hs := Real.hasSum_log_sub_log_of_abs_lt_one (x := y) (by linarith)
  set f : ℕ → ℝ := fun k => 2 * (1 / (2 * (k : ℝ) + 1)) * y ^ (2 * k + 1) with hf
  set S := Real.log (1 + y) - Real.log (1 - y)
  have ht : HasSum (fun k => f (k + 6)) (S - ∑ k ∈ Finset.range 6, f k) :=
    (hasSum_nat_add_iff' 6).mpr hs
  have hy2 : y ^ 2 ≤ 2704 / 10000 := by
    rw [← sq_abs]; nlinarith [abs_nonneg y]
  have hg : HasSum (fun k : ℕ => 2 / 13 * |y| ^ 13 * (y ^ 2) ^ k) (2 / 13 * |y| ^ 13 * (1 - y ^ 2)⁻¹) :=
    (hasSum_geometric_of_lt_one (sq_nonneg y) (by linarith)).mul_left _
  have hle : ‖∑' k, f (k + 6)‖ ≤ 2 / 13 * |y| ^ 13 * (1 - y ^ 2)⁻¹ := by
    refine tsum_of_norm_bounded hg (fun k => ?_)
    rw [Real.norm_eq_abs, hf]
    simp only [abs_mul, abs_pow]
    have e : |y| ^ (2 * (k + 6) + 1) = |y| ^ 13 * (y ^ 2) ^ k := by
      rw [← sq_abs, ← pow_mul, ← pow_add]; congr 1; omega
    rw [e, abs_of_pos (by positivity : (0 : ℝ) < 1 / (2 * ((k + 6 : ℕ) : ℝ) + 1)), abs_of_pos (by norm_num : (0 : ℝ) < 2)]
    have h13 : 1 / (2 * ((k + 6 : ℕ) : ℝ) + 1) ≤ 1 / 13 := by
      apply one_div_le_one_div_of_le (by norm_num)
      push_cast; nlinarith [(Nat.cast_nonneg k : (0 : ℝ) ≤ k)]
    have hpos : 0 ≤ |y| ^ 13 * (y ^ 2) ^ k := by positivity
    nlinarith
  rw [ht.tsum_eq, Real.norm_eq_abs, abs_sub_comm] at hle
  refine hle.trans ?_
  have p13 : |y| ^ 13 ≤ (52 / 100) ^ 13 := pow_le_pow_left₀ (abs_nonneg _) hy 13
  have inv : (1 - y ^ 2)⁻¹ ≤ 10000 / 7296 := by
    rw [inv_le_comm₀ (by linarith) (by norm_num)]; norm_num; linarith
  have inv0 : 0 ≤ (1 - y ^ 2)⁻¹ := by rw [inv_nonneg]; linarith
  calc 2 / 13 * |y| ^ 13 * (1 - y ^ 2)⁻¹ ≤ 2 / 13 * (52 / 100) ^ 13 * (10000 / 7296) := by
        apply mul_le_mul (by linarith) inv inv0 (by positivity)
    _ ≤ 43 / 1000000 := by norm_num

theorem log_ten_near : |Real.log 10 - 23025851 / 10000000| ≤ 1 / 100000000 := by
  have a1 := Real.log_two_gt_d9
  have a2 := Real.log_two_lt_d9
  have a3 := Real.log_five_gt_d9
  have a4 := Real.log_five_lt_d9
  rw [Real.log_ten_eq, abs_le]
  norm_num at a1 a2 a3 a4 ⊢
  constructor <;> linarith

theorem log_near {x : ℝ} (hx : 0 < x) :
    ∃ v, Gives (fun fuel => log id fuel x) (LogRes.val v) ∧
      |v - Real.log x| ≤ 12 / 10000 + |Real.log x| / 100000000 := by
  obtain ⟨e, m, m1, m2, hm, ⟨N1, g1⟩, ⟨N2, g2⟩⟩ := decimal hx
  have hm0 : 0 < m := by linarith
  obtain ⟨s, s0, s1, s2, N3, g3⟩ := sqrt_val hm0
  have hsb : |(s - 1) / (s + 1)| ≤ 52 / 100 := by
    have hr1 : 1 ≤ Real.sqrt m := Real.one_le_sqrt.mpr m1
    have hr2 : Real.sqrt m ≤ 3163 / 1000 := by
      rw [Real.sqrt_le_left (by norm_num)]; norm_num; linarith
    rw [abs_le] at s2
    rw [abs_div, abs_of_pos (by linarith : 0 < s + 1), div_le_iff₀ (by linarith), abs_le]
    constructor <;> nlinarith
  set y := (s - 1) / (s + 1) with hy
  have hlog : Real.log (1 + y) - Real.log (1 - y) = Real.log s := by
    rw [abs_le] at hsb
    rw [← Real.log_div (by linarith) (by linarith)]
    congr 1
    rw [hy]; field_simp; ring
  have htail := atanh_tail hsb
  rw [hlog] at htail
  set L := ∑ k ∈ Finset.range 6, 2 * (1 / (2 * (k : ℝ) + 1)) * y ^ (2 * k + 1) with hL
  refine ⟨2 * L + 23025851 / 10000000 * (e : ℝ), ⟨max N1 (max N2 N3), fun fuel hf => ?_⟩, ?_⟩
  · have f1 := g1 fuel (le_trans (le_max_left _ _) hf)
    have f2 := g2 fuel (le_trans (le_trans (le_max_left _ _) (le_max_right _ _)) hf)
    have f3 := g3 fuel (le_trans (le_trans (le_max_right _ _) (le_max_right _ _)) hf)
    have hs1 : s + 1 ≠ 0 := by linarith
    simp only [log, hx.ne', if_false, not_lt.mpr hx.le, M.bind_apply, f1, f2, f3, logHelper, fsub, fadd, id,
      fdiv_ok hs1, logHelper2_val, M.pure_apply, fmul]
    rw [hL]
  · have hlm : |2 * Real.log s - Real.log m| ≤ 1002 / 1000000 := by
      have hq : 2 * Real.log s - Real.log m = -Real.log (m / s ^ 2) := by
        rw [Real.log_div hm0.ne' (by positivity), Real.log_pow]; push_cast; ring
      rw [hq, abs_neg]
      rw [abs_lt] at s1
      have hs2 : 0 < s ^ 2 := by positivity
      have q1 : m / s ^ 2 ≤ 1 + 1 / 1000 := by rw [div_le_iff₀ hs2]; linarith
      have q2 : 1 - 1 / 1000 ≤ m / s ^ 2 := by rw [le_div_iff₀ hs2]; linarith
      have q0 : 0 < m / s ^ 2 := by positivity
      rw [abs_le]
      constructor
      · have h1 := Real.one_sub_inv_le_log_of_pos q0
        have h2 : (m / s ^ 2)⁻¹ ≤ 1 + 1002 / 1000000 := by
          rw [inv_le_comm₀ q0 (by norm_num)]
          refine le_trans ?_ q2
          norm_num
        linarith
      · have := Real.log_le_sub_one_of_pos q0
        linarith
    have hlx : Real.log x = Real.log m + e * Real.log 10 := by
      rw [hm, Real.log_mul hm0.ne' (by positivity), Real.log_zpow]
    have l10 := log_ten_near
    have hlogm0 : 0 ≤ Real.log m := Real.log_nonneg m1
    have hlogm1 : Real.log m ≤ Real.log 10 := Real.log_le_log hm0 m2.le
    have he : |(e : ℝ)| ≤ |Real.log x| + 2 := by
      have h2 : 2 ≤ Real.log 10 := by rw [abs_le] at l10; linarith
      have h3 : Real.log 10 ≤ 3 := by rw [abs_le] at l10; linarith
      have h1 : |(e : ℝ)| * Real.log 10 ≤ |Real.log x| + 3 := by
        have : (e : ℝ) * Real.log 10 = Real.log x - Real.log m := by rw [hlx]; ring
        rw [← abs_of_pos (by linarith : 0 < Real.log 10), ← abs_mul, this]
        refine (abs_sub _ _).trans ?_
        rw [abs_of_nonneg hlogm0]; linarith
      nlinarith [abs_nonneg (e : ℝ), abs_nonneg (Real.log x)]
    have herr : |(e : ℝ) * (23025851 / 10000000 - Real.log 10)| ≤ (|Real.log x| + 2) * (1 / 100000000) := by
      rw [abs_mul]
      apply mul_le_mul he _ (abs_nonneg _) (by positivity)
      rw [abs_sub_comm]; exact l10
    rw [abs_le] at htail hlm herr ⊢
    constructor <;> linarith

end Cest.Cmath
