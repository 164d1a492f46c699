import Verif.Ieee.Cosh
import Verif.Ieee.Log

/-! `pow`, `exp`, `floor` and `ceil` over all values of `double`. -/
namespace Cest.Ieee
open Cest.Cmath (FM IsDouble RoundsToNearest)
open D Classical
open Cest.Fp (u u_pos u_lt)

variable {ρ : ℝ → ℝ}

/-! ### `floor` and `ceil` -/

theorem toInt_range {x : ℝ} {i : ℤ} (h : Cmath.toInt x () = .ok i ()) : |x| ≤ 2147483649 ∧ i = Cmath.trunc x := by
  unfold Cmath.toInt at h
  split at h
  · rename_i hc
    have hi : i = Cmath.trunc x := by cases h; rfl
    refine ⟨?_, hi⟩
    have hb := abs_lt.mp (Cmath.trunc_bounds x).1
    have h1 : ((Cmath.intMin : ℤ) : ℝ) ≤ Cmath.trunc x := by exact_mod_cast hc.1
    have h2 : (Cmath.trunc x : ℝ) ≤ ((Cmath.intMax : ℤ) : ℝ) := by exact_mod_cast hc.2
    simp only [Cmath.intMin, Cmath.intMax] at h1 h2
    push_cast at h1 h2
    rw [abs_le]; constructor <;> linarith
  · cases h

theorem toInt_or (x : ℝ) : (∃ i, Cmath.toInt x () = .ok i ()) ∨ Cmath.toInt x () = .ub .precond := by
  unfold Cmath.toInt
  split
  · exact Or.inl ⟨_, rfl⟩
  · exact Or.inr rfl

theorem floor_fin (hr : RoundsToNearest ρ) {A : D} {x : ℝ} (hA : Is A x) : floor ρ A () = Cmath.floor ρ x () := by
  have hl := lim_big
  norm_num at hl
  rw [floor, Cmath.floor, hA.toInt]
  rcases toInt_or x with ⟨i, h⟩ | h
  · obtain ⟨h1, -⟩ := toInt_range h
    rw [M.bind_of_ok h, M.bind_of_ok h]
    have hs : Is (sub ρ A (fin 1)) (ρ (x - 1)) := hA.sub hr (is_fin 1) (by
      rw [abs_le] at h1; rw [abs_lt]; constructor <;> linarith)
    rw [hs.toInt]
    have e1 := (is_fin (i : ℝ)).eq hA
    have e2 := hA.lt (is_fin 0)
    by_cases hc : (i : ℝ) ≠ x ∧ x < 0
    · rw [if_pos hc, if_pos ⟨fun hcc => hc.1 (e1.mp hcc), e2.mpr hc.2⟩]; rfl
    · rw [if_neg hc, if_neg (fun hcc => hc ⟨fun hh => hcc.1 (e1.mpr hh), e2.mp hcc.2⟩)]
  · rw [M.bind_apply, M.bind_apply, h]

theorem ceil_fin (hr : RoundsToNearest ρ) {A : D} {x : ℝ} (hA : Is A x) : ceil ρ A () = Cmath.ceil ρ x () := by
  have hl := lim_big
  norm_num at hl
  rw [ceil, Cmath.ceil, hA.toInt]
  rcases toInt_or x with ⟨i, h⟩ | h
  · obtain ⟨h1, -⟩ := toInt_range h
    rw [M.bind_of_ok h, M.bind_of_ok h]
    have hs : Is (add ρ A (fin 1)) (ρ (x + 1)) := hA.add hr (is_fin 1) (by
      rw [abs_le] at h1; rw [abs_lt]; constructor <;> linarith)
    rw [hs.toInt]
    have e1 := (is_fin (i : ℝ)).eq hA
    have e2 := (is_fin 0).lt hA
    by_cases hc : (i : ℝ) ≠ x ∧ 0 < x
    · rw [if_pos hc, if_pos ⟨fun hcc => hc.1 (e1.mp hcc), e2.mpr hc.2⟩]; rfl
    · rw [if_neg hc, if_neg (fun hcc => hc ⟨fun hh => hcc.1 (e1.mpr hh), e2.mp hcc.2⟩)]
  · rw [M.bind_apply, M.bind_apply, h]

theorem toInt_special {A : D} (h : ¬ A.Finite) : toInt A () = .ub .precond := by
  rcases trichotomy A with rfl | rfl | rfl | ⟨x, hx⟩
  · rfl
  · rfl
  · rfl
  · exact absurd hx.1 h

/-! ### `pow` -/

theorem isDouble_pow2 {n : ℕ} (h : n ≤ 1023) : IsDouble ((2 : ℝ) ^ n) := by
  rcases le_total n 971 with h1 | h1
  · exact isDouble_two_pow h1
  · refine ⟨2 ^ (n - 971), 971, ?_, ?_, by norm_num, by norm_num⟩
    · push_cast
      rw [show (2 : ℝ) ^ n = 2 ^ (n - 971) * 2 ^ 971 by rw [← pow_add]; congr 1; omega]
      congr 1
    · rw [abs_of_pos (by positivity)]
      exact pow_lt_pow_right₀ (by norm_num) (by omega)

theorem powNN_succ (b : D) {k : ℕ} (h : 1 ≤ k) : powNN ρ b (k + 1) = mul ρ b (powNN ρ b k) := by
  obtain ⟨j, rfl⟩ : ∃ j, k = j + 1 := ⟨k - 1, by omega⟩
  rfl

theorem pow2_small (hr : RoundsToNearest ρ) : ∀ n : ℕ, n ≤ 1023 → powNN ρ (fin 2) n = fin (2 ^ n)
  | 0, _ => by simp [powNN]
  | 1, _ => by simp [powNN]
  | n + 2, h => by
    rw [powNN, pow2_small hr (n + 1) (by omega)]
    have e : (2 : ℝ) * 2 ^ (n + 1) = 2 ^ (n + 2) := by ring
    have hi : Is (mul ρ (fin 2) (fin (2 ^ (n + 1)))) (ρ (2 * 2 ^ (n + 1))) := (is_fin 2).mul (is_fin _) (by
      rw [e, abs_of_pos (by positivity)]
      exact lt_lim (pow_le_pow_right₀ (by norm_num) h))
    rw [e, hr.exact (isDouble_pow2 h)] at hi
    exact hi.eq_fin (by positivity)

theorem pow2_big (hr : RoundsToNearest ρ) (k : ℕ) : powNN ρ (fin 2) (1024 + k) = inf false := by
  induction k with
  | zero =>
    rw [add_zero, show (1024 : ℕ) = 1023 + 1 by norm_num, powNN_succ _ (by norm_num), pow2_small hr 1023 le_rfl, mul_fin (is_fin 2).1 (is_fin _).1]
    have e : (fin 2).val * (fin (2 ^ 1023)).val = 2 ^ 1024 := by
      show (2 : ℝ) * 2 ^ 1023 = 2 ^ 1024
      rw [← pow_succ']
    rw [e, pack_over, sign_pos (is_fin 2) (by norm_num), sign_pos (is_fin _) (by positivity)]
    · rfl
    · rw [abs_of_pos (by positivity)]
      unfold lim
      exact sub_le_self _ (by positivity)
  | succ k ih =>
    rw [← add_assoc, powNN_succ _ (by omega), ih, mul_inf (is_fin 2) (by norm_num), sign_pos (is_fin 2) (by norm_num)]; rfl

/-! ### the argument reduction of `exp` -/

theorem reduce_all (hr : RoundsToNearest ρ) {A : D} {x : ℝ} (hA : Is A x) (hx1 : -2147483648 < x)
    (hx2 : x ≤ 2147483647 + 1 / 2) :
    ∃ (n : ℤ) (r : ℝ) (R : D), nearest ρ A () = .ok (ofInt n) () ∧ fraction ρ A () = .ok R () ∧ Bd R r 1 ∧
      Cmath.nearest ρ x () = .ok (n : ℝ) () ∧ Cmath.fraction ρ x () = .ok r () ∧ |n| ≤ 2147483647 ∧
      (7095 / 10 < x → IsDouble x → 710 ≤ n) ∧ (x ≤ -710 → n ≤ -710) ∧ (x ≤ 7095 / 10 → n ≤ 709) ∧
      (-710 < x → -709 ≤ n) := by
  have hl := lim_big
  norm_num at hl
  have hu1 := u_lt
  norm_num at hu1
  have hb := Cmath.trunc_bounds x
  have ht := abs_lt.mp hb.1
  have t1 : -2147483647 ≤ Cmath.trunc x := by
    rcases le_total 0 x with h | h
    · rw [Cmath.trunc_of_nonneg h]
      exact le_trans (by norm_num) (Int.floor_nonneg.mpr h)
    · rw [Cmath.trunc_of_nonpos h]
      have : (-2147483648 : ℤ) < ⌈x⌉ := Int.lt_ceil.mpr (by push_cast; exact hx1)
      omega
  have t2 : Cmath.trunc x ≤ 2147483647 := by
    rcases le_total 0 x with h | h
    · rw [Cmath.trunc_of_nonneg h]
      have : ⌊x⌋ < 2147483648 := Int.floor_lt.mpr (by push_cast; linarith)
      omega
    · rw [Cmath.trunc_of_nonpos h]
      exact (Int.ceil_le.mpr (by push_cast; exact h) : ⌈x⌉ ≤ 0).trans (by norm_num)
  have ok1 : Cmath.toInt x () = .ok (Cmath.trunc x) () :=
    Cmath.toInt_ok (by simp only [Cmath.intMin]; omega) (by simp only [Cmath.intMax]; omega)
  have hone : IsDouble (1 : ℝ) := isDouble_one
  have hi : IsDouble ((Cmath.trunc x : ℤ) : ℝ) := Cmath.isDouble_int (by rw [abs_lt]; constructor <;> omega)
  have hsub : Is (sub ρ A (fin (1 / 2))) (ρ (x - 1 / 2)) := hA.sub hr (is_fin _) (by rw [abs_lt]; constructor <;> linarith)
  have hadd : Is (add ρ A (fin (1 / 2))) (ρ (x + 1 / 2)) := hA.add hr (is_fin _) (by rw [abs_lt]; constructor <;> linarith)
  have hlt : lt (ofInt (Cmath.trunc x)) (sub ρ A (fin (1 / 2))) ↔ (Cmath.trunc x : ℝ) < ρ (x - 1 / 2) :=
    (is_fin _).lt hsub
  have up : 710 ≤ x → 710 ≤ Cmath.trunc x := fun h => by
    rw [Cmath.trunc_of_nonneg (by linarith)]
    exact Int.le_floor.mpr (by push_cast; exact h)
  have down : x ≤ -710 → Cmath.trunc x ≤ -710 := fun h => by
    rw [Cmath.trunc_of_nonpos (by linarith)]
    exact Int.ceil_le.mpr (by push_cast; exact h)
  by_cases h : (Cmath.trunc x : ℝ) < ρ (x - 1 / 2)
  · have h' : (Cmath.trunc x : ℝ) < x - 1 / 2 := by
      by_contra hc
      exact absurd (hr.le_of_le hi (not_lt.mp hc)) (not_le.mpr h)
    obtain ⟨hx0, -⟩ := Cmath.trunc_half h'
    have t3 : Cmath.trunc x < 2147483647 := by
      have : (Cmath.trunc x : ℝ) < ((2147483647 : ℤ) : ℝ) := by push_cast; linarith
      exact_mod_cast this
    have d1 : IsDouble (((Cmath.trunc x + 1 : ℤ)) : ℝ) := Cmath.isDouble_int (by rw [abs_lt]; constructor <;> omega)
    have d2 : IsDouble (((2 * Cmath.trunc x + 3 : ℤ) : ℝ) / 2) := Fp.isDouble_half_int (by rw [abs_lt]; constructor <;> omega)
    have l1 := hr.ge_of_ge d1 (x := x + 1 / 2) (by push_cast; linarith)
    have l2 := hr.le_of_le d2 (x := x + 1 / 2) (by push_cast; linarith)
    push_cast at l1 l2
    have htr : Cmath.trunc (ρ (x + 1 / 2)) = Cmath.trunc x + 1 := by
      have h0 : (0 : ℝ) ≤ Cmath.trunc x := by
        rw [Cmath.trunc_of_nonneg hx0]
        exact_mod_cast Int.floor_nonneg.mpr hx0
      rw [Cmath.trunc_of_nonneg (by linarith), Int.floor_eq_iff]
      push_cast
      constructor <;> linarith
    have ok2 : Cmath.toInt (ρ (x + 1 / 2)) () = .ok (Cmath.trunc x + 1) () := by
      rw [Cmath.toInt_ok (by rw [htr]; simp only [Cmath.intMin]; omega) (by rw [htr]; simp only [Cmath.intMax]; omega), htr]
    have hlt' : |((Cmath.trunc x + 1 : ℤ) : ℝ) - x| < 1 := by
      push_cast; rw [abs_lt]; constructor <;> linarith
    have hl' := abs_lt.mp hlt'
    have hR : Is (sub ρ (ofInt (Cmath.trunc x + 1)) A) (ρ (((Cmath.trunc x + 1 : ℤ) : ℝ) - x)) :=
      (is_fin _).sub hr hA (by linarith)
    refine ⟨Cmath.trunc x + 1, -ρ (((Cmath.trunc x + 1 : ℤ) : ℝ) - x), _, ?_, ?_, ⟨hR.neg, ?_⟩, ?_, ?_, ?_, ?_, ?_, ?_, ?_⟩
    · rw [nearest, hA.toInt, M.bind_of_ok ok1, if_pos (hlt.mpr h), hadd.toInt, M.bind_of_ok ok2]; rfl
    · rw [fraction, hA.toInt, M.bind_of_ok ok1, if_pos (hlt.mpr h), hadd.toInt, M.bind_of_ok ok2]; rfl
    · rw [abs_neg]
      have a1 := hr.le_of_le hone (x := ((Cmath.trunc x + 1 : ℤ) : ℝ) - x) (by linarith)
      have a2 := hr.ge_of_ge hone.neg (x := ((Cmath.trunc x + 1 : ℤ) : ℝ) - x) (by linarith)
      rw [abs_le]; exact ⟨a2, a1⟩
    · rw [Cmath.nearest]
      refine (M.bind_of_ok ok1).trans ?_
      refine (congrFun (if_pos h) _).trans ?_
      exact (M.bind_of_ok ok2).trans rfl
    · rw [Cmath.fraction]
      refine (M.bind_of_ok ok1).trans ?_
      refine (congrFun (if_pos h) _).trans ?_
      exact (M.bind_of_ok ok2).trans rfl
    · rw [abs_le]; constructor <;> omega
    · intro hh _
      have : 709 ≤ Cmath.trunc x := by
        rw [Cmath.trunc_of_nonneg hx0]
        exact Int.le_floor.mpr (by push_cast; linarith)
      omega
    · intro hh; linarith
    · intro hh
      have : (Cmath.trunc x : ℝ) < ((709 : ℤ) : ℝ) := by push_cast; linarith
      have : Cmath.trunc x < (709 : ℤ) := by exact_mod_cast this
      omega
    · intro _
      have : 0 ≤ Cmath.trunc x := by
        rw [Cmath.trunc_of_nonneg hx0]
        exact Int.floor_nonneg.mpr hx0
      omega
  · have hlt' : |x - ((Cmath.trunc x : ℤ) : ℝ)| < 1 := hb.1
    have hR : Is (sub ρ A (ofInt (Cmath.trunc x))) (ρ (x - (Cmath.trunc x : ℝ))) := hA.sub hr (is_fin _) (by linarith)
    refine ⟨Cmath.trunc x, ρ (x - (Cmath.trunc x : ℝ)), _, ?_, ?_, ⟨hR, ?_⟩, ?_, ?_, ?_, ?_, down, ?_, ?_⟩
    · rw [nearest, hA.toInt, M.bind_of_ok ok1, if_neg (fun hc => h (hlt.mp hc)), M.bind_of_ok ok1]; rfl
    · rw [fraction, hA.toInt, M.bind_of_ok ok1, if_neg (fun hc => h (hlt.mp hc)), M.bind_of_ok ok1]; rfl
    · have a1 := hr.le_of_le hone (x := x - (Cmath.trunc x : ℝ)) (by linarith)
      have a2 := hr.ge_of_ge hone.neg (x := x - (Cmath.trunc x : ℝ)) (by linarith)
      rw [abs_le]; exact ⟨a2, a1⟩
    · rw [Cmath.nearest]
      refine (M.bind_of_ok ok1).trans ?_
      refine (congrFun (if_neg h) _).trans ?_
      exact (M.bind_of_ok ok1).trans rfl
    · rw [Cmath.fraction]
      refine (M.bind_of_ok ok1).trans ?_
      refine (congrFun (if_neg h) _).trans ?_
      exact (M.bind_of_ok ok1).trans rfl
    · rw [abs_le]; constructor <;> omega
    · intro hh hd
      by_cases h7 : 710 ≤ x
      · exact up h7
      · exfalso
        have e : Cmath.trunc x = 709 := by
          rw [Cmath.trunc_of_nonneg (by linarith), Int.floor_eq_iff]
          push_cast
          constructor <;> linarith
        obtain ⟨k, hk⟩ := Fp.grid hd (k := 9) (by rw [abs_of_pos (by linarith)]; norm_num; linarith)
        have ek : (2 : ℝ) ^ (9 - 52 : ℤ) = 1 / 2 ^ 43 := by rw [show (9 - 52 : ℤ) = -43 by norm_num, zpow_neg]; norm_num
        have d3 : IsDouble (x - 1 / 2) := by
          refine ⟨k - 2 ^ 42, -43, ?_, ?_, by norm_num, by norm_num⟩
          · rw [hk, ek, zpow_neg]; push_cast; norm_num; ring
          · rw [ek] at hk
            have k1 : ((709 * 2 ^ 43 : ℤ) : ℝ) < k := by push_cast; norm_num at hk ⊢; linarith
            have k2 : (k : ℝ) < ((710 * 2 ^ 43 : ℤ) : ℝ) := by push_cast; norm_num at hk ⊢; linarith
            have k1' : (709 * 2 ^ 43 : ℤ) < k := by exact_mod_cast k1
            have k2' : k < (710 * 2 ^ 43 : ℤ) := by exact_mod_cast k2
            norm_num at k1' k2' ⊢
            rw [abs_lt]; constructor <;> omega
        rw [hr.exact d3, e] at h
        push_cast at h
        linarith
    · intro hh
      rcases le_total 0 x with h0 | h0
      · rw [Cmath.trunc_of_nonneg h0]
        have : ⌊x⌋ < 710 := Int.floor_lt.mpr (by push_cast; linarith)
        omega
      · rw [Cmath.trunc_of_nonpos h0]
        exact (Int.ceil_le.mpr (by push_cast; exact h0) : ⌈x⌉ ≤ 0).trans (by norm_num)
    · intro hh
      rcases le_total 0 x with h0 | h0
      · rw [Cmath.trunc_of_nonneg h0]
        exact le_trans (by norm_num) (Int.floor_nonneg.mpr h0)
      · rw [Cmath.trunc_of_nonpos h0]
        have : (-710 : ℤ) < ⌈x⌉ := Int.lt_ceil.mpr (by push_cast; exact hh)
        omega

theorem toInt_ofInt {n : ℤ} (h : |n| ≤ 2147483647) : toInt (ofInt n) () = .ok n () := by
  rw [abs_le] at h
  have ht : Cmath.trunc (n : ℝ) = n := Cmath.trunc_int n
  show Cmath.toInt (n : ℝ) () = _
  rw [Cmath.toInt_ok (by rw [ht]; simp only [Cmath.intMin]; omega) (by rw [ht]; simp only [Cmath.intMax]; omega), ht]

theorem expHelper_pos (hr : RoundsToNearest ρ) {A : D} {r : ℝ} (hb : Bd A r 1) :
    ∃ H h, expHelper ρ A () = .ok H () ∧ Cmath.expHelper ρ r () = .ok h () ∧ Bd H h 1000 ∧ 0 < h := by
  have hu1 := u_lt
  norm_num at hu1
  obtain ⟨H, h, g1, g2, g3⟩ := expHelper_sim hr hb
  refine ⟨H, h, g1, g2, g3, ?_⟩
  have d2 := hb.2
  obtain ⟨h', gh, hh⟩ := Fp.expHelper_fp hr d2
  rw [g2] at gh
  cases gh
  have hb := Real.exp_bound d2 (n := 8) (by norm_num)
  have hr8 : |r| ^ 8 ≤ 1 := pow_le_one₀ (abs_nonneg _) d2
  have hb' : |Real.exp r - ∑ k ∈ Finset.range 8, r ^ k / (Nat.factorial k : ℝ)| ≤ 28 / 1000000 := by
    refine hb.trans ?_
    have : ((Nat.succ 8 : ℕ) : ℝ) / ((Nat.factorial 8 : ℕ) * (8 : ℕ)) ≤ 28 / 1000000 := by
      norm_num [Nat.factorial]
    calc |r| ^ 8 * (((Nat.succ 8 : ℕ) : ℝ) / ((Nat.factorial 8 : ℕ) * (8 : ℕ)))
        ≤ 1 * (28 / 1000000) := mul_le_mul hr8 this (by positivity) (by norm_num)
      _ = 28 / 1000000 := one_mul _
  generalize ∑ k ∈ Finset.range 8, r ^ k / (Nat.factorial k : ℝ) = P at hh hb'
  have er1 : 36 / 100 ≤ Real.exp r := by
    have h1 : Real.exp (-1) ≤ Real.exp r := Real.exp_le_exp.mpr (abs_le.mp d2).1
    have h2 : Real.exp (-1) = (Real.exp 1)⁻¹ := Real.exp_neg 1
    have h3 := Real.exp_one_lt_d9
    have h4 : (36 : ℝ) / 100 ≤ (Real.exp 1)⁻¹ := by
      rw [le_inv_comm₀ (by norm_num) (Real.exp_pos 1)]
      norm_num at h3 ⊢; linarith
    linarith
  rw [abs_le] at hh hb'
  linarith

/-! ### the power of e -/

theorem mE_bounds (hr : RoundsToNearest ρ) : 2 ≤ Cmath.mE ρ ∧ Cmath.mE ρ ≤ 3 := by
  obtain ⟨h1, h2⟩ := Fp.mE_fp hr
  have h3 := Real.exp_one_gt_d9
  have h4 := Real.exp_one_lt_d9
  norm_num at h1 h2 h3 h4
  constructor <;> nlinarith

theorem powE_le (hr : RoundsToNearest ρ) {k : ℕ} (hk : k ≤ 701) : 0 < Cmath.powNN ρ (Cmath.mE ρ) k ∧
    Cmath.powNN ρ (Cmath.mE ρ) k ≤ 2 ^ 1012 * 2 := by
  obtain ⟨p, h1, h2⟩ := Fp.pow_mE_fp hr (n := k) (by rw [abs_of_nonneg (by positivity)]; omega)
  rw [Fp.pow_nonneg_ok _ (by positivity)] at h1
  have e : p = Cmath.powNN ρ (Cmath.mE ρ) k := by cases h1; simp
  rw [← e]
  have he := Real.exp_pos ((k : ℤ) : ℝ)
  norm_num at h2
  rw [abs_le] at h2
  have hb : Real.exp ((k : ℤ) : ℝ) ≤ 2 ^ 1012 := by
    have := Fp.exp_le_big hk
    rw [← Real.exp_nat_mul] at this
    simpa using this
  have e2 : p = Real.exp ((k : ℤ) : ℝ) * (p / Real.exp ((k : ℤ) : ℝ)) := by field_simp
  simp only [Int.cast_natCast] at *
  constructor
  · rw [e2]; exact mul_pos he (by linarith)
  · rw [e2]; exact mul_le_mul hb (by linarith) (by linarith) (by positivity)

theorem powE_is (hr : RoundsToNearest ρ) : ∀ k : ℕ, k ≤ 701 → Is (powNN ρ (mE ρ) k) (Cmath.powNN ρ (Cmath.mE ρ) k)
  | 0, _ => is_fin 1
  | 1, _ => is_fin _
  | k + 2, h => by
    obtain ⟨b1, b2⟩ := mE_bounds hr
    obtain ⟨c1, c2⟩ := powE_le hr (k := k + 1) (by omega)
    refine (is_fin _).mul (powE_is hr (k + 1) (by omega)) (lt_lim ?_)
    rw [abs_of_pos (mul_pos (by linarith) c1)]
    have : Cmath.mE ρ * Cmath.powNN ρ (Cmath.mE ρ) (k + 1) ≤ 3 * (2 ^ 1012 * 2) := mul_le_mul b2 c2 c1.le (by norm_num)
    refine this.trans ?_
    rw [show (1023 : ℕ) = 1012 + 11 by norm_num, pow_add, mul_left_comm]
    exact mul_le_mul_of_nonneg_left (by norm_num) (by positivity)

/-- The powers grow at least as fast as those of a slightly smaller number, until they overflow. -/
theorem powE_lower (hr : RoundsToNearest ρ) : ∀ k : ℕ,
    powNN ρ (mE ρ) k = inf false ∨ ∃ w, Is (powNN ρ (mE ρ) k) w ∧ IsDouble w ∧ 1 ≤ w ∧ (Cmath.mE ρ * (1 - u)) ^ k ≤ w
  | 0 => Or.inr ⟨1, is_fin 1, isDouble_one, le_rfl, by simp⟩
  | 1 => by
    obtain ⟨b1, b2⟩ := mE_bounds hr
    have hu := u_pos
    refine Or.inr ⟨_, is_fin _, hr.double _, by show (1 : ℝ) ≤ Cmath.mE ρ; linarith, ?_⟩
    rw [pow_one]
    show _ ≤ Cmath.mE ρ
    nlinarith
  | k + 2 => by
    obtain ⟨b1, b2⟩ := mE_bounds hr
    have hu := u_pos
    have hu1 := u_lt
    norm_num at hu1
    rcases powE_lower hr (k + 1) with h | ⟨w, h, hd, w1, hw⟩
    · left
      rw [powNN, h, mE, mul_inf (is_fin _) (by linarith), sign_pos (is_fin _) (by linarith)]; rfl
    · rw [powNN]
      have hp : 1 ≤ Cmath.mE ρ * w := by nlinarith
      by_cases ho : |Cmath.mE ρ * w| < lim
      · refine Or.inr ⟨_, (is_fin _).mul h ho, hr.double _, hr.ge_of_ge isDouble_one hp, ?_⟩
        have hp' : (1 : ℝ) / 2 ^ 1022 ≤ |Cmath.mE ρ * w| := by
          rw [abs_of_pos (by linarith)]
          exact le_trans (by rw [div_le_one (by positivity)]; exact one_le_pow₀ (by norm_num)) hp
        have e := rel_err_lim hr hp' ho
        rw [abs_of_pos (by linarith : 0 < Cmath.mE ρ * w), abs_le] at e
        rw [pow_succ]
        have h1 : (Cmath.mE ρ * (1 - u)) ^ (k + 1) * (Cmath.mE ρ * (1 - u)) ≤ w * (Cmath.mE ρ * (1 - u)) :=
          mul_le_mul_of_nonneg_right hw (mul_nonneg (by linarith) (by linarith))
        have h2 : w * (Cmath.mE ρ * (1 - u)) = Cmath.mE ρ * w - u * (Cmath.mE ρ * w) := by ring
        have e1 := e.1
        rw [h2] at h1
        clear ho hp'
        exact h1.trans (by linarith)
      · left
        rw [not_lt] at ho
        have hm : Is (mE ρ) (Cmath.mE ρ) := is_fin _
        rw [mul_fin hm.1 h.1, hm.2, h.2, sign_pos hm (by linarith), sign_pos h (by linarith)]
        exact pack_over ho

theorem e_pow_710 : (2 : ℝ) ^ 1024 ≤ (Real.exp 1 * (1 - 1 / 10 ^ 6)) ^ 710 := by
  have hp : 0 < Real.exp 1 * (1 - 1 / 10 ^ 6) := mul_pos (Real.exp_pos 1) (by norm_num)
  have l2 := Real.log_two_lt_d9
  have l3 : 1 - (1 - 1 / 10 ^ 6 : ℝ)⁻¹ ≤ Real.log (1 - 1 / 10 ^ 6) := Real.one_sub_inv_le_log_of_pos (by norm_num)
  have l4 : Real.log (Real.exp 1 * (1 - 1 / 10 ^ 6)) = 1 + Real.log (1 - 1 / 10 ^ 6) := by
    rw [Real.log_mul (Real.exp_pos 1).ne' (by norm_num), Real.log_exp]
  rw [← Real.log_le_log_iff (pow_pos two_pos _) (pow_pos hp _), Real.log_pow, Real.log_pow, l4]
  generalize Real.log (1 - 1 / 10 ^ 6) = L at *
  push_cast
  norm_num at l2 l3
  linarith

theorem powE_710 (hr : RoundsToNearest ρ) : powNN ρ (mE ρ) 710 = inf false := by
  rcases powE_lower hr 710 with h | ⟨w, -, hd, w1, hw⟩
  · exact h
  · exfalso
    have hu := u_pos
    have hu1 := u_lt
    norm_num at hu1
    have hb := (mE_bounds hr).1
    have he := Real.exp_pos 1
    have h1 : Real.exp 1 * (1 - 1 / 10 ^ 6) ≤ Cmath.mE ρ * (1 - u) := by
      clear hw
      obtain ⟨E1, -⟩ := Fp.mE_fp hr
      have hm := mul_le_mul E1 (show 1 - 1 / 10 ^ 14 ≤ 1 - u by norm_num; linarith) (by norm_num) (by linarith)
      refine le_trans ?_ hm
      rw [mul_assoc]
      exact mul_le_mul_of_nonneg_left (by norm_num) he.le
    have h2 := pow_le_pow_left₀ (mul_nonneg he.le (by norm_num)) h1 710
    have h4 := isDouble_lt hd
    rw [abs_of_pos (lt_of_lt_of_le one_pos w1)] at h4
    have h5 : (2 : ℝ) ^ 1024 - 2 ^ 971 < 2 ^ 1024 := sub_lt_self _ (by positivity)
    exact absurd (e_pow_710.trans (h2.trans hw)) (not_le.mpr (lt_of_le_of_lt h4 h5))

theorem powE_big (hr : RoundsToNearest ρ) (k : ℕ) : powNN ρ (mE ρ) (710 + k) = inf false := by
  obtain ⟨b1, b2⟩ := mE_bounds hr
  induction k with
  | zero => exact powE_710 hr
  | succ k ih =>
    rw [← add_assoc, powNN_succ _ (by omega), ih, mE, mul_inf (is_fin _) (by linarith), sign_pos (is_fin _) (by linarith)]; rfl

/-! ### `exp` -/

theorem int_ok {i : ℤ} (h : |i| ≤ 2147483647) : Cmath.int i () = .ok i () := by
  rw [abs_le] at h
  rw [Cmath.int, if_pos (by simp only [Cmath.intMin, Cmath.intMax]; omega)]; rfl

theorem exp_special {A : D} (h : ¬ A.Finite) : exp ρ A () = .ub .precond := by
  rw [exp, M.bind_apply, nearest, M.bind_apply, toInt_special h]

theorem exp_overflow (hr : RoundsToNearest ρ) {A : D} {x : ℝ} (hA : Is A x) (hv : Valid A) (h1 : 7095 / 10 < x)
    (h2 : x ≤ 2147483647 + 1 / 2) : exp ρ A () = .ok (inf false) () := by
  obtain ⟨n, r, R, g1, g2, g3, -, -, hn, up, -⟩ := reduce_all hr hA (by linarith) h2
  obtain ⟨H, h, k1, -, k3, k4⟩ := expHelper_pos hr g3
  obtain ⟨k, rfl⟩ : ∃ k : ℕ, n = ((710 + k : ℕ) : ℤ) := ⟨(n - 710).toNat, by have := up h1 (hA.double hv); omega⟩
  have e : pow ρ (mE ρ) ((710 + k : ℕ) : ℤ) () = .ok (inf false) () := by
    rw [pow_ok _ (by positivity), Int.toNat_natCast, powE_big hr]
  rw [exp, M.bind_of_ok g1, M.bind_of_ok (toInt_ofInt hn), M.bind_of_ok e, M.bind_of_ok g2, M.bind_of_ok k1,
    inf_mul k3.1 k4.ne', sign_pos k3.1 k4]
  rfl

theorem exp_underflow (hr : RoundsToNearest ρ) {A : D} {x : ℝ} (hA : Is A x) (h1 : x ≤ -710) (h2 : -2147483648 < x) :
    exp ρ A () = .ok (fin 0) () := by
  obtain ⟨n, r, R, g1, g2, g3, -, -, hn, -, down, -⟩ := reduce_all hr hA h2 (by linarith)
  obtain ⟨H, h, k1, -, k3, k4⟩ := expHelper_pos hr g3
  have hd := down h1
  obtain ⟨k, hk⟩ : ∃ k : ℕ, -n = ((710 + k : ℕ) : ℤ) := ⟨(-n - 710).toNat, by omega⟩
  have e : pow ρ (mE ρ) n () = .ok (fin 0) () := by
    rw [pow, if_pos (by omega), M.bind_of_ok (int_ok (by rw [abs_neg]; exact hn)), hk, Int.toNat_natCast, powE_big hr]
    have : div ρ (fin 1) (inf false) = fin 0 := by
      simp [D.div, D.sign, D.zero]
    rw [this]; rfl
  rw [exp, M.bind_of_ok g1, M.bind_of_ok (toInt_ofInt hn), M.bind_of_ok e, M.bind_of_ok g2, M.bind_of_ok k1]
  have : mul ρ (fin 0) H = fin 0 := by
    rw [mul_fin (is_fin 0).1 k3.1.1, sign_pos k3.1 k4]
    have e0 : (fin 0).val * H.val = 0 := by show (0 : ℝ) * _ = 0; ring
    have es : (fin 0).sign = false := by simp [D.sign]
    rw [e0, es]
    have hl := lim_big
    unfold pack
    rw [if_neg (by rw [abs_zero, not_le]; exact lt_trans (by norm_num) hl), round_zero hr]
    simp [D.zero]
  rw [this]; rfl

end Cest.Ieee
