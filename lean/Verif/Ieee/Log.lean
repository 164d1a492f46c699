import Verif.Ieee.Values
import Verif.Fp.Log
import Verif.Fp.Exp

/-! `log` and the power series over all values of `double`. -/
namespace Cest.Ieee
open Cest.Cmath (FM IsDouble RoundsToNearest)
open D Classical
open Cest.Fp (u u_pos u_lt)

variable {ρ : ℝ → ℝ}

theorem D.Is.eq_fin {a : D} {x : ℝ} (h : Is a x) (h0 : x ≠ 0) : a = fin x := by
  rcases h.cases with ⟨-, h1⟩ | h1
  · exact absurd h1 h0
  · exact h1

theorem pow_ok (A : D) {k : ℤ} (h : 0 ≤ k) : pow ρ A k () = .ok (powNN ρ A k.toNat) () := by
  rw [pow, if_neg (not_lt.mpr h)]; rfl

/-- Powers of a number in `[-1, 1]` stay there. -/
theorem pow_bd (hr : RoundsToNearest ρ) {A : D} {y : ℝ} (h : Bd A y 1) : ∀ k : ℕ,
    Bd (powNN ρ A k) (Cmath.powNN ρ y k) 1
  | 0 => ⟨is_fin 1, by simp [Cmath.powNN]⟩
  | 1 => h
  | k + 2 => by
    have ih := pow_bd hr h (k + 1)
    have e : |y * Cmath.powNN ρ y (k + 1)| ≤ 1 := by
      rw [abs_mul]
      exact mul_le_one₀ h.2 (abs_nonneg _) ih.2
    have hl := lim_big
    norm_num at hl
    refine ⟨h.1.mul ih.1 (by linarith), ?_⟩
    rw [Cmath.powNN, Cmath.fmul, abs_le]
    exact ⟨hr.ge_of_ge (by simpa using isDouble_one.neg) (abs_le.mp e).1, hr.le_of_le isDouble_one (abs_le.mp e).2⟩

theorem term_bd (hr : RoundsToNearest ρ) {A : D} {y : ℝ} (h : Bd A y 1) (k : ℕ) {c : ℝ} (hc : 1 ≤ c) :
    Bd (div ρ (powNN ρ A k) (fin c)) (ρ (Cmath.powNN ρ y k / c)) 1 := by
  have h1 := pow_bd hr h k
  have hl := lim_big
  norm_num at hl
  have e : |Cmath.powNN ρ y k / c| ≤ 1 := by
    rw [abs_div, abs_of_pos (by linarith : 0 < c)]
    exact div_le_one_of_le₀ (h1.2.trans hc) (by linarith)
  refine ⟨h1.1.div (is_fin c) (by linarith) (by linarith), ?_⟩
  rw [abs_le]
  exact ⟨hr.ge_of_ge (by simpa using isDouble_one.neg) (abs_le.mp e).1, hr.le_of_le isDouble_one (abs_le.mp e).2⟩

/-- Both computations return, with the same value, at most `B` in absolute value. -/
def Sim (d : FM D) (k : FM ℝ) (B : ℝ) : Prop := ∃ V v, d () = .ok V () ∧ k () = .ok v () ∧ Bd V v B

theorem logHelper2_sim (hr : RoundsToNearest ρ) {A : D} {y : ℝ} (h : Bd A y 1) :
    Sim (logHelper2 ρ A) (Cmath.logHelper2 ρ y) 376 := by
  have hl := lim_big
  norm_num at hl
  have t3 := term_bd hr h 3 (c := 3) (by norm_num)
  have t5 := term_bd hr h 5 (c := 5) (by norm_num)
  have t7 := term_bd hr h 7 (c := 7) (by norm_num)
  have t9 := term_bd hr h 9 (c := 9) (by norm_num)
  have t11 := term_bd hr h 11 (c := 11) (by norm_num)
  have s := ((((h.add hr t3 (by linarith)).add hr t5 (by linarith)).add hr t7 (by linarith)).add hr t9
    (by linarith)).add hr t11 (by linarith)
  have two : Bd (fin 2) 2 2 := ⟨is_fin 2, by norm_num⟩
  refine ⟨_, _, ?_, ?_, (two.mul hr s (by linarith)).weaken (by norm_num)⟩
  · simp only [logHelper2, M.bind_apply, pow_ok A (show (0 : ℤ) ≤ 3 by norm_num), pow_ok A (show (0 : ℤ) ≤ 5 by norm_num),
      pow_ok A (show (0 : ℤ) ≤ 7 by norm_num), pow_ok A (show (0 : ℤ) ≤ 9 by norm_num),
      pow_ok A (show (0 : ℤ) ≤ 11 by norm_num), M.pure_apply]
    rfl
  · simp only [Cmath.logHelper2, M.bind_apply, Fp.pow_nonneg_ok y (show (0 : ℤ) ≤ 3 by norm_num),
      Fp.pow_nonneg_ok y (show (0 : ℤ) ≤ 5 by norm_num), Fp.pow_nonneg_ok y (show (0 : ℤ) ≤ 7 by norm_num),
      Fp.pow_nonneg_ok y (show (0 : ℤ) ≤ 9 by norm_num), Fp.pow_nonneg_ok y (show (0 : ℤ) ≤ 11 by norm_num),
      Cmath.fdiv_ok (show (3 : ℝ) ≠ 0 by norm_num), Cmath.fdiv_ok (show (5 : ℝ) ≠ 0 by norm_num),
      Cmath.fdiv_ok (show (7 : ℝ) ≠ 0 by norm_num), Cmath.fdiv_ok (show (9 : ℝ) ≠ 0 by norm_num),
      Cmath.fdiv_ok (show (11 : ℝ) ≠ 0 by norm_num), M.pure_apply]
    rfl

theorem expHelper_sim (hr : RoundsToNearest ρ) {A : D} {y : ℝ} (h : Bd A y 1) :
    Sim (expHelper ρ A) (Cmath.expHelper ρ y) 1000 := by
  have hl := lim_big
  norm_num at hl
  have one : Bd (fin 1) 1 1 := ⟨is_fin 1, by norm_num⟩
  have t2 := term_bd hr h 2 (c := 2) (by norm_num)
  have t3 := term_bd hr h 3 (c := 6) (by norm_num)
  have t4 := term_bd hr h 4 (c := 24) (by norm_num)
  have t5 := term_bd hr h 5 (c := 120) (by norm_num)
  have t6 := term_bd hr h 6 (c := 720) (by norm_num)
  have t7 := term_bd hr h 7 (c := 5040) (by norm_num)
  have s := ((((((one.add hr h (by linarith)).add hr t2 (by linarith)).add hr t3 (by linarith)).add hr t4
    (by linarith)).add hr t5 (by linarith)).add hr t6 (by linarith)).add hr t7 (by linarith)
  refine ⟨_, _, ?_, ?_, s.weaken (by norm_num)⟩
  · simp only [expHelper, M.bind_apply, pow_ok A (show (0 : ℤ) ≤ 2 by norm_num), pow_ok A (show (0 : ℤ) ≤ 3 by norm_num),
      pow_ok A (show (0 : ℤ) ≤ 4 by norm_num), pow_ok A (show (0 : ℤ) ≤ 5 by norm_num),
      pow_ok A (show (0 : ℤ) ≤ 6 by norm_num), pow_ok A (show (0 : ℤ) ≤ 7 by norm_num), M.pure_apply]
    rfl
  · simp only [Cmath.expHelper, M.bind_apply, Fp.pow_nonneg_ok y (show (0 : ℤ) ≤ 2 by norm_num),
      Fp.pow_nonneg_ok y (show (0 : ℤ) ≤ 3 by norm_num), Fp.pow_nonneg_ok y (show (0 : ℤ) ≤ 4 by norm_num),
      Fp.pow_nonneg_ok y (show (0 : ℤ) ≤ 5 by norm_num), Fp.pow_nonneg_ok y (show (0 : ℤ) ≤ 6 by norm_num),
      Fp.pow_nonneg_ok y (show (0 : ℤ) ≤ 7 by norm_num),
      Cmath.fdiv_ok (show (2 : ℝ) ≠ 0 by norm_num), Cmath.fdiv_ok (show (6 : ℝ) ≠ 0 by norm_num),
      Cmath.fdiv_ok (show (24 : ℝ) ≠ 0 by norm_num), Cmath.fdiv_ok (show (120 : ℝ) ≠ 0 by norm_num),
      Cmath.fdiv_ok (show (720 : ℝ) ≠ 0 by norm_num), Cmath.fdiv_ok (show (5040 : ℝ) ≠ 0 by norm_num), M.pure_apply]
    rfl

theorem logHelper_sim (hr : RoundsToNearest ρ) {A : D} {s : ℝ} (hA : Is A s) (s1 : 99 / 100 ≤ s) (s2 : s ≤ 3165 / 1000) :
    Sim (logHelper ρ A) (Cmath.logHelper ρ s) 376 := by
  have hu1 := u_lt
  norm_num at hu1
  have hl := lim_big
  norm_num at hl
  have e1 := Fp.err hr (x := s - 1) (B := 3) (by rw [abs_le]; constructor <;> linarith) (by norm_num) (by norm_num)
  have e2 := Fp.err hr (x := s + 1) (B := 5) (by rw [abs_le]; constructor <;> linarith) (by norm_num) (by norm_num)
  rw [abs_le] at e1 e2
  have h1 : Is (sub ρ A (fin 1)) (ρ (s - 1)) := hA.sub hr (is_fin 1) (by rw [abs_lt]; constructor <;> linarith)
  have h2 : Is (add ρ A (fin 1)) (ρ (s + 1)) := hA.add hr (is_fin 1) (by rw [abs_lt]; constructor <;> linarith)
  have h0 : 0 < ρ (s + 1) := by linarith
  have q : |ρ (s - 1) / ρ (s + 1)| ≤ 1 := by
    rw [abs_div, abs_of_pos h0, div_le_one h0, abs_le]; constructor <;> linarith
  have h3 : Bd (div ρ (sub ρ A (fin 1)) (add ρ A (fin 1))) (ρ (ρ (s - 1) / ρ (s + 1))) 1 := by
    refine ⟨h1.div h2 h0.ne' (by linarith), ?_⟩
    rw [abs_le]
    exact ⟨hr.ge_of_ge (by simpa using isDouble_one.neg) (abs_le.mp q).1, hr.le_of_le isDouble_one (abs_le.mp q).2⟩
  obtain ⟨V, v, g1, g2, g3⟩ := logHelper2_sim hr h3
  refine ⟨V, v, g1, ?_, g3⟩
  rw [Cmath.logHelper]
  exact (M.bind_of_ok (Cmath.fdiv_ok h0.ne')).trans g2

/-! ### the decimal decomposition -/

theorem tenth_pos (hr : RoundsToNearest ρ) : 0 < ρ (1 / 10) ∧ ρ (1 / 10) ≤ 1 := by
  have hu1 := u_lt
  norm_num at hu1
  have e1 := Fp.err hr (x := 1 / 10) (B := 1) (by norm_num) (by norm_num) (by norm_num)
  rw [abs_le] at e1
  exact ⟨by linarith, by linarith⟩

theorem step_down (hr : RoundsToNearest ρ) {A : D} {x : ℝ} (hA : Is A x) (hv : Valid A) (h : 10 ≤ x) :
    Is (mul ρ A (fin (ρ (1 / 10)))) (ρ (x * ρ (1 / 10))) ∧ 0 < ρ (x * ρ (1 / 10)) := by
  obtain ⟨t0, t1⟩ := tenth_pos hr
  have hu1 := u_lt
  norm_num at hu1
  have e1 := Fp.err hr (x := 1 / 10) (B := 1) (by norm_num) (by norm_num) (by norm_num)
  rw [abs_le] at e1
  have hx := isDouble_lt_lim (hA.double hv)
  rw [abs_of_pos (by linarith)] at hx
  have h2 : 1 / 2 ≤ x * ρ (1 / 10) := by
    have := mul_le_mul h (show 9 / 100 ≤ ρ (1 / 10) by linarith) (by norm_num) (by linarith)
    linarith
  refine ⟨hA.mul (is_fin _) ?_, ?_⟩
  · rw [abs_of_pos (by linarith)]
    exact lt_of_le_of_lt (mul_le_of_le_one_right (by linarith) t1) hx
  · refine lt_of_lt_of_le (by norm_num : (0 : ℝ) < 1 / 2) (hr.ge_of_ge ⟨1, -1, by norm_num, by norm_num, by norm_num, by norm_num⟩ h2)

theorem step_up (hr : RoundsToNearest ρ) {A : D} {x : ℝ} (hA : Is A x) (hv : Valid A) (h0 : 0 < x) (h : x < 1) :
    Is (mul ρ A (fin 10)) (ρ (x * 10)) ∧ 0 < ρ (x * 10) := by
  have hl := lim_big
  norm_num at hl
  exact ⟨hA.mul (is_fin _) (by rw [abs_of_pos (by linarith)]; linarith),
    lt_of_lt_of_le h0 (hr.ge_of_ge (hA.double hv) (by linarith))⟩

theorem mantissa_ref (hr : RoundsToNearest ρ) (fuel : ℕ) : ∀ (A : D) (x m : ℝ), Is A x → Valid A → 0 < x →
    Cmath.mantissa ρ fuel x () = .ok m () → mantissa ρ fuel A () = .ok (fin m) () := by
  induction fuel with
  | zero => intro A x m _ _ _ h; simp [Cmath.mantissa, M.timeout] at h
  | succ n ih =>
    intro A x m hA hv h0 h
    rw [Cmath.mantissa] at h
    rw [mantissa]
    by_cases h10 : 10 ≤ x
    · rw [if_pos h10] at h
      rw [if_pos (((is_fin 10).le hA).mpr h10)]
      obtain ⟨s1, s2⟩ := step_down hr hA hv h10
      exact ih _ _ _ s1 (valid_mul hr) s2 h
    · rw [if_neg h10] at h
      rw [if_neg (fun hc => h10 (((is_fin 10).le hA).mp hc))]
      by_cases h1 : x < 1
      · rw [if_pos h1] at h
        rw [if_pos ((hA.lt (is_fin 1)).mpr h1)]
        obtain ⟨s1, s2⟩ := step_up hr hA hv h0 h1
        exact ih _ _ _ s1 (valid_mul hr) s2 h
      · rw [if_neg h1] at h
        rw [if_neg (fun hc => h1 ((hA.lt (is_fin 1)).mp hc))]
        cases h
        rw [← hA.eq_fin h0.ne']; rfl

theorem exponent_ref (hr : RoundsToNearest ρ) (fuel : ℕ) : ∀ (A : D) (x : ℝ) (e : ℤ), Is A x → Valid A → 0 < x →
    exponentHelper ρ fuel A e () = Cmath.exponentHelper ρ fuel x e () := by
  induction fuel with
  | zero => intro A x e _ _ _; rfl
  | succ n ih =>
    intro A x e hA hv h0
    rw [Cmath.exponentHelper, exponentHelper]
    by_cases h10 : 10 ≤ x
    · rw [if_pos h10, if_pos (((is_fin 10).le hA).mpr h10)]
      obtain ⟨s1, s2⟩ := step_down hr hA hv h10
      exact ih _ _ _ s1 (valid_mul hr) s2
    · rw [if_neg h10, if_neg (fun hc => h10 (((is_fin 10).le hA).mp hc))]
      by_cases h1 : x < 1
      · rw [if_pos h1, if_pos ((hA.lt (is_fin 1)).mpr h1)]
        obtain ⟨s1, s2⟩ := step_up hr hA hv h0 h1
        exact ih _ _ _ s1 (valid_mul hr) s2
      · rw [if_neg h1, if_neg (fun hc => h1 ((hA.lt (is_fin 1)).mp hc))]

/-- `log` of a positive finite double. -/
theorem log_value (hr : RoundsToNearest ρ) {A : D} {x : ℝ} (hA : Is A x) (hv : Valid A) (h0 : 0 < x) :
    ∃ V v, Is V v ∧ Cmath.Gives (fun fuel => log ρ fuel A) V ∧
      |v - Real.log x| ≤ 12 / 10000 + |Real.log x| / 100000000 := by
  have hx := hA.double hv
  obtain ⟨v, ⟨N, hN⟩, hb⟩ := Fp.log_fp hr hx h0
  obtain ⟨e, m, he, m1, m2, -, -, -, g1, g2⟩ := Fp.decimal_depth' hr hx h0
  have hT := Fp.T_ge
  norm_num at hT
  obtain ⟨R, r, hR, r0, r1, ⟨N1, k1⟩, ⟨N2, k2⟩⟩ := sqrt_small hr (is_fin m)
    (le_trans (one_div_le_one_div_of_le one_pos (one_le_pow₀ (by norm_num))) (by rwa [one_div_one])) (by linarith)
  have s1' := abs_le.mp r1
  have sl : 99 / 100 ≤ r := by nlinarith
  have sh : r ≤ 3165 / 1000 := by nlinarith
  obtain ⟨L, l, g3, g4, hL⟩ := logHelper_sim hr hR sl sh
  have hl := lim_big
  norm_num at hl
  have he' : |(e : ℝ)| ≤ 358 := by exact_mod_cast he
  have two : Bd (fin 2) 2 2 := ⟨is_fin 2, by norm_num⟩
  have hc : Bd (fin (ρ (23025851 / 10000000))) (ρ (23025851 / 10000000)) 6 := by
    refine ⟨is_fin _, (Fp.abs_le_two hr _).trans ?_⟩
    rw [abs_of_pos (by norm_num)]; norm_num
  have hE : Bd (ofInt e) e 358 := ⟨is_fin _, he'⟩
  have hV := (two.mul hr hL (by linarith)).add hr (hc.mul hr hE (by linarith)) (by linarith)
  have hval : v = ρ (ρ (2 * l) + ρ (ρ (23025851 / 10000000) * e)) := by
    set F := max (max N 359) N1 with hF
    have f0 : Cmath.log ρ F x () = .ok (Cmath.LogRes.val v) () := hN F ((le_max_left _ _).trans (le_max_left _ _))
    have f1 := g1 F ((le_max_right _ _).trans (le_max_left _ _))
    have f2 := g2 F ((le_max_right _ _).trans (le_max_left _ _))
    have f3 : Cmath.sqrt ρ F m () = .ok r () := k1 F (le_max_right _ _)
    simp only [Cmath.log, h0.ne', if_false, not_lt.mpr h0.le] at f0
    rw [M.bind_of_ok f1, M.bind_of_ok f3, M.bind_of_ok g4, M.bind_of_ok f2] at f0
    cases f0
    rfl
  refine ⟨_, v, hval ▸ hV.1, ⟨max 359 N2, fun fuel hf => ?_⟩, hb⟩
  have f1 := mantissa_ref hr fuel A x m hA hv h0 (g1 fuel ((le_max_left _ _).trans hf))
  have f2 : exponent ρ fuel A () = .ok e () := by
    rw [exponent, exponent_ref hr fuel A x 0 hA hv h0]
    exact g2 fuel ((le_max_left _ _).trans hf)
  have f3 : sqrt ρ fuel (fin m) () = .ok R () := k2 fuel ((le_max_right _ _).trans hf)
  simp only [log]
  rw [if_neg (fun hc => h0.ne' ((hA.eq (is_fin 0)).mp hc)), if_neg (fun hc => not_le.mpr ((hA.lt (is_fin 0)).mp hc) h0.le),
    M.bind_of_ok f1, M.bind_of_ok f3, M.bind_of_ok g3, M.bind_of_ok f2]
  rfl

/-! ### the special arguments -/

theorem log_nan (fuel : ℕ) : log ρ fuel nan () = .timeout := by
  simp only [log]
  rw [if_neg (by simp [D.eq]), if_neg (by simp [D.lt])]
  cases fuel with
  | zero => rfl
  | succ n =>
    have : mantissa ρ (n + 1) nan () = .ok nan () := by
      rw [mantissa, if_neg (by simp [D.le]), if_neg (by simp [D.lt])]; rfl
    rw [M.bind_of_ok this]
    simp only [M.bind_apply, sqrt_nan]

theorem mantissa_inf (hr : RoundsToNearest ρ) (fuel : ℕ) : mantissa ρ fuel (inf false) () = .timeout := by
  obtain ⟨t0, -⟩ := tenth_pos hr
  induction fuel with
  | zero => rfl
  | succ n ih =>
    rw [mantissa, if_pos ⟨by simp, by simp, by simp [D.ext]⟩, inf_mul (is_fin _) t0.ne', sign_pos (is_fin _) t0]
    exact ih

theorem log_inf (hr : RoundsToNearest ρ) (fuel : ℕ) : log ρ fuel (inf false) () = .timeout := by
  simp only [log]
  rw [if_neg (by simp [D.eq, D.ext]), if_neg not_pinf_lt]
  simp only [M.bind_apply, mantissa_inf hr fuel]

theorem log_zero (fuel : ℕ) {A : D} (hA : Is A 0) : log ρ fuel A () = .ok (inf true) () := by
  simp only [log]
  rw [if_pos ((hA.eq (is_fin 0)).mpr rfl)]
  rfl

theorem log_neg (fuel : ℕ) {A : D} (hA : lt A (fin 0)) : log ρ fuel A () = .ok nan () := by
  simp only [log]
  rw [if_neg (fun hc => absurd hA.2.2 (by rw [hc.2.2]; exact lt_irrefl _)), if_pos hA]
  rfl

end Cest.Ieee
