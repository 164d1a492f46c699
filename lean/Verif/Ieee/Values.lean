import Verif.Ieee.Trig
import Verif.Fp.Hyp

/-! Where nothing overflows, `sin`, `cos`, `sinh` and `cosh` compute what the model without special values says. -/
namespace Cest.Ieee
open Cest.Cmath (FM IsDouble RoundsToNearest)
open D Classical
open Cest.Fp (u u_pos u_lt)

variable {ρ : ℝ → ℝ}

/-! ### a value together with a bound on it -/

/-- `a` is finite, its value is `x`, and `|x| ≤ B`. -/
def Bd (a : D) (x B : ℝ) : Prop := Is a x ∧ |x| ≤ B

theorem Bd.add (hr : RoundsToNearest ρ) {a b : D} {x y A B : ℝ} (h : Bd a x A) (h' : Bd b y B) (hl : A + B < lim) :
    Bd (D.add ρ a b) (ρ (x + y)) (2 * (A + B)) := by
  have h1 : |x + y| ≤ A + B := (abs_add_le x y).trans (add_le_add h.2 h'.2)
  exact ⟨h.1.add hr h'.1 (lt_of_le_of_lt h1 hl), (Fp.abs_le_two hr _).trans (by linarith)⟩
theorem Bd.sub (hr : RoundsToNearest ρ) {a b : D} {x y A B : ℝ} (h : Bd a x A) (h' : Bd b y B) (hl : A + B < lim) :
    Bd (D.sub ρ a b) (ρ (x - y)) (2 * (A + B)) := by
  have h1 : |x - y| ≤ A + B := (abs_sub x y).trans (add_le_add h.2 h'.2)
  exact ⟨h.1.sub hr h'.1 (lt_of_le_of_lt h1 hl), (Fp.abs_le_two hr _).trans (by linarith)⟩
theorem Bd.mul (hr : RoundsToNearest ρ) {a b : D} {x y A B : ℝ} (h : Bd a x A) (h' : Bd b y B) (hl : A * B < lim) :
    Bd (D.mul ρ a b) (ρ (x * y)) (2 * (A * B)) := by
  have h1 : |x * y| ≤ A * B := by
    rw [abs_mul]; exact mul_le_mul h.2 h'.2 (abs_nonneg _) ((abs_nonneg _).trans h.2)
  exact ⟨h.1.mul h'.1 (lt_of_le_of_lt h1 hl), (Fp.abs_le_two hr _).trans (by linarith)⟩
theorem Bd.fin {x : ℝ} : Bd (fin x) x |x| := ⟨is_fin x, le_rfl⟩
theorem Bd.weaken {a : D} {x A B : ℝ} (h : Bd a x A) (hb : A ≤ B) : Bd a x B := ⟨h.1, h.2.trans hb⟩
/-- Dividing by a number of absolute value at least one. -/
theorem Bd.div (hr : RoundsToNearest ρ) {a b : D} {x y A : ℝ} (h : Bd a x A) (h' : Is b y) (h1 : 1 ≤ |y|) (hl : A < lim) :
    Bd (D.div ρ a b) (ρ (x / y)) (2 * A) := by
  have h0 : y ≠ 0 := by rintro rfl; simp at h1; linarith
  have h2 : |x / y| ≤ A := by
    rw [abs_div]; exact (div_le_self (abs_nonneg _) h1).trans h.2
  exact ⟨h.1.div h' h0 (lt_of_le_of_lt h2 hl), (Fp.abs_le_two hr _).trans (by linarith)⟩

theorem lim_big : 10 ^ 60 < lim := by
  refine lt_lim ?_
  exact le_trans (by norm_num : (10 : ℝ) ^ 60 ≤ 2 ^ 200) (pow_le_pow_right₀ (by norm_num) (by norm_num))

/-! ### more fuel changes nothing -/

theorem K_sin_mono {n : ℕ} : ∀ {x v : ℝ} {m : ℕ}, Cmath.sinHelper ρ n x () = .ok v () → n ≤ m →
    Cmath.sinHelper ρ m x () = .ok v () := by
  induction n with
  | zero => intro x v m h; simp [Cmath.sinHelper, M.timeout] at h
  | succ n ih =>
    intro x v m h hm
    obtain ⟨k, rfl⟩ : ∃ k, m = k + 1 := ⟨m - 1, by omega⟩
    rw [Cmath.sinHelper] at h ⊢
    split at h
    · rename_i hc; rw [if_pos hc]; exact h
    · rename_i hc
      rw [if_neg hc]
      have hd : Cmath.fdiv ρ x 3 () = .ok (ρ (x / 3)) () := Cmath.fdiv_ok three_ne_zero
      rw [M.bind_of_ok hd] at h ⊢
      cases he : Cmath.sinHelper ρ n (ρ (x / 3)) () with
      | ok a s =>
        rw [M.bind_of_ok he] at h
        rw [M.bind_of_ok (ih he (by omega))]
        cases s
        rw [M.bind_of_ok hd, M.bind_of_ok he] at h
        rw [M.bind_of_ok hd, M.bind_of_ok (ih he (by omega))]
        exact h
      | throw e s => simp [M.bind_apply, he] at h
      | ub w => simp [M.bind_apply, he] at h
      | timeout => simp [M.bind_apply, he] at h

/-- What a run of `sin_helper` that did not stop at once computed. -/
theorem K_sin_inv {n : ℕ} {x v : ℝ} (h : Cmath.sinHelper ρ (n + 1) x () = .ok v ()) (hc : ¬ x < Cmath.tol ρ) :
    ∃ a, Cmath.sinHelper ρ n (ρ (x / 3)) () = .ok a () ∧
      v = ρ (ρ (3 * a) - ρ (4 * ρ (ρ (a * a) * a))) := by
  rw [Cmath.sinHelper, if_neg hc] at h
  have hd : Cmath.fdiv ρ x 3 () = .ok (ρ (x / 3)) () := Cmath.fdiv_ok three_ne_zero
  rw [M.bind_of_ok hd] at h
  cases he : Cmath.sinHelper ρ n (ρ (x / 3)) () with
  | ok a s =>
    rw [M.bind_of_ok he] at h
    cases s
    rw [M.bind_of_ok hd, M.bind_of_ok he] at h
    cases h
    exact ⟨a, rfl, rfl⟩
  | throw e s => simp [M.bind_apply, he] at h
  | ub w => simp [M.bind_apply, he] at h
  | timeout => simp [M.bind_apply, he] at h

theorem K_sinh_inv {n : ℕ} {x v : ℝ} (h : Cmath.sinhHelper ρ (n + 1) x () = .ok v ()) (hc : ¬ x < Cmath.tol ρ) :
    ∃ a, Cmath.sinhHelper ρ n (ρ (x / 3)) () = .ok a () ∧
      v = ρ (ρ (3 * a) + ρ (4 * ρ (ρ (a * a) * a))) := by
  rw [Cmath.sinhHelper, if_neg hc] at h
  have hd : Cmath.fdiv ρ x 3 () = .ok (ρ (x / 3)) () := Cmath.fdiv_ok three_ne_zero
  rw [M.bind_of_ok hd] at h
  cases he : Cmath.sinhHelper ρ n (ρ (x / 3)) () with
  | ok a s =>
    rw [M.bind_of_ok he] at h
    cases s
    rw [M.bind_of_ok hd, M.bind_of_ok he] at h
    cases h
    exact ⟨a, rfl, rfl⟩
  | throw e s => simp [M.bind_apply, he] at h
  | ub w => simp [M.bind_apply, he] at h
  | timeout => simp [M.bind_apply, he] at h

theorem K_sinh_mono {n : ℕ} : ∀ {x v : ℝ} {m : ℕ}, Cmath.sinhHelper ρ n x () = .ok v () → n ≤ m →
    Cmath.sinhHelper ρ m x () = .ok v () := by
  induction n with
  | zero => intro x v m h; simp [Cmath.sinhHelper, M.timeout] at h
  | succ n ih =>
    intro x v m h hm
    obtain ⟨k, rfl⟩ : ∃ k, m = k + 1 := ⟨m - 1, by omega⟩
    by_cases hc : x < Cmath.tol ρ
    · rw [Cmath.sinhHelper, if_pos hc] at h ⊢; exact h
    · obtain ⟨a, ha, rfl⟩ := K_sinh_inv h hc
      have ha := ih ha (by omega : n ≤ k)
      have hd : Cmath.fdiv ρ x 3 () = .ok (ρ (x / 3)) () := Cmath.fdiv_ok three_ne_zero
      rw [Cmath.sinhHelper, if_neg hc, M.bind_of_ok hd, M.bind_of_ok ha, M.bind_of_ok hd, M.bind_of_ok ha]
      rfl

/-! ### sin and cos -/

theorem sin_bound (hr : RoundsToNearest ρ) {x v : ℝ} {n : ℕ} (h0 : 0 ≤ x) (h1 : x ≤ 430)
    (h : Cmath.sinHelper ρ n x () = .ok v ()) : |v| ≤ 2 := by
  obtain ⟨w, ⟨N, hN⟩, hb⟩ := Fp.sinHelper_near hr h0 h1
  have e1 := K_sin_mono h (le_max_left n N)
  have e2 : Cmath.sinHelper ρ (max n N) x () = .ok w () := hN _ (le_max_right n N)
  rw [e1] at e2
  cases e2
  have h3 := Real.abs_sin_le_one x
  rw [abs_le] at hb h3 ⊢
  constructor <;> nlinarith

theorem sin_ref (hr : RoundsToNearest ρ) (n : ℕ) : ∀ (A : D) (x v : ℝ), Is A x → Valid A → 0 ≤ x → x ≤ 430 →
    Cmath.sinHelper ρ n x () = .ok v () → ∃ V, Is V v ∧ sinHelper ρ n A () = .ok V () := by
  have hl := lim_big
  norm_num at hl
  induction n with
  | zero => intro A x v _ _ _ _ h; simp [Cmath.sinHelper, M.timeout] at h
  | succ n ih =>
    intro A x v hA hv h0 h1 h
    by_cases hc : x < Cmath.tol ρ
    · rw [Cmath.sinHelper, if_pos hc] at h
      cases h
      exact ⟨A, hA, sinHelper_stop ((hA.lt (is_fin _)).mpr hc) n⟩
    · obtain ⟨a, ha, rfl⟩ := K_sin_inv h hc
      obtain ⟨t1, t2, t3⟩ := is_third hr hA hv (not_lt.mp hc)
      have ab := sin_bound hr (by linarith) (by linarith) ha
      obtain ⟨V, hV, h4⟩ := ih _ _ _ t1 (valid_div hr) (by linarith) (by linarith) ha
      refine ⟨_, ?_, sinHelper_rec (fun hc' => hc ((hA.lt (is_fin _)).mp hc')) h4⟩
      have bV : Bd V a 2 := ⟨hV, ab⟩
      have b3 : Bd (fin 3) 3 3 := ⟨is_fin 3, by norm_num⟩
      have b4 : Bd (fin 4) 4 4 := ⟨is_fin 4, by norm_num⟩
      have c := ((bV.mul hr bV (by linarith)).mul hr bV (by linarith))
      exact ((b3.mul hr bV (by linarith)).sub hr (b4.mul hr c (by linarith)) (by linarith)).1

theorem sin_value (hr : RoundsToNearest ρ) {A : D} {x v : ℝ} (hA : Is A x) (hv : Valid A) (hx : |x| ≤ 425)
    (h : Cmath.Gives (fun fuel => Cmath.sin ρ fuel x) v) : ∃ V, Is V v ∧ Cmath.Gives (fun fuel => sin ρ fuel A) V := by
  obtain ⟨h1, h2⟩ := is_sinArg hr hA hv
  obtain ⟨⟨w, -, N', hN'⟩, -⟩ := helpers_gives hr h1 h2
  obtain ⟨N, hN⟩ := h
  rw [abs_le] at hx
  obtain ⟨⟨p0, p1⟩, -⟩ := mPi_lt hr
  have hk := hN (max N N') (le_max_left _ _)
  simp only [Cmath.sin] at hk
  have hb : 0 ≤ (if x < 0 then ρ (-x + Cmath.mPi ρ) else x) ∧ (if x < 0 then ρ (-x + Cmath.mPi ρ) else x) ≤ 430 := by
    split
    · refine ⟨hr.ge_of_ge Fp.isDouble_zero (by linarith), hr.le_of_le ?_ (by linarith)⟩
      simpa using Cmath.isDouble_int (K := ℝ) (k := 430) (by norm_num)
    · constructor <;> linarith
  obtain ⟨V, hV, h4⟩ := sin_ref hr _ _ _ v h1 h2 hb.1 hb.2 hk
  have h5 : sinHelper ρ (max N N') _ () = .ok w () := hN' _ (le_max_right N N')
  rw [h4] at h5
  cases h5
  exact ⟨_, hV, N', hN'⟩

theorem cos_value (hr : RoundsToNearest ρ) {A : D} {x v : ℝ} (hA : Is A x) (hv : Valid A) (hx : |x| ≤ 415)
    (h : Cmath.Gives (fun fuel => Cmath.cos ρ fuel x) v) : ∃ V, Is V v ∧ Cmath.Gives (fun fuel => cos ρ fuel A) V := by
  refine sin_value hr (is_cosArg hr hA hv) (valid_add hr) ?_ h
  obtain ⟨-, p0, p1⟩ := mPi_lt hr
  have hd : IsDouble (425 : ℝ) := by simpa using Cmath.isDouble_int (K := ℝ) (k := 425) (by norm_num)
  rw [abs_le] at hx ⊢
  exact ⟨hr.ge_of_ge hd.neg (by linarith), hr.le_of_le hd (by linarith)⟩

/-! ### sinh -/

theorem sinh_bound (hr : RoundsToNearest ρ) {x v : ℝ} {n : ℕ} (h0 : 0 ≤ x) (h1 : x ≤ 702)
    (h : Cmath.sinhHelper ρ n x () = .ok v ()) : ∃ θ, 0 ≤ θ ∧ |θ - x| ≤ 11 / 10 ^ 7 * x ∧ v = Real.sinh θ := by
  obtain ⟨θ, t0, t1, hN⟩ := Fp.sinhHelper_near hr h0 h1
  have e1 := K_sinh_mono h (le_max_left n 21)
  have e2 := hN _ (le_max_right n 21)
  rw [e1] at e2
  cases e2
  exact ⟨θ, t0, t1, rfl⟩

/-- A bound on the values of the recursive calls, opaque so that no tactic evaluates it. -/
@[irreducible] noncomputable def S : ℝ := 2 ^ 339

theorem S_lim : 64 * (S * S * S) < lim ∧ 1 ≤ S := by
  unfold S
  refine ⟨lt_lim ?_, one_le_pow₀ (by norm_num)⟩
  rw [← pow_add, ← pow_add, show (64 : ℝ) = 2 ^ 6 by norm_num, ← pow_add]

theorem sinh_le_S {t : ℝ} (h0 : 0 ≤ t) (h : t ≤ 2349 / 10) : |Real.sinh t| ≤ S := by
  rw [abs_of_nonneg (Real.sinh_nonneg_iff.mpr h0)]
  have h1 : Real.sinh t ≤ Real.exp t := by
    rw [Real.sinh_eq]; have := Real.exp_pos (-t); have := Real.exp_pos t; linarith
  refine h1.trans ?_
  rw [S, ← Real.le_log_iff_exp_le (by positivity), Real.log_pow]
  have := Real.log_two_gt_d9
  push_cast; norm_num at this ⊢; linarith

theorem sinh_ref (hr : RoundsToNearest ρ) (n : ℕ) : ∀ (A : D) (x v : ℝ), Is A x → Valid A → 0 ≤ x → x ≤ 702 →
    Cmath.sinhHelper ρ n x () = .ok v () → ∃ V, Is V v ∧ sinhHelper ρ n A () = .ok V () := by
  obtain ⟨hl, hS⟩ := S_lim
  induction n with
  | zero => intro A x v _ _ _ _ h; simp [Cmath.sinhHelper, M.timeout] at h
  | succ n ih =>
    intro A x v hA hv h0 h1 h
    by_cases hc : x < Cmath.tol ρ
    · rw [Cmath.sinhHelper, if_pos hc] at h
      cases h
      exact ⟨A, hA, sinhHelper_stop ((hA.lt (is_fin _)).mpr hc) n⟩
    · obtain ⟨a, ha, rfl⟩ := K_sinh_inv h hc
      obtain ⟨t1, t2, t3⟩ := is_third hr hA hv (not_lt.mp hc)
      obtain ⟨θ, z0, z1, rfl⟩ := sinh_bound hr (by linarith) (by linarith) ha
      obtain ⟨V, hV, h4⟩ := ih _ _ _ t1 (valid_div hr) (by linarith) (by linarith) ha
      refine ⟨_, ?_, sinhHelper_rec (fun hc' => hc ((hA.lt (is_fin _)).mp hc')) h4⟩
      rw [abs_le] at z1
      have bV : Bd V (Real.sinh θ) S := ⟨hV, sinh_le_S z0 (by norm_num at z1; linarith)⟩
      have b3 : Bd (fin 3) 3 3 := ⟨is_fin 3, by norm_num⟩
      have b4 : Bd (fin 4) 4 4 := ⟨is_fin 4, by norm_num⟩
      have q1 : S ≤ S * S := le_mul_of_one_le_left (by linarith) hS
      have q2 : S * S ≤ S * S * S := le_mul_of_one_le_right (by nlinarith) hS
      have q3 : 0 ≤ S := by linarith
      generalize hW : S * S * S = W at *
      generalize hW' : S * S = W' at *
      have c1 := bV.mul hr bV (by rw [hW']; linarith)
      rw [hW'] at c1
      have c2 := c1.mul hr bV (by rw [mul_assoc, hW]; linarith)
      rw [mul_assoc 2 W' S, hW] at c2
      exact ((b3.mul hr bV (by linarith)).add hr (b4.mul hr c2 (by linarith)) (by linarith)).1

theorem sinh_value (hr : RoundsToNearest ρ) {A : D} {x v : ℝ} (hA : Is A x) (hv : Valid A) (hx : |x| ≤ 702)
    (h : Cmath.Gives (fun fuel => Cmath.sinh ρ fuel x) v) : ∃ V, Is V v ∧ Cmath.Gives (fun fuel => sinh ρ fuel A) V := by
  obtain ⟨N, hN⟩ := h
  rw [abs_le] at hx
  obtain ⟨w, -, N', hN'⟩ := sinh_gives hr hA hv
  have hk : Cmath.sinh ρ (max N N') x () = .ok v () := hN (max N N') (le_max_left _ _)
  have h5 : sinh ρ (max N N') A () = .ok w () := hN' _ (le_max_right N N')
  refine ⟨w, ?_, N', hN'⟩
  unfold Cmath.sinh at hk
  unfold sinh at h5
  by_cases h : x < 0
  · rw [if_pos h] at hk
    rw [if_pos ((hA.lt (is_fin 0)).mpr h)] at h5
    cases he : Cmath.sinhHelper ρ (max N N') (-x) () with
    | ok a s =>
      rw [M.bind_of_ok he] at hk
      cases s
      cases hk
      obtain ⟨V, hV, h4⟩ := sinh_ref hr _ _ _ a hA.neg (valid_neg hv) (by linarith) (by linarith) he
      rw [M.bind_of_ok h4] at h5
      cases h5
      exact hV.neg
    | throw e s => simp [M.bind_apply, he] at hk
    | ub w => simp [M.bind_apply, he] at hk
    | timeout => simp [M.bind_apply, he] at hk
  · rw [if_neg h] at hk
    rw [if_neg (fun hc => h ((hA.lt (is_fin 0)).mp hc))] at h5
    obtain ⟨V, hV, h4⟩ := sinh_ref hr _ _ _ v hA hv (by linarith) hx.2 hk
    rw [h4] at h5
    cases h5
    exact hV

end Cest.Ieee
