import Verif.Ieee.Sqrt
import Verif.Fp.Trig

/-! `sin`, `cos` and `sinh` over all values of `double`: when they return. -/
namespace Cest.Ieee
open Cest.Cmath (FM IsDouble RoundsToNearest)
open D Classical
open Cest.Fp (u u_pos u_lt)

variable {ρ : ℝ → ℝ}

theorem isDouble_three : IsDouble (3 : ℝ) := by simpa using Cmath.isDouble_int (K := ℝ) (k := 3) (by norm_num)

/-- Dividing by three does not overflow, and shrinks. -/
theorem is_third (hr : RoundsToNearest ρ) {A : D} {x : ℝ} (hA : Is A x) (hv : Valid A) (h : Cmath.tol ρ ≤ x) :
    Is (div ρ A (fin 3)) (ρ (x / 3)) ∧ 3333 / 10000 * x ≤ ρ (x / 3) ∧ ρ (x / 3) ≤ 334 / 1000 * x := by
  have hl := isDouble_lt_lim (hA.double hv)
  obtain ⟨t0, t1⟩ := Fp.tol_bounds hr
  have hu := u_pos
  have hu1 := u_lt
  norm_num at hu1
  have x0 : 9 / 10000 ≤ x := by nlinarith
  rw [abs_of_pos (by linarith)] at hl
  have hs : (1 : ℝ) / 2 ^ 1022 ≤ 1 / 2 ^ 20 :=
    one_div_le_one_div_of_le (by positivity) (pow_le_pow_right₀ (by norm_num) (by norm_num))
  have x3 : 0 < x / 3 := by linarith
  have r := rel_err_lim hr (x := x / 3) (by
    rw [abs_of_pos x3]
    refine hs.trans ?_
    norm_num
    linarith) (by rw [abs_of_pos x3]; linarith)
  clear hs
  rw [abs_of_pos x3, abs_le] at r
  refine ⟨hA.div (is_fin 3) three_ne_zero ?_, ?_, ?_⟩
  · rw [abs_of_pos (by linarith)]; linarith
  · nlinarith
  · nlinarith

theorem sinHelper_stop {A : D} (h : lt A (tol ρ)) (fuel : ℕ) : sinHelper ρ (fuel + 1) A () = .ok A () := by
  rw [sinHelper, if_pos h]; rfl
theorem sinhHelper_stop {A : D} (h : lt A (tol ρ)) (fuel : ℕ) : sinhHelper ρ (fuel + 1) A () = .ok A () := by
  rw [sinhHelper, if_pos h]; rfl

theorem sinHelper_rec {A v : D} {fuel : ℕ} (h : ¬ lt A (tol ρ)) (h1 : sinHelper ρ fuel (div ρ A (fin 3)) () = .ok v ()) :
    sinHelper ρ (fuel + 1) A () = .ok (sub ρ (mul ρ (fin 3) v) (mul ρ (fin 4) (cube ρ v))) () := by
  rw [sinHelper, if_neg h]
  refine (M.bind_of_ok h1).trans ?_
  refine (M.bind_of_ok h1).trans ?_
  rfl
theorem sinhHelper_rec {A v : D} {fuel : ℕ} (h : ¬ lt A (tol ρ)) (h1 : sinhHelper ρ fuel (div ρ A (fin 3)) () = .ok v ()) :
    sinhHelper ρ (fuel + 1) A () = .ok (add ρ (mul ρ (fin 3) v) (mul ρ (fin 4) (cube ρ v))) () := by
  rw [sinhHelper, if_neg h]
  refine (M.bind_of_ok h1).trans ?_
  refine (M.bind_of_ok h1).trans ?_
  rfl

/-- What a run of `sinh_helper` that did not stop at once computed. -/
theorem sinhHelper_inv {A v : D} {fuel : ℕ} (h : sinhHelper ρ (fuel + 1) A () = .ok v ()) (hc : ¬ lt A (tol ρ)) :
    ∃ w, sinhHelper ρ fuel (div ρ A (fin 3)) () = .ok w () ∧
      v = add ρ (mul ρ (fin 3) w) (mul ρ (fin 4) (cube ρ w)) := by
  rw [sinhHelper, if_neg hc] at h
  cases he : sinhHelper ρ fuel (div ρ A (fin 3)) () with
  | ok a s =>
    rw [M.bind_of_ok he] at h
    cases s
    rw [M.bind_of_ok he] at h
    cases h
    exact ⟨a, rfl, rfl⟩
  | throw e s => simp [M.bind_apply, he] at h
  | ub w => simp [M.bind_apply, he] at h
  | timeout => simp [M.bind_apply, he] at h

theorem sinhHelper_mono {n : ℕ} : ∀ {A v : D} {m : ℕ}, sinhHelper ρ n A () = .ok v () → n ≤ m →
    sinhHelper ρ m A () = .ok v () := by
  induction n with
  | zero => intro A v m h; simp [sinhHelper, M.timeout] at h
  | succ n ih =>
    intro A v m h hm
    obtain ⟨k, rfl⟩ : ∃ k, m = k + 1 := ⟨m - 1, by omega⟩
    by_cases hc : lt A (tol ρ)
    · rw [sinhHelper_stop hc] at h ⊢; exact h
    · obtain ⟨w, h1, rfl⟩ := sinhHelper_inv h hc
      exact sinhHelper_rec hc (ih h1 (by omega))

/-- A call returns or runs out of fuel. -/
theorem sinhHelper_or (fuel : ℕ) : ∀ A : D, (∃ v, sinhHelper ρ fuel A () = .ok v ()) ∨ sinhHelper ρ fuel A () = .timeout := by
  induction fuel with
  | zero => intro A; exact Or.inr rfl
  | succ n ih =>
    intro A
    by_cases hc : lt A (tol ρ)
    · exact Or.inl ⟨A, sinhHelper_stop hc n⟩
    · rcases ih (div ρ A (fin 3)) with ⟨v, h⟩ | h
      · exact Or.inl ⟨_, sinhHelper_rec hc h⟩
      · right
        rw [sinhHelper, if_neg hc]
        simp only [M.bind_apply, h]

/-- Both recursions end for every finite argument. -/
theorem helpers_return (hr : RoundsToNearest ρ) (n : ℕ) : ∀ (A : D) (x : ℝ), Is A x → Valid A →
    x < Cmath.tol ρ * 2 ^ n → (∃ v, Valid v ∧ ∀ fuel, n + 1 ≤ fuel → sinHelper ρ fuel A () = .ok v ()) ∧
      ∃ v, Valid v ∧ ∀ fuel, n + 1 ≤ fuel → sinhHelper ρ fuel A () = .ok v () := by
  have stop : ∀ (n : ℕ) (A : D), lt A (tol ρ) → Valid A →
      (∃ v, Valid v ∧ ∀ fuel, n + 1 ≤ fuel → sinHelper ρ fuel A () = .ok v ()) ∧
      ∃ v, Valid v ∧ ∀ fuel, n + 1 ≤ fuel → sinhHelper ρ fuel A () = .ok v () := by
    intro n A h hv
    refine ⟨⟨A, hv, fun fuel hf => ?_⟩, A, hv, fun fuel hf => ?_⟩ <;>
    obtain ⟨k, rfl⟩ : ∃ k, fuel = k + 1 := ⟨fuel - 1, by omega⟩
    · exact sinHelper_stop h k
    · exact sinhHelper_stop h k
  induction n with
  | zero =>
    intro A x hA hv hx
    exact stop 0 A ((hA.lt (is_fin _)).mpr (by simpa using hx)) hv
  | succ n ih =>
    intro A x hA hv hx
    by_cases h : x < Cmath.tol ρ
    · exact stop _ A ((hA.lt (is_fin _)).mpr h) hv
    · obtain ⟨t1, -, t2⟩ := is_third hr hA hv (not_lt.mp h)
      obtain ⟨⟨v, hv1, h1⟩, w, hw1, h2⟩ := ih _ _ t1 (valid_div hr) (by
        have := (tol_pos hr).1
        rw [pow_succ] at hx; linarith)
      have hn : ¬ lt A (tol ρ) := fun hc => h ((hA.lt (is_fin _)).mp hc)
      refine ⟨⟨sub ρ (mul ρ (fin 3) v) (mul ρ (fin 4) (cube ρ v)), valid_add hr, fun fuel hf => ?_⟩,
        add ρ (mul ρ (fin 3) w) (mul ρ (fin 4) (cube ρ w)), valid_add hr, fun fuel hf => ?_⟩ <;>
      obtain ⟨k, rfl⟩ : ∃ k, fuel = k + 1 := ⟨fuel - 1, by omega⟩
      · exact sinHelper_rec hn (h1 k (by omega))
      · exact sinhHelper_rec hn (h2 k (by omega))

theorem helpers_gives (hr : RoundsToNearest ρ) {A : D} {x : ℝ} (hA : Is A x) (hv : Valid A) :
    (∃ v, Valid v ∧ Cmath.Gives (fun fuel => sinHelper ρ fuel A) v) ∧
      ∃ v, Valid v ∧ Cmath.Gives (fun fuel => sinhHelper ρ fuel A) v := by
  obtain ⟨t0, -⟩ := tol_pos hr
  obtain ⟨n, hn⟩ := pow_unbounded_of_one_lt (x / Cmath.tol ρ) (by norm_num : (1 : ℝ) < 2)
  rw [div_lt_iff₀ t0, mul_comm] at hn
  obtain ⟨⟨v, hv1, h1⟩, w, hw1, h2⟩ := helpers_return hr n A x hA hv hn
  exact ⟨⟨v, hv1, n + 1, h1⟩, w, hw1, n + 1, h2⟩

/-- NaN and the positive infinity divided by three are themselves. -/
theorem helpers_diverge {A : D} (h : A = nan ∨ A = inf false) (fuel : ℕ) :
    sinHelper ρ fuel A () = .timeout ∧ sinhHelper ρ fuel A () = .timeout := by
  have h1 : div ρ A (fin 3) = A := by
    rcases h with rfl | rfl
    · simp
    · rw [inf_div (is_fin 3), sign_pos (is_fin 3) three_pos]; rfl
  have h2 : ¬ lt A (tol ρ) := by
    rcases h with rfl | rfl
    · simp
    · exact not_pinf_lt
  induction fuel with
  | zero => exact ⟨rfl, rfl⟩
  | succ n ih =>
    rw [sinHelper, sinhHelper, if_neg h2, if_neg h2, h1]
    simp only [M.bind_apply, ih.1, ih.2, and_self]

theorem mPi_lt (hr : RoundsToNearest ρ) : (0 < Cmath.mPi ρ ∧ Cmath.mPi ρ < 4) ∧ 0 < Cmath.mPi2 ρ ∧ Cmath.mPi2 ρ < 2 := by
  obtain ⟨h1, h2⟩ := Fp.mPi_fp hr
  rw [abs_le] at h1 h2
  have := Real.pi_gt_three
  have := Real.pi_lt_d2
  norm_num at *
  constructor <;> constructor <;> linarith

/-- Adding a small number to a finite one does not overflow. -/
theorem small_add_lim {x c : ℝ} (hd : IsDouble x) (hc : |c| ≤ 10) : |x + c| < lim := by
  have h1 := isDouble_lt hd
  have h2 := abs_add_le x c
  refine lt_of_le_of_lt (h2.trans (add_le_add h1 hc)) ?_
  unfold lim
  have a2 : (2 : ℝ) ^ 971 = 2 * 2 ^ 970 := by rw [← pow_succ']
  have a3 : (2 : ℝ) ^ 10 ≤ 2 ^ 970 := pow_le_pow_right₀ (by norm_num) (by norm_num)
  norm_num at a3
  rw [a2]
  clear a2 h1
  generalize (2 : ℝ) ^ 970 = W at *
  generalize (2 : ℝ) ^ 1024 = W' at *
  linarith

theorem is_sinArg (hr : RoundsToNearest ρ) {A : D} {x : ℝ} (hA : Is A x) (hv : Valid A) :
    Is (if lt A (fin 0) then add ρ (neg A) (mPi ρ) else A) (if x < 0 then ρ (-x + Cmath.mPi ρ) else x) ∧
      Valid (if lt A (fin 0) then add ρ (neg A) (mPi ρ) else A) := by
  have hd := hA.double hv
  obtain ⟨⟨p0, p1⟩, -⟩ := mPi_lt hr
  by_cases h : x < 0
  · rw [if_pos ((hA.lt (is_fin 0)).mpr h), if_pos h]
    exact ⟨hA.neg.add hr (is_fin _) (small_add_lim hd.neg (by rw [abs_of_pos p0]; linarith)), valid_add hr⟩
  · rw [if_neg (fun hc => h ((hA.lt (is_fin 0)).mp hc)), if_neg h]
    exact ⟨hA, hv⟩

theorem sin_gives (hr : RoundsToNearest ρ) {A : D} {x : ℝ} (hA : Is A x) (hv : Valid A) :
    ∃ v, Cmath.Gives (fun fuel => sin ρ fuel A) v := by
  obtain ⟨h1, h2⟩ := is_sinArg hr hA hv
  obtain ⟨⟨v, -, h⟩, -⟩ := helpers_gives hr h1 h2
  exact ⟨v, h⟩

theorem is_cosArg (hr : RoundsToNearest ρ) {A : D} {x : ℝ} (hA : Is A x) (hv : Valid A) :
    Is (sub ρ (mPi2 ρ) A) (ρ (Cmath.mPi2 ρ - x)) := by
  obtain ⟨-, p0, p1⟩ := mPi_lt hr
  refine (is_fin _).sub hr hA ?_
  rw [abs_sub_comm, sub_eq_add_neg]
  exact small_add_lim (hA.double hv) (by rw [abs_neg, abs_of_pos p0]; linarith)

theorem cos_gives (hr : RoundsToNearest ρ) {A : D} {x : ℝ} (hA : Is A x) (hv : Valid A) :
    ∃ v, Cmath.Gives (fun fuel => cos ρ fuel A) v :=
  sin_gives hr (is_cosArg hr hA hv) (valid_add hr)

theorem sin_diverges {A : D} (h : ¬ A.Finite) (fuel : ℕ) : sin ρ fuel A () = .timeout := by
  rcases trichotomy A with rfl | rfl | rfl | ⟨x, hx⟩
  · unfold sin
    rw [if_neg not_nan_lt]
    exact (helpers_diverge (Or.inl rfl) fuel).1
  · unfold sin
    rw [if_pos (ninf_lt (is_fin 0)), mPi, show neg (inf true) = inf false from rfl, inf_add (is_fin _)]
    exact (helpers_diverge (Or.inr rfl) fuel).1
  · unfold sin
    rw [if_neg not_pinf_lt]
    exact (helpers_diverge (Or.inr rfl) fuel).1
  · exact absurd hx.1 h

theorem cos_diverges {A : D} (h : ¬ A.Finite) (fuel : ℕ) : cos ρ fuel A () = .timeout := by
  refine sin_diverges ?_ fuel
  rcases trichotomy A with rfl | rfl | rfl | ⟨x, hx⟩
  · rw [sub_nan]; rintro (h | ⟨x, h⟩) <;> simp at h
  · rw [mPi2, sub_inf (is_fin _)]; rintro (h | ⟨x, h⟩) <;> simp at h
  · rw [mPi2, sub_inf (is_fin _)]; rintro (h | ⟨x, h⟩) <;> simp at h
  · exact absurd hx.1 h

theorem sinh_gives (hr : RoundsToNearest ρ) {A : D} {x : ℝ} (hA : Is A x) (hv : Valid A) :
    ∃ v, Valid v ∧ Cmath.Gives (fun fuel => sinh ρ fuel A) v := by
  by_cases h : lt A (fin 0)
  · obtain ⟨-, v, hv1, N, hN⟩ := helpers_gives hr hA.neg (valid_neg hv)
    refine ⟨neg v, valid_neg hv1, N, fun fuel hf => ?_⟩
    simp only [sinh, if_pos h]
    exact M.bind_of_ok (hN fuel hf)
  · obtain ⟨-, v, hv1, N, hN⟩ := helpers_gives hr hA hv
    refine ⟨v, hv1, N, fun fuel hf => ?_⟩
    simp only [sinh, if_neg h]
    exact hN fuel hf

theorem sinh_diverges {A : D} (h : ¬ A.Finite) (fuel : ℕ) : sinh ρ fuel A () = .timeout := by
  unfold sinh
  rcases trichotomy A with rfl | rfl | rfl | ⟨x, hx⟩
  · rw [if_neg not_nan_lt]
    exact (helpers_diverge (Or.inl rfl) fuel).2
  · rw [if_pos (ninf_lt (is_fin 0)), show neg (inf true) = inf false from rfl]
    simp only [M.bind_apply, (helpers_diverge (Or.inr rfl) fuel).2]
  · rw [if_neg not_pinf_lt]
    exact (helpers_diverge (Or.inr rfl) fuel).2
  · exact absurd hx.1 h

end Cest.Ieee
