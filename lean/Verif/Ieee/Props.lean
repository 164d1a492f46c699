import Verif.Ieee.Spec
import Verif.Ieee.Atan2
import Verif.Ieee.ExpFull
import Verif.Ieee.CoshFull
import Verif.Ieee.SinhFull
import Verif.Ieee.SinBig

/-! `cmath.hpp` over all the values of `double` (C135, C136): NaN, the infinities, both zeros and every binary64
number, with overflow.  `ρ` is any rounding to a nearest double; the model is `Verif/Ieee/Model.lean`. -/
namespace Cest.Ieee.Props
open Cest Cest.Cmath Cest.Ieee Cest.Ieee.D

variable {ρ : ℝ → ℝ}

/-! ### C135: which arguments the functions return for

Full statement: each elementary function returns a value for every argument, as `std::sqrt` and its companions do.
It is false for all of them: see `C135_refuted`.  The theorems say where it holds, for every argument. -/

theorem C135_sqrt (hr : RoundsToNearest ρ) {A : D} (hv : Valid A) :
    (Returns (fun fuel => Ieee.sqrt ρ fuel A) ↔ ∃ x, Is A x ∧ 0 < x) ∧
    (Never (fun fuel => Ieee.sqrt ρ fuel A) ↔ ¬ ∃ x, Is A x ∧ 0 < x) := by
  refine returns_iff ?_ ?_
  · rintro ⟨x, hx, h0⟩
    obtain ⟨R, r, -, -, -, h⟩ := sqrt_pos hr hx (hx.double hv) h0
    exact ⟨R, h⟩
  · intro h fuel
    rcases trichotomy A with rfl | rfl | rfl | ⟨x, hx⟩
    · exact sqrt_nan fuel
    · exact sqrt_inf _ fuel
    · exact sqrt_inf _ fuel
    · exact sqrt_nonpos hr hx (not_lt.mp fun h0 => h ⟨x, hx, h0⟩) fuel

theorem C135_sin (hr : RoundsToNearest ρ) {A : D} (hv : Valid A) :
    (Returns (fun fuel => Ieee.sin ρ fuel A) ↔ A.Finite) ∧ (Never (fun fuel => Ieee.sin ρ fuel A) ↔ ¬ A.Finite) :=
  returns_iff (fun h => sin_gives hr h.is hv) (fun h fuel => sin_diverges h fuel)

theorem C135_cos (hr : RoundsToNearest ρ) {A : D} (hv : Valid A) :
    (Returns (fun fuel => Ieee.cos ρ fuel A) ↔ A.Finite) ∧ (Never (fun fuel => Ieee.cos ρ fuel A) ↔ ¬ A.Finite) :=
  returns_iff (fun h => cos_gives hr h.is hv) (fun h fuel => cos_diverges h fuel)

theorem C135_sinh (hr : RoundsToNearest ρ) {A : D} (hv : Valid A) :
    (Returns (fun fuel => Ieee.sinh ρ fuel A) ↔ A.Finite) ∧ (Never (fun fuel => Ieee.sinh ρ fuel A) ↔ ¬ A.Finite) :=
  returns_iff (fun h => by obtain ⟨v, -, g⟩ := sinh_gives hr h.is hv; exact ⟨v, g⟩) (fun h fuel => sinh_diverges h fuel)

/-- `cosh` returns up to some number between 355 and 356 and for nothing beyond; which number depends on the way ties
are broken. -/
theorem C135_cosh (hr : RoundsToNearest ρ) : ∃ c : ℝ, 355 ≤ c ∧ c < 356 ∧ ∀ A : D, Valid A →
    (Returns (fun fuel => Ieee.cosh ρ fuel A) ↔ ∃ x, Is A x ∧ |x| ≤ c) ∧
    (Never (fun fuel => Ieee.cosh ρ fuel A) ↔ ¬ ∃ x, Is A x ∧ |x| ≤ c) := by
  obtain ⟨c, c1, c2, h⟩ := cosh_threshold hr
  have d356 : IsDouble (356 : ℝ) := by simpa using isDouble_int (K := ℝ) (k := 356) (by norm_num)
  refine ⟨c, c1, lt_of_le_of_ne c2 ?_, fun A hv => returns_iff ?_ ?_⟩
  · rintro rfl
    obtain ⟨V, v, -, g, -⟩ := cosh_value hr (is_fin 356) (valid_fin d356) (by norm_num)
      ((h _ _ (is_fin 356) (valid_fin d356)).1 (by norm_num))
    obtain ⟨N, hN⟩ := g
    have h1 : Ieee.cosh ρ N (fin 356) () = .ok V () := hN N le_rfl
    rw [cosh_diverges_big hr (is_fin 356) (valid_fin d356) (by norm_num) N] at h1
    cases h1
  · rintro ⟨x, hx, hc⟩
    obtain ⟨V, v, -, g, -⟩ := cosh_value hr hx hv (hc.trans c2) ((h A x hx hv).1 hc)
    exact ⟨V, g⟩
  · intro hn fuel
    by_cases hf : A.Finite
    · exact (h A _ hf.is hv).2 (not_le.mp fun hc => hn ⟨_, hf.is, hc⟩) fuel
    · exact cosh_diverges hf fuel

theorem C135_log (hr : RoundsToNearest ρ) {A : D} (hv : Valid A) :
    (Returns (fun fuel => Ieee.log ρ fuel A) ↔ A ≠ nan ∧ A ≠ inf false) ∧
    (Never (fun fuel => Ieee.log ρ fuel A) ↔ ¬ (A ≠ nan ∧ A ≠ inf false)) := by
  refine returns_iff ?_ ?_
  · rintro ⟨h1, h2⟩
    rcases trichotomy A with rfl | rfl | rfl | ⟨x, hx⟩
    · exact absurd rfl h1
    · exact ⟨nan, 0, fun fuel _ => log_neg fuel (ninf_lt (is_fin 0))⟩
    · exact absurd rfl h2
    · rcases lt_trichotomy x 0 with h | rfl | h
      · exact ⟨nan, 0, fun fuel _ => log_neg fuel ((hx.lt (is_fin 0)).mpr h)⟩
      · exact ⟨inf true, 0, fun fuel _ => log_zero fuel hx⟩
      · obtain ⟨V, v, -, g, -⟩ := log_value hr hx hv h
        exact ⟨V, g⟩
  · intro h fuel
    by_cases h1 : A = nan
    · subst h1; exact log_nan fuel
    · have h2 : A = inf false := by_contra fun h2 => h ⟨h1, h2⟩
      subst h2
      exact log_inf hr fuel

theorem C135_atan (hr : RoundsToNearest ρ) {A : D} :
    (Returns (fun fuel => Ieee.atan ρ fuel A) ↔ A ≠ nan) ∧ (Never (fun fuel => Ieee.atan ρ fuel A) ↔ ¬ A ≠ nan) :=
  returns_iff (fun h => atan_returns hr h) (fun h fuel => by rw [not_not.mp h]; exact atan_nan fuel)

/-- `atan2(y, x)` is stuck on a NaN `y` to the right of the axis, and on two infinities. -/
theorem C135_atan2 (hr : RoundsToNearest ρ) {Y X : D} :
    (Returns (fun fuel => Ieee.atan2 ρ fuel Y X) ↔
      ¬ ((lt (fin 0) X ∧ Y = nan) ∨ ((∃ s, X = inf s) ∧ ∃ s, Y = inf s))) ∧
    (Never (fun fuel => Ieee.atan2 ρ fuel Y X) ↔
      ¬ ¬ ((lt (fin 0) X ∧ Y = nan) ∨ ((∃ s, X = inf s) ∧ ∃ s, Y = inf s))) :=
  returns_iff (fun h => atan2_returns hr (fun h1 => h (Or.inl h1)) (fun h2 => h (Or.inr h2)))
    (fun h fuel => atan2_diverges (not_not.mp h) fuel)

theorem C135_complex_abs (hr : RoundsToNearest ρ) {X Y : D} :
    (Returns (fun fuel => Ieee.complexAbs ρ fuel X Y) ↔ (X.Finite ∧ Y.Finite) ∨ (Is X 0 ∧ Y = nan)) ∧
    (Never (fun fuel => Ieee.complexAbs ρ fuel X Y) ↔ ¬ ((X.Finite ∧ Y.Finite) ∨ (Is X 0 ∧ Y = nan))) := by
  refine returns_iff ?_ (fun h fuel => complexAbs_diverges (fun h1 => h (Or.inl h1)) (fun h2 => h (Or.inr h2)) fuel)
  rintro (⟨h1, h2⟩ | ⟨h1, rfl⟩)
  · rcases complexAbs_value hr h1.is h2.is with ⟨V, v, -, g, -⟩ | ⟨g, -⟩
    · exact ⟨V, g⟩
    · exact ⟨_, g⟩
  · refine ⟨abs X, 0, fun fuel _ => ?_⟩
    obtain ⟨Z, -, hZ⟩ := complexAbs_zero_nan (ρ := ρ) h1 fuel
    obtain ⟨Z', -, hZ'⟩ := complexAbs_zero_nan (ρ := ρ) h1 0
    have an : abs nan = nan := by unfold D.abs; rw [if_neg (by simp [D.lt])]
    have : stdMax (abs X) (abs nan) = abs X := by unfold stdMax; rw [an, if_neg (by simp [D.lt])]
    show Ieee.complexAbs ρ fuel X nan () = _
    simp only [Ieee.complexAbs]
    rw [this, if_pos ((h1.abs.eq (is_fin 0)).mpr (by simp))]
    rfl

/-- `exp`, `floor` and `ceil` convert their argument to `int`: undefined for NaN and the infinities, and for what
does not fit.  `exp` rounds to nearest first, and negates a negative integer: the smallest one is out. -/
theorem C135_exp (hr : RoundsToNearest ρ) {A : D} (hv : Valid A) :
    ((∃ V, Ieee.exp ρ A () = .ok V ()) ↔ ∃ x, Is A x ∧ -2147483648 < x ∧ x ≤ 2147483647 + 1 / 2) ∧
    (Ieee.exp ρ A () = .ub .precond ↔ ¬ ∃ x, Is A x ∧ -2147483648 < x ∧ x ≤ 2147483647 + 1 / 2) := by
  have yes : (∃ x, Is A x ∧ -2147483648 < x ∧ x ≤ 2147483647 + 1 / 2) → ∃ V, Ieee.exp ρ A () = .ok V () := by
    rintro ⟨x, hx, h1, h2⟩
    exact exp_defined hr hx hv h1 h2
  have no : (¬ ∃ x, Is A x ∧ -2147483648 < x ∧ x ≤ 2147483647 + 1 / 2) → Ieee.exp ρ A () = .ub .precond := by
    intro hn
    by_cases hf : A.Finite
    · refine exp_undef hr hf.is hv ?_
      by_contra hc
      rw [not_or, not_le, not_lt] at hc
      exact hn ⟨_, hf.is, hc⟩
    · exact exp_special hf
  refine ⟨⟨?_, yes⟩, ⟨?_, no⟩⟩
  · rintro ⟨V, hV⟩
    by_contra hn
    rw [no hn] at hV
    cases hV
  · intro hu hy
    obtain ⟨V, hV⟩ := yes hy
    rw [hV] at hu
    cases hu

theorem C135_floor_ceil {A : D} (h : ¬ A.Finite) :
    Ieee.floor ρ A () = .ub .precond ∧ Ieee.ceil ρ A () = .ub .precond := by
  rw [Ieee.floor, Ieee.ceil, M.bind_apply, M.bind_apply, toInt_special h]
  exact ⟨rfl, rfl⟩

/-- No elementary function returns for every double. -/
theorem C135_refuted (hr : RoundsToNearest ρ) :
    Never (fun fuel => Ieee.sqrt ρ fuel (fin 0)) ∧ Never (fun fuel => Ieee.sin ρ fuel nan) ∧
    Never (fun fuel => Ieee.cos ρ fuel nan) ∧ Never (fun fuel => Ieee.sinh ρ fuel (inf false)) ∧
    Never (fun fuel => Ieee.cosh ρ fuel (fin 356)) ∧ Never (fun fuel => Ieee.log ρ fuel (inf false)) ∧
    Never (fun fuel => Ieee.atan ρ fuel nan) ∧ Never (fun fuel => Ieee.atan2 ρ fuel (inf false) (inf false)) ∧
    Never (fun fuel => Ieee.complexAbs ρ fuel (inf false) (fin 0)) ∧ Ieee.exp ρ (inf true) () = .ub .precond := by
  have nn : ¬ nan.Finite := by rintro (h | ⟨x, h⟩) <;> cases h
  have ni : ∀ s, ¬ (inf s).Finite := by rintro s (h | ⟨x, h⟩) <;> cases h
  have d356 : IsDouble (356 : ℝ) := by simpa using isDouble_int (K := ℝ) (k := 356) (by norm_num)
  refine ⟨fun fuel => sqrt_nonpos hr (is_fin 0) le_rfl fuel, fun fuel => sin_diverges nn fuel,
    fun fuel => cos_diverges nn fuel, fun fuel => sinh_diverges (ni _) fuel,
    fun fuel => cosh_diverges_big hr (is_fin 356) (valid_fin d356) (by norm_num) fuel, fun fuel => log_inf hr fuel,
    fun fuel => atan_nan fuel, fun fuel => atan2_diverges (Or.inr ⟨⟨_, rfl⟩, _, rfl⟩) fuel,
    fun fuel => complexAbs_diverges (fun h => ni _ h.1) (fun h => ni _ h.1.1) fuel, exp_special (ni _)⟩

/-! ### C136: what they return

Full statement: where the function of a finite argument has a value in the range of `double`, the result is within
the bounds of C105-C108 and C121 of it.  It fails for `cosh` from 356, for `exp` beyond 709.5 and from -710 down and for the powers of two
below 2⁻¹⁰²³, for `sin` and `cos` from 3·2⁵² (`C136_cosh_refuted`, `C136_exp_refuted`, `C136_pow_refuted`,
`C136_sin_refuted`, `C136_cos_refuted`), and NaN is lost by `atan2`
(`C136_atan2_refuted`); the other theorems give the ranges where it holds. -/

theorem C136_sqrt (hr : RoundsToNearest ρ) {A : D} {x : ℝ} (hA : Is A x) (hv : Valid A) (h0 : 0 < x) :
    ∃ V v, Is V v ∧ Gives (fun fuel => Ieee.sqrt ρ fuel A) V ∧ |v - Real.sqrt x| ≤ 51 / 100000 * Real.sqrt x := by
  obtain ⟨R, r, hR, r0, h3, g⟩ := sqrt_pos hr hA (hA.double hv) h0
  refine ⟨R, r, hR, g, ?_⟩
  have hs := Real.sqrt_nonneg x
  have hss := Real.mul_self_sqrt h0.le
  generalize Real.sqrt x = s at *
  rw [← hss] at h3
  have := abs_le.mp h3
  rw [abs_le]
  constructor <;> nlinarith

theorem C136_sin_partial (hr : RoundsToNearest ρ) {A : D} {x : ℝ} (hA : Is A x) (hv : Valid A) (hx : |x| ≤ 420) :
    ∃ V v, Is V v ∧ Gives (fun fuel => Ieee.sin ρ fuel A) V ∧
      |v - Real.sin x| ≤ 2 / 10 ^ 6 * (|x| + 4) + 14 / 10 ^ 8 * (|x| + 5) ^ 2 := by
  obtain ⟨v, g, hb⟩ := Fp.sin_fp hr hx
  obtain ⟨V, hV, h⟩ := sin_value hr hA hv (by linarith) g
  exact ⟨V, v, hV, h, hb⟩

theorem C136_cos_partial (hr : RoundsToNearest ρ) {A : D} {x : ℝ} (hA : Is A x) (hv : Valid A) (hx : |x| ≤ 400) :
    ∃ V v, Is V v ∧ Gives (fun fuel => Ieee.cos ρ fuel A) V ∧
      |v - Real.cos x| ≤ 2 / 10 ^ 6 * (|x| + 6) + 14 / 10 ^ 8 * (|x| + 7) ^ 2 := by
  obtain ⟨v, g, hb⟩ := Fp.cos_fp hr hx
  obtain ⟨V, hV, h⟩ := cos_value hr hA hv (by linarith) g
  exact ⟨V, v, hV, h, hb⟩

/-- In every interval of length ten between 3·2⁵² and 2⁵⁴ there is a double for which `sin` returns a value that is
wrong by a tenth or is no number: neighbouring doubles have the same third, so `sin` cannot tell them apart. -/
theorem C136_sin_refuted (hr : RoundsToNearest ρ) {j : ℤ} (h0 : 0 ≤ j) (h1 : 6 * j + 16 ≤ 2 ^ 52) :
    ∃ x : ℝ, IsDouble x ∧ 3 * 2 ^ 52 + 6 * j ≤ x ∧ x ≤ 3 * 2 ^ 52 + 6 * j + 10 ∧
      Returns (fun fuel => Ieee.sin ρ fuel (fin x)) ∧
      ∀ V v, Gives (fun fuel => Ieee.sin ρ fuel (fin x)) V → Is V v → 1 / 10 ≤ |v - Real.sin x| := by
  obtain ⟨x, hd, h2, h3, h⟩ := sin_wrong hr h0 h1
  exact ⟨x, hd, h2, h3, sin_gives hr (is_fin x) (valid_fin hd), h⟩

theorem C136_cos_refuted (hr : RoundsToNearest ρ) {j : ℤ} (h0 : 0 ≤ j) (h1 : 6 * j + 16 ≤ 2 ^ 52) :
    ∃ x : ℝ, IsDouble x ∧ 3 * 2 ^ 52 + 6 * j ≤ x ∧ x ≤ 3 * 2 ^ 52 + 6 * j + 10 ∧
      Returns (fun fuel => Ieee.cos ρ fuel (fin x)) ∧
      ∀ V v, Gives (fun fuel => Ieee.cos ρ fuel (fin x)) V → Is V v → 1 / 10 ≤ |v - Real.cos x| := by
  obtain ⟨x, hd, h2, h3, h⟩ := cos_wrong hr h0 h1
  exact ⟨x, hd, h2, h3, cos_gives hr (is_fin x) (valid_fin hd), h⟩

/-- The conditions on the interval can be met. -/
example : (0 : ℤ) ≤ 1000 ∧ 6 * (1000 : ℤ) + 16 ≤ 2 ^ 52 := by norm_num

/-- Every finite double: accurate, or infinite with the right sign where the exact value is at least 0.996 times the
overflow threshold (the error bound is 0.003 there). -/
theorem C136_sinh (hr : RoundsToNearest ρ) {A : D} {x : ℝ} (hA : Is A x) (hv : Valid A) :
    (∃ V v, Is V v ∧ Valid V ∧ Gives (fun fuel => Ieee.sinh ρ fuel A) V ∧
      |v - Real.sinh x| ≤ 4 / 10 ^ 6 * |x| * Real.cosh x) ∨
    (Gives (fun fuel => Ieee.sinh ρ fuel A) (inf (decide (x < 0))) ∧ (1 - 1 / 250) * lim ≤ |Real.sinh x|) :=
  sinh_full hr hA hv

/-- Both alternatives occur. -/
example (hr : RoundsToNearest ρ) :
    (∃ V v, Is V v ∧ Valid V ∧ Gives (fun fuel => Ieee.sinh ρ fuel (fin 1)) V ∧
      |v - Real.sinh 1| ≤ 4 / 10 ^ 6 * |1| * Real.cosh 1) ∧
    Gives (fun fuel => Ieee.sinh ρ fuel (fin (-2160))) (inf true) := by
  have d1 : IsDouble (1 : ℝ) := by simpa using isDouble_int (K := ℝ) (k := 1) (by norm_num)
  have d2 : IsDouble (-2160 : ℝ) := by simpa using isDouble_int (K := ℝ) (k := -2160) (by norm_num)
  constructor
  · rcases C136_sinh hr (is_fin 1) (valid_fin d1) with h | ⟨-, h⟩
    · exact h
    · exfalso
      have h1 : Real.sinh 1 ≤ Real.exp 1 := by
        rw [Real.sinh_eq]; linarith [Real.exp_pos 1, Real.exp_pos (-1)]
      have h2 := Real.exp_one_lt_d9
      have h3 := lim_big
      norm_num at h3
      rw [abs_of_nonneg (Real.sinh_nonneg_iff.mpr (by norm_num))] at h
      linarith
  · rcases C136_sinh hr (is_fin (-2160)) (valid_fin d2) with ⟨V, v, hV, hd, -, h⟩ | ⟨h, -⟩
    · exfalso
      have h1 := isDouble_lt_lim (hV.double hd)
      have h2 : 3 * lim ≤ Real.sinh 2160 := by
        have k := sinh_ge_lim (y := 720) le_rfl
        have k' := lim_big
        norm_num at k'
        rw [show (2160 : ℝ) = 3 * 720 by norm_num, Real.sinh_three_mul]
        have : 0 ≤ Real.sinh 720 ^ 3 := by apply pow_nonneg; linarith
        linarith
      have h3 : Real.cosh 2160 ≤ Real.sinh 2160 + 1 := by
        rw [Real.cosh_eq, Real.sinh_eq]
        have : Real.exp (-2160) ≤ 1 := by rw [Real.exp_le_one_iff]; norm_num
        linarith
      have h4 := lim_big
      norm_num at h4
      rw [Real.sinh_neg, Real.cosh_neg, abs_neg, abs_of_pos (by norm_num : (0 : ℝ) < 2160)] at h
      have h5 := abs_le.mp h
      have h6 := abs_lt.mp h1
      norm_num at h5
      linarith [h5.2, h6.1]
    · simpa using h

/-- Accurate wherever it returns, which is for everything up to 355 (`C135_cosh`). -/
theorem C136_cosh_partial (hr : RoundsToNearest ρ) {A : D} {x : ℝ} (hA : Is A x) (hv : Valid A)
    (h : |x| ≤ 355 ∨ Returns (fun fuel => Ieee.cosh ρ fuel A)) :
    ∃ V v, Is V v ∧ Gives (fun fuel => Ieee.cosh ρ fuel A) V ∧
      |v - Real.cosh x| ≤ (52 / 100000 + 4 / 10 ^ 6 * |x|) * Real.cosh x := by
  obtain ⟨c, c1, c2, ht⟩ := cosh_threshold hr
  have hc : |x| ≤ c := by
    rcases h with h | ⟨V, N, hN⟩
    · exact h.trans c1
    · by_contra hn
      have h1 : Ieee.cosh ρ N A () = .ok V () := hN N le_rfl
      rw [(ht A x hA hv).2 (not_le.mp hn) N] at h1
      cases h1
  exact cosh_value hr hA hv (hc.trans c2) ((ht A x hA hv).1 hc)

/-- `cosh(x)` never returns for 356 ≤ x ≤ 700, where the value is far from overflowing. -/
theorem C136_cosh_refuted (hr : RoundsToNearest ρ) {A : D} {x : ℝ} (hA : Is A x) (hv : Valid A) (h1 : 356 ≤ x) (h2 : x ≤ 700) :
    Real.cosh x < lim ∧ Never (fun fuel => Ieee.cosh ρ fuel A) := by
  refine ⟨?_, fun fuel => cosh_diverges_big hr hA hv (by rw [abs_of_pos (by linarith)]; exact h1) fuel⟩
  refine lt_of_le_of_lt ?_ (lt_lim (r := 2 ^ 1012) (pow_le_pow_right₀ (by norm_num) (by norm_num)))
  have h3 : Real.cosh x ≤ Real.exp x := by
    rw [Real.cosh_eq]
    have := Real.exp_le_exp.mpr (show -x ≤ x by linarith)
    linarith
  have h4 := Real.exp_le_exp.mpr (show x ≤ 701 by linarith)
  have h5 := Fp.exp_le_big (n := 701) le_rfl
  rw [← Real.exp_nat_mul] at h5
  norm_num only [Nat.cast_ofNat, mul_one] at h5
  exact h3.trans (h4.trans h5)

theorem C136_log (hr : RoundsToNearest ρ) {A : D} {x : ℝ} (hA : Is A x) (hv : Valid A) (h0 : 0 < x) :
    ∃ V v, Is V v ∧ Gives (fun fuel => Ieee.log ρ fuel A) V ∧
      |v - Real.log x| ≤ 12 / 10000 + |Real.log x| / 100000000 :=
  log_value hr hA hv h0

/-- Zero of either sign gives minus infinity; anything below it, minus infinity included, gives NaN. -/
theorem C136_log_special {A : D} (fuel : ℕ) :
    (Is A 0 → Ieee.log ρ fuel A () = .ok (inf true) ()) ∧ (lt A (fin 0) → Ieee.log ρ fuel A () = .ok nan ()) :=
  ⟨log_zero fuel, log_neg fuel⟩

theorem C136_atan (hr : RoundsToNearest ρ) {A : D} {x : ℝ} (hA : Is A x) :
    ∃ V v, Is V v ∧ Gives (fun fuel => Ieee.atan ρ fuel A) V ∧ |v - Real.arctan x| ≤ 1 / 20000 := by
  obtain ⟨V, v, h1, h2, h3⟩ := atan_value hr hA
  exact ⟨V, v, h1.1, h2, h3⟩

theorem C136_atan_inf (hr : RoundsToNearest ρ) (s : Bool) :
    ∃ V v, Is V v ∧ Gives (fun fuel => Ieee.atan ρ fuel (inf s)) V ∧
      |v - (if s then -(Real.pi / 2) else Real.pi / 2)| ≤ 1 / 20000 := by
  obtain ⟨V, v, h1, h2, h3, h4⟩ := atan_inf hr
  cases s
  · exact ⟨V, v, h1.1, h2, h4⟩
  · refine ⟨neg V, -v, h1.1.neg, h3, ?_⟩
    rw [if_pos rfl, show -v - -(Real.pi / 2) = -(v - Real.pi / 2) by ring, abs_neg]
    exact h4

/-- All pairs of finite numbers, also when the quotient overflows. -/
theorem C136_atan2 (hr : RoundsToNearest ρ) {Y X : D} {y x : ℝ} (hY : Is Y y) (hX : Is X x) (h : ¬ (x = 0 ∧ y = 0)) :
    ∃ V v, Is V v ∧ Gives (fun fuel => Ieee.atan2 ρ fuel Y X) V ∧ |v - Complex.arg ⟨x, y⟩| ≤ 1 / 19000 :=
  atan2_value hr hY hX h

/-- A NaN argument gives the number zero, unless the call never returns. -/
theorem C136_atan2_refuted {Y X : D} (h : X = nan ∨ (Y = nan ∧ ¬ lt (fin 0) X)) (fuel : ℕ) :
    Ieee.atan2 ρ fuel Y X () = .ok (fin 0) () :=
  atan2_nan h fuel

/-- All the arguments `exp` is defined for: accurate up to 709.5, infinite beyond, zero from -710 down. -/
theorem C136_exp_partial (hr : RoundsToNearest ρ) {A : D} {x : ℝ} (hA : Is A x) (hv : Valid A) :
    (-710 < x → x ≤ 7095 / 10 →
      ∃ V v, Is V v ∧ Ieee.exp ρ A () = .ok V () ∧ |v - Real.exp x| ≤ 1 / 10000 * Real.exp x) ∧
    (7095 / 10 < x → x ≤ 2147483647 + 1 / 2 → Ieee.exp ρ A () = .ok (inf false) ()) ∧
    (x ≤ -710 → -2147483648 < x → Ieee.exp ρ A () = .ok (fin 0) ()) :=
  ⟨exp_value hr hA, exp_overflow hr hA hv, exp_underflow hr hA⟩

/-- `exp(709.625)` is infinite although its value is a finite double's, and `exp(-710)` is zero although there are
doubles within one part in 10¹⁴ of its value. -/
theorem C136_exp_refuted (hr : RoundsToNearest ρ) :
    Valid (fin (5677 / 8)) ∧ Ieee.exp ρ (fin (5677 / 8)) () = .ok (inf false) () ∧ Real.exp (5677 / 8) < lim ∧
    Ieee.exp ρ (fin (-710)) () = .ok (fin 0) () ∧
    ∃ d, IsDouble d ∧ |d - Real.exp (-710)| ≤ 1 / 10 ^ 14 * Real.exp (-710) := by
  have hd : IsDouble ((5677 : ℝ) / 8) := ⟨5677, -3, by norm_num [zpow_neg], by norm_num, by norm_num, by norm_num⟩
  refine ⟨valid_fin hd, exp_overflow hr (is_fin _) (valid_fin hd) (by norm_num) (by norm_num), ?_,
    exp_underflow hr (is_fin _) le_rfl (by norm_num), ρ (Real.exp (-710)), hr.double _, ?_⟩
  rotate_left
  · exact exp_m710 hr
  have h1 : Real.exp (5677 / 8) ≤ 2 ^ 1024 * (9 / 10) := by
    rw [← Real.le_log_iff_exp_le (mul_pos (pow_pos two_pos _) (by norm_num)), Real.log_mul (pow_pos two_pos _).ne' (by norm_num),
      Real.log_pow]
    have h3 := Real.log_two_gt_d9
    have h4 : 1 - (9 / 10 : ℝ)⁻¹ ≤ Real.log (9 / 10) := Real.one_sub_inv_le_log_of_pos (by norm_num)
    push_cast
    norm_num at h3 h4 ⊢
    linarith
  refine lt_of_le_of_lt h1 ?_
  unfold lim
  have e : (2 : ℝ) ^ 1024 = 2 ^ 54 * 2 ^ 970 := by rw [← pow_add]
  rw [e]
  clear e h1
  have p : (0 : ℝ) < 2 ^ 970 := by positivity
  generalize (2 : ℝ) ^ 970 = W at *
  norm_num
  linarith

theorem C136_pow (hr : RoundsToNearest ρ) {n : ℤ} (hn : |n| ≤ 2147483647) :
    Ieee.pow ρ (fin 2) n () =
      .ok (if 1024 ≤ n then inf false else if -1023 ≤ n then fin ((2 : ℝ) ^ n) else fin 0) () := by
  rcases lt_or_ge n 0 with hneg | hpos
  · rw [if_neg (by omega), Ieee.pow, if_pos hneg, M.bind_of_ok (int_ok (by rw [abs_neg]; exact hn))]
    by_cases h : -1023 ≤ n
    · rw [if_pos h, pow2_small hr _ (by omega)]
      have p : (0 : ℝ) < 2 ^ (-n).toNat := by positivity
      have e : (1 : ℝ) / 2 ^ (-n).toNat = 2 ^ n := by
        rw [one_div, ← zpow_natCast, ← zpow_neg]; congr 1; omega
      have hd : IsDouble ((2 : ℝ) ^ n) := ⟨1, n, by simp, by norm_num, by omega, by omega⟩
      have hi : Is (D.div ρ (fin 1) (fin (2 ^ (-n).toNat))) (ρ (1 / 2 ^ (-n).toNat)) :=
        (is_fin 1).div (is_fin _) p.ne' (by
          rw [abs_of_pos (by positivity)]
          refine lt_of_le_of_lt ?_ lim_big
          exact (div_le_one_of_le₀ (one_le_pow₀ (by norm_num)) p.le).trans (by norm_num))
      rw [e, hr.exact hd] at hi
      rw [hi.eq_fin (by positivity)]; rfl
    · rw [if_neg h]
      obtain ⟨k, hk⟩ : ∃ k : ℕ, (-n).toNat = 1024 + k := ⟨(-n).toNat - 1024, by omega⟩
      rw [hk, pow2_big hr]
      have : D.div ρ (fin 1) (inf false) = fin 0 := by simp [D.div, D.sign, D.zero]
      rw [this]; rfl
  · rw [pow_ok _ hpos]
    by_cases h : 1024 ≤ n
    · rw [if_pos h]
      obtain ⟨k, hk⟩ : ∃ k : ℕ, n.toNat = 1024 + k := ⟨n.toNat - 1024, by omega⟩
      rw [hk, pow2_big hr]
    · rw [if_neg h, if_pos (by omega), pow2_small hr _ (by omega), ← zpow_natCast, Int.toNat_of_nonneg hpos]

/-- `pow(2, n)` is zero for the 51 exponents whose power is a subnormal double. -/
theorem C136_pow_refuted (hr : RoundsToNearest ρ) {n : ℤ} (h1 : -1074 ≤ n) (h2 : n ≤ -1024) :
    IsDouble ((2 : ℝ) ^ n) ∧ (2 : ℝ) ^ n ≠ 0 ∧ Ieee.pow ρ (fin 2) n () = .ok (fin 0) () := by
  refine ⟨⟨1, n, by simp, by norm_num, h1, by omega⟩, by positivity, ?_⟩
  rw [C136_pow hr (by rw [abs_le]; constructor <;> omega), if_neg (by omega), if_neg (by omega)]

/-- `abs` of a complex number with finite parts: accurate, or an overflow that is not far off. -/
theorem C136_complex_abs (hr : RoundsToNearest ρ) {X Y : D} {x y : ℝ} (hX : Is X x) (hY : Is Y y) :
    (∃ V v, Is V v ∧ Gives (fun fuel => Ieee.complexAbs ρ fuel X Y) V ∧
      |v - ‖(⟨x, y⟩ : ℂ)‖| ≤ 52 / 100000 * ‖(⟨x, y⟩ : ℂ)‖ + 1 / 2 ^ 1075) ∨
    (Gives (fun fuel => Ieee.complexAbs ρ fuel X Y) (inf false) ∧ (1 - 52 / 100000) * lim ≤ ‖(⟨x, y⟩ : ℂ)‖) := by
  have e : ‖(⟨x, y⟩ : ℂ)‖ = Real.sqrt (x ^ 2 + y ^ 2) := by
    rw [Complex.norm_def, Complex.normSq_apply]
    congr 1; ring
  rw [e]
  exact complexAbs_value hr hX hY

/-- `floor` and `ceil` of a finite number are what C66 says of them: nothing overflows. -/
theorem C136_floor_ceil (hr : RoundsToNearest ρ) {A : D} {x : ℝ} (hA : Is A x) :
    Ieee.floor ρ A () = Cmath.floor ρ x () ∧ Ieee.ceil ρ A () = Cmath.ceil ρ x () :=
  ⟨floor_fin hr hA, ceil_fin hr hA⟩

/-! ### examples -/

example (hr : RoundsToNearest ρ) : Returns (fun fuel => Ieee.sqrt ρ fuel (fin 2)) ∧
    ¬ Returns (fun fuel => Ieee.sqrt ρ fuel nzero) := by
  have d2 : IsDouble (2 : ℝ) := by simpa using isDouble_int (K := ℝ) (k := 2) (by norm_num)
  refine ⟨(C135_sqrt hr (valid_fin d2)).1.mpr ⟨2, is_fin 2, by norm_num⟩, fun h => ?_⟩
  obtain ⟨x, hx, h0⟩ := (C135_sqrt hr valid_nzero).1.mp h
  exact absurd (is_nzero.unique hx) h0.ne

example (hr : RoundsToNearest ρ) : Returns (fun fuel => Ieee.sin ρ fuel (fin 1)) ∧
    Returns (fun fuel => Ieee.cos ρ fuel nzero) ∧ Never (fun fuel => Ieee.sinh ρ fuel (inf true)) :=
  ⟨(C135_sin hr (valid_fin isDouble_one)).1.mpr (is_fin 1).1, (C135_cos hr valid_nzero).1.mpr is_nzero.1,
    (C135_sinh hr valid_inf).2.mpr (by rintro (h | ⟨x, h⟩) <;> cases h)⟩

example (hr : RoundsToNearest ρ) : Returns (fun fuel => Ieee.atan2 ρ fuel (inf true) (fin 1)) ∧
    Never (fun fuel => Ieee.atan2 ρ fuel nan (fin 1)) ∧
    (∀ fuel, Ieee.atan2 ρ fuel nan (fin (-1)) () = .ok (fin 0) ()) := by
  have h1 : lt (fin 0) (fin 1) := ((is_fin 0).lt (is_fin 1)).mpr one_pos
  refine ⟨(C135_atan2 hr).1.mpr ?_, (C135_atan2 hr).2.mpr (not_not.mpr (Or.inl ⟨h1, rfl⟩)), fun fuel =>
    C136_atan2_refuted (Or.inr ⟨rfl, fun h => ?_⟩) fuel⟩
  · rintro (⟨-, h⟩ | ⟨⟨s, h⟩, -⟩) <;> cases h
  · have := ((is_fin 0).lt (is_fin (-1))).mp h
    linarith

/-- The quotient `1e300 / 1e-300` overflows, and the angle is right all the same. -/
example (hr : RoundsToNearest ρ) : ∃ V v, Is V v ∧ Gives (fun fuel => Ieee.atan2 ρ fuel (fin (2 ^ 900)) (fin (1 / 2 ^ 900))) V ∧
    |v - Complex.arg ⟨1 / 2 ^ 900, 2 ^ 900⟩| ≤ 1 / 19000 :=
  C136_atan2 hr (is_fin _) (is_fin _) (fun h => absurd h.2 (by positivity))

example (hr : RoundsToNearest ρ) : ∃ V v, Is V v ∧ Gives (fun fuel => Ieee.cosh ρ fuel (fin 0)) V ∧ |v - 1| ≤ 52 / 100000 := by
  obtain ⟨V, v, h1, h2, h3⟩ := C136_cosh_partial hr (is_fin 0) (valid_fin Fp.isDouble_zero) (by norm_num)
  exact ⟨V, v, h1, h2, by simpa using h3⟩

/-- `exp` of the smallest `int` is undefined, and the number after it is fine. -/
example (hr : RoundsToNearest ρ) : Ieee.exp ρ (fin (-2147483648)) () = .ub .precond ∧
    ∃ V, Ieee.exp ρ (fin (-2147483647)) () = .ok V () := by
  have d (k : ℤ) (h : |k| < 2 ^ 53) : IsDouble (k : ℝ) := isDouble_int h
  refine ⟨(C135_exp hr (valid_fin (by simpa using d (-2147483648) (by norm_num)))).2.mpr ?_,
    (C135_exp hr (valid_fin (by simpa using d (-2147483647) (by norm_num)))).1.mpr ⟨_, is_fin _, by norm_num, by norm_num⟩⟩
  rintro ⟨x, hx, h, -⟩
  have := (is_fin _).unique hx
  linarith

example (hr : RoundsToNearest ρ) : Ieee.pow ρ (fin 2) (-3) () = .ok (fin (1 / 8)) () := by
  rw [C136_pow hr (by norm_num), if_neg (by norm_num), if_pos (by norm_num)]
  norm_num

example : Ieee.log ρ 0 nzero () = .ok (inf true) () ∧ Ieee.log ρ 0 (inf true) () = .ok nan () :=
  ⟨(C136_log_special 0).1 is_nzero, (C136_log_special 0).2 (ninf_lt (is_fin 0))⟩

example (hr : RoundsToNearest ρ) : Returns (fun fuel => Ieee.complexAbs ρ fuel nzero nan) ∧
    ¬ Returns (fun fuel => Ieee.complexAbs ρ fuel (fin 1) nan) := by
  refine ⟨(C135_complex_abs hr).1.mpr (Or.inr ⟨is_nzero, rfl⟩), fun h => ?_⟩
  rcases (C135_complex_abs hr).1.mp h with ⟨-, h | ⟨x, h⟩⟩ | ⟨h, -⟩
  · cases h
  · cases h
  · exact absurd ((is_fin 1).unique h) one_ne_zero

end Cest.Ieee.Props
