import Verif.Cmath.Double
import Mathlib.Tactic.LinearCombination
import Mathlib.Algebra.Order.Floor.Semiring
import Mathlib.Algebra.BigOperators.Intervals
import Mathlib.Data.Nat.Factorial.Basic

set_option linter.unusedSectionVars false

namespace Cest.Cmath

section
variable {K : Type} [Field K] [LinearOrder K] [IsStrictOrderedRing K] [FloorRing K]
variable {ρ : K → K}

theorem toInt_ok {x : K} (h1 : intMin ≤ trunc x) (h2 : trunc x ≤ intMax) :
    toInt x () = .ok (trunc x) () := by simp [toInt, h1, h2]

theorem toInt_ub {x : K} (h : ¬ (intMin ≤ trunc x ∧ trunc x ≤ intMax)) :
    toInt x () = .ub .precond := by simp [toInt, h]

theorem trunc_int (k : ℤ) : trunc (k : K) = k := by simp [trunc]

theorem trunc_of_nonneg {x : K} (h : 0 ≤ x) : trunc x = ⌊x⌋ := by simp [trunc, h]
theorem trunc_of_nonpos {x : K} (h : x ≤ 0) : trunc x = ⌈x⌉ := by
  rcases h.lt_or_eq with h | rfl
  · simp [trunc, not_le.mpr h]
  · simp [trunc]

theorem ceil_of_not_int {x : K} (h : (⌊x⌋ : K) ≠ x) : ⌈x⌉ = ⌊x⌋ + 1 := by
  have h1 := Int.floor_le x
  have h2 := Int.lt_floor_add_one x
  rw [Int.ceil_eq_iff]
  push_cast
  exact ⟨by linarith [lt_of_le_of_ne h1 h], h2.le⟩

theorem fdiv_ok {a b : K} (h : b ≠ 0) : fdiv ρ a b () = .ok (ρ (a / b)) () := by simp [fdiv, h]

/-- What `floor` does when the subtraction is rounded to a nearest number. -/
theorem floor_eq (hr : RoundsToNearest ρ) {v : K} (h1 : intMin ≤ ⌊v⌋) (h2 : ⌊v⌋ ≤ intMax) :
    floor ρ v () =
      if v < 0 ∧ (⌊v⌋ : K) ≠ v ∧ ρ (v - 1) = ((⌊v⌋ - 1 : ℤ) : K)
      then toInt ((⌊v⌋ - 1 : ℤ) : K) () else .ok ⌊v⌋ () := by
  have hb : ∀ k : ℤ, intMin - 1 ≤ k → k ≤ intMax → IsDouble (k : K) := by
    intro k h1 h2
    apply isDouble_int
    rw [abs_lt]; simp only [intMin, intMax] at h1 h2; constructor <;> linarith
  by_cases hv : 0 ≤ v
  · have ht := trunc_of_nonneg hv
    have : ¬ v < 0 := not_lt.mpr hv
    simp [floor, toInt_ok (x := v) (ht ▸ h1) (ht ▸ h2), this, ht]
  · have hv' : v < 0 := not_le.mp hv
    have ht := trunc_of_nonpos hv'.le
    by_cases hi : (⌊v⌋ : K) = v
    · have hc : ⌈v⌉ = ⌊v⌋ := by rw [← hi]; simp
      rw [hc] at ht
      simp [floor, toInt_ok (x := v) (ht ▸ h1) (ht ▸ h2), ht, hi]
    · have hc := ceil_of_not_int hi
      rw [hc] at ht
      have hf0 : ⌊v⌋ ≤ -1 := by
        have : ⌊v⌋ < 0 := Int.floor_lt.mpr (by simpa using hv')
        omega
      have l1 := lt_of_le_of_ne (Int.floor_le v) hi
      have l2 := Int.lt_floor_add_one v
      have hk1 : intMin ≤ trunc v := by rw [ht]; omega
      have hk2 : trunc v ≤ intMax := by rw [ht]; simp only [intMax]; omega
      have hne : ((trunc v : ℤ) : K) ≠ v := by rw [ht]; push_cast; exact l2.ne'
      simp only [floor, M.bind_apply, toInt_ok hk1 hk2, hne, ne_eq, not_false_eq_true, hv', true_and,
        and_self, if_true, hi, fsub]
      have d1 : IsDouble ((⌊v⌋ - 1 : ℤ) : K) := hb _ (by omega) (by omega)
      have d2 : IsDouble ((⌊v⌋ : ℤ) : K) := hb _ (by omega) (by omega)
      have r1 : ((⌊v⌋ - 1 : ℤ) : K) ≤ ρ (v - 1) := hr.ge_of_ge d1 (by push_cast; linarith)
      have r2 : ρ (v - 1) ≤ (⌊v⌋ : K) := hr.le_of_le d2 (by linarith)
      split
      · next h => rw [h]
      · next h =>
        have r3 := lt_of_le_of_ne r1 (Ne.symm h)
        have hneg : ρ (v - 1) ≤ 0 := by
          have : (⌊v⌋ : K) ≤ -1 := by exact_mod_cast hf0
          linarith
        have : trunc (ρ (v - 1)) = ⌊v⌋ := by
          rw [trunc_of_nonpos hneg, Int.ceil_eq_iff]
          push_cast at r3
          exact ⟨r3, r2⟩
        rw [toInt_ok (this ▸ h1) (this ▸ h2), this]

/-- What `ceil` does when the addition is rounded to a nearest number. -/
theorem ceil_eq (hr : RoundsToNearest ρ) {v : K} (h1 : intMin ≤ ⌈v⌉) (h2 : ⌈v⌉ ≤ intMax) :
    ceil ρ v () =
      if 0 < v ∧ (⌈v⌉ : K) ≠ v ∧ ρ (v + 1) = ((⌈v⌉ + 1 : ℤ) : K)
      then toInt ((⌈v⌉ + 1 : ℤ) : K) () else .ok ⌈v⌉ () := by
  have hb : ∀ k : ℤ, intMin ≤ k → k ≤ intMax + 1 → IsDouble (k : K) := by
    intro k h1 h2
    apply isDouble_int
    rw [abs_lt]; simp only [intMin, intMax] at h1 h2; constructor <;> linarith
  by_cases hv : v ≤ 0
  · have ht := trunc_of_nonpos hv
    have : ¬ 0 < v := not_lt.mpr hv
    simp [ceil, toInt_ok (x := v) (ht ▸ h1) (ht ▸ h2), this, ht]
  · have hv' : 0 < v := not_le.mp hv
    have ht := trunc_of_nonneg hv'.le
    by_cases hi : (⌈v⌉ : K) = v
    · have hc : ⌊v⌋ = ⌈v⌉ := by rw [← hi]; simp
      rw [hc] at ht
      simp [ceil, toInt_ok (x := v) (ht ▸ h1) (ht ▸ h2), ht, hi]
    · have hfi : (⌊v⌋ : K) ≠ v := by
        intro h; apply hi; rw [← h]; simp
      have hc := ceil_of_not_int hfi
      have ht' : trunc v = ⌈v⌉ - 1 := by omega
      have hf0 : 1 ≤ ⌈v⌉ := by
        have : 0 < ⌈v⌉ := Int.ceil_pos.mpr hv'
        omega
      have l1 := lt_of_le_of_ne (Int.le_ceil v) (Ne.symm hi)
      have l2 := Int.ceil_lt_add_one v
      have hk1 : intMin ≤ trunc v := by rw [ht']; simp only [intMin]; omega
      have hk2 : trunc v ≤ intMax := by rw [ht']; omega
      have hne : ((trunc v : ℤ) : K) ≠ v := by rw [ht]; exact hfi
      simp only [ceil, M.bind_apply, toInt_ok hk1 hk2, hne, ne_eq, not_false_eq_true, hv', true_and,
        and_self, if_true, hi, fadd]
      have d1 : IsDouble ((⌈v⌉ + 1 : ℤ) : K) := hb _ (by omega) (by omega)
      have d2 : IsDouble ((⌈v⌉ : ℤ) : K) := hb _ (by omega) (by omega)
      have r1 : ρ (v + 1) ≤ ((⌈v⌉ + 1 : ℤ) : K) := hr.le_of_le d1 (by push_cast; linarith)
      have r2 : (⌈v⌉ : K) ≤ ρ (v + 1) := hr.ge_of_ge d2 (by linarith)
      split
      · next h => rw [h]
      · next h =>
        have r3 := lt_of_le_of_ne r1 h
        have hpos : 0 ≤ ρ (v + 1) := by
          have : (1 : K) ≤ (⌈v⌉ : K) := by exact_mod_cast hf0
          linarith
        have : trunc (ρ (v + 1)) = ⌈v⌉ := by
          rw [trunc_of_nonneg hpos, Int.floor_eq_iff]
          push_cast at r3
          exact ⟨r2, r3⟩
        rw [toInt_ok (this ▸ h1) (this ▸ h2), this]

/-! ### pow -/

theorem powNN_exact (b : K) (n : ℕ) : powNN id b n = b ^ n := by
  induction n using Nat.twoStepInduction with
  | zero => simp [powNN]
  | one => simp [powNN]
  | more n _ ih => rw [powNN, ih, fmul, id, ← pow_succ']

theorem relErr_factor {u : K} (h : RelErr u ρ) (x : K) : ∃ θ, ρ x = x * θ ∧ 1 - u ≤ θ ∧ θ ≤ 1 + u := by
  by_cases hx : x = 0
  · have := h x
    subst hx
    simp only [abs_zero, mul_zero] at this
    have h0 : ρ 0 - 0 = 0 := abs_nonpos_iff.mp this
    have hu := h 1
    have : 0 ≤ u := by
      have := (abs_nonneg _).trans hu
      simpa using this
    exact ⟨1, by linarith, by linarith, by linarith⟩
  · refine ⟨ρ x / x, by field_simp, ?_⟩
    have := h x
    have hd : |ρ x / x - 1| ≤ u := by
      rw [show ρ x / x - 1 = (ρ x - x) / x by field_simp, abs_div, div_le_iff₀ (abs_pos.mpr hx)]
      exact this
    rw [abs_le] at hd
    exact ⟨by linarith, by linarith⟩

theorem relErr_nonneg {u : K} (h : RelErr u ρ) : 0 ≤ u := by
  have := (abs_nonneg _).trans (h 1)
  simpa using this

theorem powNN_relErr {u : K} (h : RelErr u ρ) (hu : u < 1) (b : K) (n : ℕ) :
    ∃ θ, powNN ρ b n = b ^ n * θ ∧ (1 - u) ^ (n - 1) ≤ θ ∧ θ ≤ (1 + u) ^ (n - 1) := by
  have h0 := relErr_nonneg h
  induction n using Nat.twoStepInduction with
  | zero => exact ⟨1, by simp [powNN], by simp, by simp⟩
  | one => exact ⟨1, by simp [powNN], by simp, by simp⟩
  | more n _ ih =>
    obtain ⟨θ, e, l1, l2⟩ := ih
    obtain ⟨δ, e', m1, m2⟩ := relErr_factor h (b * powNN ρ b (n + 1))
    simp only [Nat.add_sub_cancel] at l1 l2
    have p1 : 0 < (1 - u) ^ n := pow_pos (by linarith) _
    refine ⟨θ * δ, ?_, ?_, ?_⟩
    · rw [powNN, fmul, e', e]; ring
    · show (1 - u) ^ (n + 1) ≤ θ * δ
      rw [pow_succ]
      exact mul_le_mul l1 m1 (by linarith) (by linarith)
    · show θ * δ ≤ (1 + u) ^ (n + 1)
      rw [pow_succ]
      exact mul_le_mul l2 m2 (by linarith) (by positivity)

/-! ### sqrt -/

theorem abs_eq (x : K) : abs x = |x| := by
  unfold abs
  split
  · next h => exact (abs_of_neg h).symm
  · next h => exact (abs_of_nonneg (not_lt.mp h)).symm

theorem sqrtHelper_stop {x g : K} (hg : g ≠ 0) (h : |g - x / g| < 1 / 1000 * g) (fuel : ℕ) :
    sqrtHelper id (fuel + 1) x g () = .ok g () := by
  simp only [sqrtHelper, M.bind_apply, fdiv_ok hg, fsub, fmul, tol, id, abs_eq]
  rw [if_pos h]; rfl

theorem sqrtHelper_step {x g : K} (hg : g ≠ 0) (h : ¬ |g - x / g| < 1 / 1000 * g) (fuel : ℕ) :
    sqrtHelper id (fuel + 1) x g () = sqrtHelper id fuel x ((g + x / g) / 2) () := by
  have h2 : (2 : K) ≠ 0 := two_ne_zero
  rw [sqrtHelper]
  simp only [M.bind_apply, fdiv_ok hg, fsub, fmul, tol, id, abs_eq]
  rw [if_neg h]
  simp only [M.bind_apply, fdiv_ok hg, fdiv_ok h2, fadd, id]

/-- The invariant of the iteration: positive, and at least the root. -/
theorem newton_inv {x g : K} (hx : 0 < x) (hg : 0 < g) :
    0 < (g + x / g) / 2 ∧ x ≤ ((g + x / g) / 2) ^ 2 := by
  refine ⟨by positivity, ?_⟩
  have : ((g + x / g) / 2) ^ 2 - x = ((g - x / g) / 2) ^ 2 := by field_simp; ring
  nlinarith [sq_nonneg ((g - x / g) / 2)]

/-- The gap `g - x/g` at least halves in every step. -/
theorem newton_gap {x g : K} (hx : 0 < x) (hg : 0 < g) (hge : x ≤ g ^ 2) :
    0 ≤ g - x / g ∧ (g + x / g) / 2 - x / ((g + x / g) / 2) ≤ (g - x / g) / 2 := by
  have hq : 0 < x / g := by positivity
  have h1 : 0 ≤ g - x / g := by
    rw [sub_nonneg, div_le_iff₀ hg]; nlinarith
  refine ⟨h1, ?_⟩
  set g' := (g + x / g) / 2 with hg'
  have hpos : 0 < g' := by positivity
  have hd : g' - x / g' = ((g - x / g) / 2) * (((g - x / g) / 2) / g') := by
    have : g' ^ 2 - x = ((g - x / g) / 2) ^ 2 := by rw [hg']; field_simp; ring
    rw [show g' - x / g' = (g' ^ 2 - x) / g' by field_simp, this]; ring
  rw [hd]
  have : ((g - x / g) / 2) / g' ≤ 1 := by
    rw [div_le_one hpos]; linarith
  nlinarith

theorem sqrtHelper_conv {x c : K} (hx : 0 < x) (n : ℕ) :
    ∀ g, 0 < g → x ≤ g ^ 2 → (∀ y, 0 < y → x ≤ y ^ 2 → c ≤ 1 / 1000 * y) → g - x / g < c * 2 ^ n →
      ∃ r, 0 < r ∧ |r - x / r| < 1 / 1000 * r ∧
        ∀ fuel, n + 1 ≤ fuel → sqrtHelper id fuel x g () = .ok r () := by
  induction n with
  | zero =>
    intro g hg hge hcy hgap
    have h1 := (newton_gap hx hg hge).1
    have : |g - x / g| < 1 / 1000 * g := by
      rw [abs_of_nonneg h1]
      have := hcy g hg hge
      simp at hgap
      linarith
    refine ⟨g, hg, this, fun fuel hf => ?_⟩
    obtain ⟨k, rfl⟩ : ∃ k, fuel = k + 1 := ⟨fuel - 1, by omega⟩
    exact sqrtHelper_stop hg.ne' this k
  | succ n ih =>
    intro g hg hge hcy hgap
    by_cases hs : |g - x / g| < 1 / 1000 * g
    · refine ⟨g, hg, hs, fun fuel hf => ?_⟩
      obtain ⟨k, rfl⟩ : ∃ k, fuel = k + 1 := ⟨fuel - 1, by omega⟩
      exact sqrtHelper_stop hg.ne' hs k
    · obtain ⟨i1, i2⟩ := newton_inv hx hg
      have h2 := (newton_gap hx hg hge).2
      obtain ⟨r, hr, hr', hrun⟩ := ih _ i1 i2 hcy (by
        refine lt_of_le_of_lt h2 ?_
        rw [pow_succ] at hgap
        linarith)
      refine ⟨r, hr, hr', fun fuel hf => ?_⟩
      obtain ⟨k, rfl⟩ : ∃ k, fuel = k + 1 := ⟨fuel - 1, by omega⟩
      rw [sqrtHelper_step hg.ne' hs]
      exact hrun k (by omega)

theorem sqrtHelper_terminates {x g : K} (hx : 0 < x) (hg : 0 < g) :
    ∃ r, 0 < r ∧ |r - x / r| < 1 / 1000 * r ∧
      ∃ N, ∀ fuel, N ≤ fuel → sqrtHelper id fuel x g () = .ok r () := by
  by_cases hs : |g - x / g| < 1 / 1000 * g
  · refine ⟨g, hg, hs, 1, fun fuel hf => ?_⟩
    obtain ⟨k, rfl⟩ : ∃ k, fuel = k + 1 := ⟨fuel - 1, by omega⟩
    exact sqrtHelper_stop hg.ne' hs k
  · obtain ⟨i1, i2⟩ := newton_inv hx hg
    set g1 := (g + x / g) / 2 with hg1
    have hm : 0 < min 1 x := lt_min one_pos hx
    have hcy : ∀ y, 0 < y → x ≤ y ^ 2 → 1 / 1000 * min 1 x ≤ 1 / 1000 * y := by
      intro y hy hxy
      have : min 1 x ≤ y := by
        by_contra hc
        rw [not_le, lt_min_iff] at hc
        nlinarith
      linarith
    have hc : 0 < 1 / 1000 * min 1 x := by positivity
    obtain ⟨n, hn⟩ := pow_unbounded_of_one_lt ((g1 - x / g1) / (1 / 1000 * min 1 x)) (one_lt_two (α := K))
    obtain ⟨r, h1, h2, h3⟩ := sqrtHelper_conv hx n g1 i1 i2 hcy (by
      rw [div_lt_iff₀ hc] at hn; linarith)
    refine ⟨r, h1, h2, n + 2, fun fuel hf => ?_⟩
    obtain ⟨k, rfl⟩ : ∃ k, fuel = k + 1 := ⟨fuel - 1, by omega⟩
    rw [sqrtHelper_step hg.ne' hs]
    exact h3 k (by omega)

/-! ### sqrt of a number that is not positive -/

/-- Exact arithmetic and rounding to nearest, seen together: `D` are the representable numbers. -/
structure Rounding (D : K → Prop) (ρ : K → K) : Prop where
  rep : ∀ x, D (ρ x)
  zero : D 0
  one : D 1
  le_of_le : ∀ {x d}, D d → x ≤ d → ρ x ≤ d
  ge_of_ge : ∀ {x d}, D d → d ≤ x → d ≤ ρ x

theorem Rounding.exact : Rounding (fun _ : K => True) id :=
  ⟨fun _ => trivial, trivial, trivial, fun _ h => h, fun _ h => h⟩

theorem RoundsToNearest.rounding (h : RoundsToNearest ρ) : Rounding IsDouble ρ :=
  ⟨h.double, by simpa using isDouble_int (K := K) (k := 0) (by norm_num),
    by simpa using isDouble_int (K := K) (k := 1) (by norm_num), h.le_of_le, h.ge_of_ge⟩

theorem sqrtHelper_never {D : K → Prop} (hr : Rounding D ρ) {x : K} (hx : x ≤ 0) :
    ∀ fuel g v, D g → sqrtHelper ρ fuel x g () ≠ .ok v () := by
  intro fuel
  induction fuel with
  | zero => intro g v _; simp [sqrtHelper]
  | succ fuel ih =>
    intro g v hD
    by_cases hg : g = 0
    · simp [sqrtHelper, fdiv, hg]
    · have htol0 : 0 ≤ tol ρ := hr.ge_of_ge hr.zero (by norm_num)
      have htol1 : tol ρ ≤ 1 := hr.le_of_le hr.one (by norm_num)
      have hstop : ¬ abs (fsub ρ g (ρ (x / g))) < fmul ρ (tol ρ) g := by
        rw [abs_eq, not_lt, fsub, fmul]
        rcases lt_or_gt_of_ne hg with hneg | hpos
        · have hq : 0 ≤ ρ (x / g) := hr.ge_of_ge hr.zero (div_nonneg_of_nonpos hx hneg.le)
          have h2 : ρ (tol ρ * g) ≤ 0 := hr.le_of_le hr.zero (by nlinarith)
          exact h2.trans (abs_nonneg _)
        · have hq : ρ (x / g) ≤ 0 := hr.le_of_le hr.zero (div_nonpos_of_nonpos_of_nonneg hx hpos.le)
          have h1 : g ≤ ρ (g - ρ (x / g)) := hr.ge_of_ge hD (by linarith)
          have h2 : ρ (tol ρ * g) ≤ g := hr.le_of_le hD (by nlinarith)
          exact h2.trans (h1.trans (le_abs_self _))
      rw [sqrtHelper]
      simp only [M.bind_apply, fdiv_ok hg, if_neg hstop, fdiv_ok (two_ne_zero (α := K))]
      exact ih _ v (hr.rep _)

theorem sqrtHelper_zero_diverges : ∀ fuel (g : K), 0 < g → sqrtHelper id fuel 0 g () = .timeout := by
  intro fuel
  induction fuel with
  | zero => intro g _; simp [sqrtHelper]
  | succ fuel ih =>
    intro g hg
    rw [sqrtHelper_step hg.ne' (by simp [abs_of_pos hg]; linarith)]
    exact ih _ (by simp; exact hg)

/-! ### nearest and fraction -/

theorem trunc_bounds (x : K) : |x - trunc x| < 1 ∧ (0 ≤ x → (trunc x : K) ≤ x) ∧ (x ≤ 0 → x ≤ trunc x) := by
  refine ⟨?_, fun h => ?_, fun h => ?_⟩
  · rcases le_total 0 x with h | h
    · rw [trunc_of_nonneg h, abs_lt]
      have h1 := Int.floor_le x
      have h2 := Int.lt_floor_add_one x
      constructor <;> linarith
    · rw [trunc_of_nonpos h, abs_lt]
      have h1 := Int.le_ceil x
      have h2 := Int.ceil_lt_add_one x
      constructor <;> linarith
  · rw [trunc_of_nonneg h]; exact Int.floor_le x
  · rw [trunc_of_nonpos h]; exact Int.le_ceil x

/-- When `nearest` rounds up: `x` is positive and `(int)(x+0.5)` is `(int)x + 1`. -/
theorem trunc_half {x : K} (h : (trunc x : K) < x - 1 / 2) : 0 ≤ x ∧ trunc (x + 1 / 2) = trunc x + 1 := by
  have hb := trunc_bounds x
  have hx : 0 ≤ x := by
    by_contra hc
    have := hb.2.2 (not_le.mp hc).le
    linarith
  refine ⟨hx, ?_⟩
  rw [trunc_of_nonneg (by linarith : 0 ≤ x + 1 / 2), Int.floor_eq_iff]
  have := (abs_lt.mp hb.1).2
  push_cast
  constructor <;> linarith

/-! ### decimal decomposition -/

theorem decimal_ok (n : ℕ) : ∀ (x : K) (e : ℤ), 1 ≤ x → x < 10 ^ (n + 1) →
    ∃ (k : ℕ) (m : K), 1 ≤ m ∧ m < 10 ∧ x = m * 10 ^ k ∧
      (∀ fuel, n + 1 ≤ fuel → mantissa id fuel x () = .ok m ()) ∧
      (∀ fuel, n + 1 ≤ fuel → exponentHelper id fuel x e () = .ok (e + k) ()) := by
  induction n with
  | zero =>
    intro x e h1 h2
    have h10 : ¬ 10 ≤ x := by simp at h2; exact not_le.mpr h2
    have h11 : ¬ x < 1 := not_lt.mpr h1
    refine ⟨0, x, h1, by simpa using h2, by simp, ?_, ?_⟩ <;>
    · intro fuel hf
      obtain ⟨k, rfl⟩ : ∃ k, fuel = k + 1 := ⟨fuel - 1, by omega⟩
      simp [mantissa, exponentHelper, h10, h11]
  | succ n ih =>
    intro x e h1 h2
    by_cases h10 : 10 ≤ x
    · obtain ⟨k, m, a1, a2, a3, a4, a5⟩ := ih (x * (1 / 10)) (e + 1) (by linarith) (by
        rw [pow_succ] at h2; linarith)
      refine ⟨k + 1, m, a1, a2, by rw [pow_succ, ← mul_assoc, ← a3]; ring, ?_, ?_⟩
      · intro fuel hf
        obtain ⟨j, rfl⟩ : ∃ k, fuel = k + 1 := ⟨fuel - 1, by omega⟩
        simp only [mantissa, h10, if_true, fmul, id]
        exact a4 j (by omega)
      · intro fuel hf
        obtain ⟨j, rfl⟩ : ∃ k, fuel = k + 1 := ⟨fuel - 1, by omega⟩
        simp only [exponentHelper, h10, if_true, fmul, id]
        rw [a5 j (by omega)]; push_cast; congr 1; ring
    · have h11 : ¬ x < 1 := not_lt.mpr h1
      refine ⟨0, x, h1, not_le.mp h10, by simp, ?_, ?_⟩ <;>
      · intro fuel hf
        obtain ⟨k, rfl⟩ : ∃ k, fuel = k + 1 := ⟨fuel - 1, by omega⟩
        simp [mantissa, exponentHelper, h10, h11]

theorem decimal_small (n : ℕ) : ∀ (x : K) (e : ℤ), 0 < x → x < 10 → 1 ≤ x * 10 ^ n →
    ∃ (k : ℕ) (m : K), 1 ≤ m ∧ m < 10 ∧ x * 10 ^ k = m ∧
      (∀ fuel, n + 1 ≤ fuel → mantissa id fuel x () = .ok m ()) ∧
      (∀ fuel, n + 1 ≤ fuel → exponentHelper id fuel x e () = .ok (e - k) ()) := by
  induction n with
  | zero =>
    intro x e h0 h2 h1
    have h10 : ¬ 10 ≤ x := not_le.mpr h2
    have h11 : ¬ x < 1 := not_lt.mpr (by simpa using h1)
    refine ⟨0, x, by simpa using h1, h2, by simp, ?_, ?_⟩ <;>
    · intro fuel hf
      obtain ⟨k, rfl⟩ : ∃ k, fuel = k + 1 := ⟨fuel - 1, by omega⟩
      simp [mantissa, exponentHelper, h10, h11]
  | succ n ih =>
    intro x e h0 h2 h1
    have h10 : ¬ 10 ≤ x := not_le.mpr h2
    by_cases h11 : x < 1
    · obtain ⟨k, m, a1, a2, a3, a4, a5⟩ := ih (x * 10) (e - 1) (by linarith) (by linarith) (by
        rw [pow_succ] at h1; linarith)
      refine ⟨k + 1, m, a1, a2, by rw [← a3, pow_succ]; ring, ?_, ?_⟩
      · intro fuel hf
        obtain ⟨j, rfl⟩ : ∃ k, fuel = k + 1 := ⟨fuel - 1, by omega⟩
        simp only [mantissa, h10, h11, if_true, if_false, fmul, id]
        exact a4 j (by omega)
      · intro fuel hf
        obtain ⟨j, rfl⟩ : ∃ k, fuel = k + 1 := ⟨fuel - 1, by omega⟩
        simp only [exponentHelper, h10, h11, if_true, if_false, fmul, id]
        rw [a5 j (by omega)]; push_cast; congr 1; ring
    · refine ⟨0, x, not_lt.mp h11, h2, by simp, ?_, ?_⟩ <;>
      · intro fuel hf
        obtain ⟨k, rfl⟩ : ∃ k, fuel = k + 1 := ⟨fuel - 1, by omega⟩
        simp [mantissa, exponentHelper, h10, h11]

theorem decimal {x : K} (hx : 0 < x) : ∃ (e : ℤ) (m : K), 1 ≤ m ∧ m < 10 ∧ x = m * 10 ^ e ∧
    Gives (fun fuel => mantissa id fuel x) m ∧ Gives (fun fuel => exponent id fuel x) e := by
  rcases le_or_gt 1 x with h | h
  · obtain ⟨n, hn⟩ := pow_unbounded_of_one_lt x (by norm_num : (1 : K) < 10)
    obtain ⟨k, m, a1, a2, a3, a4, a5⟩ := decimal_ok n x 0 h (hn.trans_le (pow_le_pow_right₀ (by norm_num) (by omega)))
    refine ⟨k, m, a1, a2, by simpa using a3, ⟨n + 1, a4⟩, ⟨n + 1, fun fuel hf => ?_⟩⟩
    have := a5 fuel hf
    simpa [exponent] using this
  · obtain ⟨n, hn⟩ := pow_unbounded_of_one_lt (1 / x) (by norm_num : (1 : K) < 10)
    obtain ⟨k, m, a1, a2, a3, a4, a5⟩ := decimal_small n x 0 hx (by linarith) (by
      rw [div_lt_iff₀ hx] at hn; linarith)
    refine ⟨-k, m, a1, a2, ?_, ⟨n + 1, a4⟩, ⟨n + 1, fun fuel hf => ?_⟩⟩
    · rw [← a3, zpow_neg, zpow_natCast]; field_simp
    · have := a5 fuel hf
      simpa [exponent] using this

theorem decimal_diverges {x : K} (hx : x ≤ 0) (fuel : ℕ) : mantissa id fuel x () = .timeout := by
  induction fuel generalizing x with
  | zero => rfl
  | succ n ih =>
    simp only [mantissa, not_le.mpr (by linarith : x < 10), if_false, (by linarith : x < 1), if_true, fmul, id]
    exact ih (by linarith)

end
end Cest.Cmath
