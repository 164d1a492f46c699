import Verif.Cmath.Spec
import Mathlib.Data.Set.Finite.Lattice
import Mathlib.Order.Interval.Finset.Basic
import Mathlib.Algebra.Ring.Parity
import Mathlib.Data.Set.Finite.Lemmas
import Mathlib.Data.Finite.Prod

/-! Facts about binary64 numbers and rounding. -/
set_option linter.unusedSectionVars false

namespace Cest.Cmath

variable {K : Type} [Field K] [LinearOrder K] [IsStrictOrderedRing K]

theorem EvenDouble.isDouble {d : K} (h : EvenDouble d) : IsDouble d := by
  obtain ⟨m, e, h1, -, h3, h4, h5, -⟩ := h
  exact ⟨m, e, h1, h3, h4, h5⟩

theorem isDouble_int {k : ℤ} (h : |k| < 2 ^ 53) : IsDouble (k : K) :=
  ⟨k, 0, by simp, h, by norm_num, by norm_num⟩

theorem finite_doubles : {d : K | IsDouble d}.Finite := by
  have : {d : K | IsDouble d} ⊆
      (fun p : ℤ × ℤ => (p.1 : K) * 2 ^ p.2) '' (Set.Icc (-2 ^ 53) (2 ^ 53) ×ˢ Set.Icc (-1074) 971) := by
    rintro d ⟨m, e, h1, h2, h3, h4⟩
    rw [abs_lt] at h2
    exact ⟨(m, e), ⟨⟨h2.1.le, h2.2.le⟩, h3, h4⟩, h1.symm⟩
  refine Set.Finite.subset (Set.Finite.image _ ?_) this
  exact Set.Finite.prod (Set.finite_Icc _ _) (Set.finite_Icc _ _)

/-- The IEEE rounding exists. -/
theorem exists_roundsTiesEven : ∃ ρ : K → K, RoundsTiesEven ρ := by
  have h0 : ∀ x : K, ∃ d, IsDouble d ∧ (∀ d', IsDouble d' → |x - d| ≤ |x - d'|) ∧
      ∀ d', EvenDouble d' → |x - d'| = |x - d| → EvenDouble d := by
    intro x
    have hne : {d : K | IsDouble d}.Nonempty := ⟨((0 : ℤ) : K), isDouble_int (by norm_num)⟩
    obtain ⟨d, hd, hmin⟩ := Set.exists_min_image _ (fun d => |x - d|) finite_doubles hne
    by_cases h : ∃ d', EvenDouble d' ∧ |x - d'| = |x - d|
    · obtain ⟨d', he, hd'⟩ := h
      exact ⟨d', he.isDouble, fun d'' h'' => hd' ▸ hmin d'' h'', fun _ _ _ => he⟩
    · exact ⟨d, hd, hmin, fun d' h1 h2 => absurd ⟨d', h1, h2⟩ h⟩
  choose ρ h using h0
  exact ⟨ρ, ⟨⟨fun x => (h x).1, fun x => (h x).2.1⟩, fun x => (h x).2.2⟩⟩

variable {ρ : K → K}

/-- Rounding does not cross a binary64 number. -/
theorem RoundsToNearest.le_of_le (h : RoundsToNearest ρ) {x d : K} (hd : IsDouble d) (hx : x ≤ d) :
    ρ x ≤ d := by
  have := h.nearest x d hd
  rw [abs_of_nonpos (by linarith : x - d ≤ 0)] at this
  have := neg_abs_le (x - ρ x)
  linarith

theorem RoundsToNearest.ge_of_ge (h : RoundsToNearest ρ) {x d : K} (hd : IsDouble d) (hx : d ≤ x) :
    d ≤ ρ x := by
  have := h.nearest x d hd
  rw [abs_of_nonneg (by linarith : 0 ≤ x - d)] at this
  have := le_abs_self (x - ρ x)
  linarith

theorem RoundsToNearest.exact (h : RoundsToNearest ρ) {d : K} (hd : IsDouble d) : ρ d = d :=
  le_antisymm (h.le_of_le hd le_rfl) (h.ge_of_ge hd le_rfl)

/-- Between `2 - 2^-52` and `2` there is no other binary64 number. -/
theorem double_near_two {d : K} (hd : IsDouble d) (h1 : 2 - 2 ^ (-52 : ℤ) ≤ d) (h2 : d ≤ 2) :
    d = 2 - 2 ^ (-52 : ℤ) ∨ d = 2 := by
  obtain ⟨m, e, rfl, hm, he1, he2⟩ := hd
  rw [abs_lt] at hm
  by_cases he : -52 ≤ e
  · -- a multiple of 2^-52
    obtain ⟨k, rfl⟩ : ∃ k : ℕ, e = -52 + k := ⟨(e + 52).toNat, by omega⟩
    have hpos : (0 : K) < 2 ^ (-52 : ℤ) := by positivity
    have e2 : (m : K) * 2 ^ (-52 + (k : ℤ)) = ((m * 2 ^ k : ℤ) : K) * 2 ^ (-52 : ℤ) := by
      rw [zpow_add₀ (by norm_num : (2 : K) ≠ 0)]; push_cast; rw [zpow_natCast]; ring
    have e3 : (2 : K) = ((2 ^ 53 : ℤ) : K) * 2 ^ (-52 : ℤ) := by norm_num
    rw [e2] at h1 h2 ⊢
    clear e2
    generalize m * 2 ^ k = j at *
    have a1 : j ≤ 2 ^ 53 := by
      have := le_of_mul_le_mul_right (h2.trans_eq e3) hpos
      exact_mod_cast this
    have a2 : 2 ^ 53 - 1 ≤ j := by
      have : (((2 ^ 53 - 1 : ℤ)) : K) * 2 ^ (-52 : ℤ) ≤ (j : K) * 2 ^ (-52 : ℤ) := by
        refine le_trans (le_of_eq ?_) h1
        norm_num
      have := le_of_mul_le_mul_right this hpos
      exact_mod_cast this
    rcases (by omega : j = 2 ^ 53 - 1 ∨ j = 2 ^ 53) with rfl | rfl
    · left; norm_num
    · right; norm_num
  · exfalso
    have h3 : (2 : K) ^ e ≤ 2 ^ (-53 : ℤ) := zpow_le_zpow_right₀ (by norm_num) (by omega)
    have h4 : (m : K) ≤ 2 ^ 53 := by exact_mod_cast hm.2.le
    have h5 : (m : K) * 2 ^ e ≤ 2 ^ 53 * 2 ^ (-53 : ℤ) :=
      mul_le_mul h4 h3 (by positivity) (by positivity)
    have h6 : (2 : K) ^ 53 * 2 ^ (-53 : ℤ) = 1 := by norm_num
    have h7 : (2 : K) ^ (-52 : ℤ) < 1 := by norm_num
    linarith

theorem IsDouble.neg {d : K} (h : IsDouble d) : IsDouble (-d) := by
  obtain ⟨m, e, rfl, h1, h2, h3⟩ := h
  exact ⟨-m, e, by push_cast; ring, by rwa [abs_neg], h2, h3⟩

theorem EvenDouble.neg {d : K} (h : EvenDouble d) : EvenDouble (-d) := by
  obtain ⟨m, e, rfl, h0, h1, h2, h3, h4⟩ := h
  exact ⟨-m, e, by push_cast; ring, h0.neg, by rwa [abs_neg], h2, h3, by rwa [abs_neg]⟩

theorem even_two : EvenDouble (2 : K) :=
  ⟨2 ^ 52, -51, by norm_num, by decide, by norm_num, by norm_num, by norm_num,
    Or.inl (by norm_num)⟩

theorem not_even_pred_two : ¬ EvenDouble (2 - 2 ^ (-52 : ℤ) : K) := by
  rintro ⟨m, e, h, hm, hlt, he1, he2, hn⟩
  have hm1 : (m : K) * 2 ^ e < 2 := by rw [← h]; norm_num
  have hm2 : (1 : K) < m * 2 ^ e := by rw [← h]; norm_num
  have hpe : (0 : K) < 2 ^ e := by positivity
  have hm0 : 0 < m := by
    by_contra hc
    have : (m : K) ≤ 0 := by exact_mod_cast not_lt.mp hc
    nlinarith
  rw [abs_of_pos hm0] at hlt hn
  rcases hn with hn | rfl
  · have he : e = -52 := by
      by_contra hc
      rcases lt_or_gt_of_ne hc with h' | h'
      · have h3 : (2 : K) ^ e ≤ 2 ^ (-53 : ℤ) := zpow_le_zpow_right₀ (by norm_num) (by omega)
        have h4 : (m : K) ≤ 2 ^ 53 := by exact_mod_cast hlt.le
        have h5 : (m : K) * 2 ^ e ≤ 2 ^ 53 * 2 ^ (-53 : ℤ) := mul_le_mul h4 h3 hpe.le (by positivity)
        have h6 : (2 : K) ^ 53 * 2 ^ (-53 : ℤ) = 1 := by norm_num
        linarith
      · have h3 : (2 : K) ^ (-51 : ℤ) ≤ 2 ^ e := zpow_le_zpow_right₀ (by norm_num) (by omega)
        have h4 : (2 : K) ^ 52 ≤ m := by exact_mod_cast hn
        have h5 : (2 : K) ^ 52 * 2 ^ (-51 : ℤ) ≤ m * 2 ^ e := mul_le_mul h4 h3 (by positivity) (by positivity)
        have h6 : (2 : K) ^ 52 * 2 ^ (-51 : ℤ) = 2 := by norm_num
        linarith
    subst he
    have : ((2 ^ 53 - 1 : ℤ) : K) = (m : K) := by
      have hp : (0 : K) < 2 ^ (-52 : ℤ) := by positivity
      have e1 : (2 - 2 ^ (-52 : ℤ) : K) = ((2 ^ 53 - 1 : ℤ) : K) * 2 ^ (-52 : ℤ) := by norm_num
      rw [e1] at h
      exact mul_right_cancel₀ hp.ne' h
    have : m = 2 ^ 53 - 1 := by exact_mod_cast this.symm
    subst this
    exact absurd hm (by decide)
  · have h3 : (2 : K) ^ (-1074 : ℤ) ≤ 2 ^ (-53 : ℤ) := zpow_le_zpow_right₀ (by norm_num) (by norm_num)
    have h4 : (m : K) ≤ 2 ^ 53 := by exact_mod_cast hlt.le
    have h5 : (m : K) * 2 ^ (-1074 : ℤ) ≤ 2 ^ 53 * 2 ^ (-53 : ℤ) := mul_le_mul h4 h3 hpe.le (by positivity)
    have h6 : (2 : K) ^ 53 * 2 ^ (-53 : ℤ) = 1 := by norm_num
    linarith

/-- The halfway case between `2 - 2^-52` and `2` goes up. -/
theorem round_half_two (h : RoundsTiesEven ρ) : ρ (2 - 2 ^ (-53 : ℤ)) = 2 := by
  set x : K := 2 - 2 ^ (-53 : ℤ) with hx
  have d2 : IsDouble (2 : K) := even_two.isDouble
  have dp : IsDouble (2 - 2 ^ (-52 : ℤ) : K) :=
    ⟨2 ^ 53 - 1, -52, by norm_num, by norm_num, by norm_num, by norm_num⟩
  have hle : ρ x ≤ 2 := h.le_of_le d2 (by rw [hx]; norm_num)
  have hge : 2 - 2 ^ (-52 : ℤ) ≤ ρ x := h.ge_of_ge dp (by rw [hx]; norm_num)
  rcases double_near_two (h.double x) hge hle with e | e
  · exfalso
    have := h.ties x 2 even_two (by rw [e, hx]; norm_num)
    rw [e] at this
    exact not_even_pred_two this
  · exact e

theorem round_half_neg_two (h : RoundsTiesEven ρ) : ρ (-(2 - 2 ^ (-53 : ℤ))) = -2 := by
  -- rounding mirrored
  have h' : RoundsTiesEven (fun x => -ρ (-x)) := by
    refine ⟨⟨fun x => (h.double _).neg, fun x d hd => ?_⟩, fun x d hd he => ?_⟩
    · have := h.nearest (-x) (-d) hd.neg
      rw [show -x - ρ (-x) = -(x - -ρ (-x)) by ring, show -x - -d = -(x - d) by ring, abs_neg, abs_neg] at this
      exact this
    · have := h.ties (-x) (-d) hd.neg (by
        rw [show -x - ρ (-x) = -(x - -ρ (-x)) by ring, show -x - -d = -(x - d) by ring, abs_neg, abs_neg]
        exact he)
      exact this.neg
  have := round_half_two h'
  linarith

end Cest.Cmath
