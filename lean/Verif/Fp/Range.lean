import Verif.Fp.Order

/-! Lemmas for C145: `sin` and `cos` never exceed 1 in absolute value. -/

namespace Cest.Fp
open Cest Cest.Cmath

variable {ρ : ℝ → ℝ}

/-- `d` is a double nearest to `x`. -/
def Near (x d : ℝ) : Prop := IsDouble d ∧ ∀ d', IsDouble d' → |x - d| ≤ |x - d'|

theorem near_round (hr : RoundsToNearest ρ) (x : ℝ) : Near x (ρ x) := ⟨hr.double x, hr.nearest x⟩

theorem Near.neg {x d : ℝ} (h : Near x d) : Near (-x) (-d) := by
  refine ⟨h.1.neg, fun d' hd' => ?_⟩
  have := h.2 (-d') hd'.neg
  rwa [← abs_neg, ← abs_neg (-x - d'), show -(-x - -d) = x - d by ring,
    show -(-x - d') = x - -d' by ring]

/-- A nearest double is the value of some rounding to nearest. -/
theorem Near.rounding {x d : ℝ} (h : Near x d) : ∃ ρ : ℝ → ℝ, RoundsToNearest ρ ∧ ρ x = d := by
  obtain ⟨ρ, hr⟩ := exists_roundsTiesEven (K := ℝ)
  refine ⟨Function.update ρ x d, ⟨fun y => ?_, fun y d' hd' => ?_⟩, Function.update_self ..⟩
  · by_cases c : y = x
    · subst c; rw [Function.update_self]; exact h.1
    · rw [Function.update_of_ne c]; exact hr.double y
  · by_cases c : y = x
    · subst c; rw [Function.update_self]; exact h.2 d' hd'
    · rw [Function.update_of_ne c]; exact hr.nearest y d' hd'

theorem Near.le {x d d' : ℝ} (h : Near x d) (hd : IsDouble d') (hx : x ≤ d') : d ≤ d' := by
  obtain ⟨ρ, hr, rfl⟩ := h.rounding
  exact hr.le_of_le hd hx

theorem Near.ge {x d d' : ℝ} (h : Near x d) (hd : IsDouble d') (hx : d' ≤ x) : d' ≤ d := by
  obtain ⟨ρ, hr, rfl⟩ := h.rounding
  exact hr.ge_of_ge hd hx

theorem Near.err {x d B : ℝ} (h : Near x d) (hx : |x| ≤ B) (h1 : 1 ≤ B) (h2 : B ≤ 10 ^ 30) : |d - x| ≤ u * B := by
  obtain ⟨ρ, hr, rfl⟩ := h.rounding
  exact Cest.Fp.err hr hx h1 h2

theorem Near.exact {x d : ℝ} (h : Near x d) (hx : IsDouble x) : d = x :=
  le_antisymm (h.le hx le_rfl) (h.ge hx le_rfl)

theorem dbl (k : ℤ) (n : ℕ) (hn : n ≤ 1074) (hk : |k| < 2 ^ 53) : IsDouble ((k : ℝ) / 2 ^ n) :=
  ⟨k, -n, by rw [zpow_neg, zpow_natCast]; rfl, hk, by omega, by omega⟩

/-- A double that is not small is a multiple of its spacing. -/
theorem multiple {d : ℝ} (h : IsDouble d) {n : ℕ} (hd : 2 ^ 52 / 2 ^ n ≤ |d|) : ∃ k : ℤ, d = k / 2 ^ n := by
  obtain ⟨m, e, rfl, hm, -, -⟩ := h
  by_cases c : -(n : ℤ) ≤ e
  · obtain ⟨j, hj⟩ : ∃ j : ℕ, e = -n + j := ⟨(e + n).toNat, by omega⟩
    refine ⟨m * 2 ^ j, ?_⟩
    rw [hj, zpow_add₀ (by norm_num : (2 : ℝ) ≠ 0), zpow_neg, zpow_natCast, zpow_natCast]
    push_cast
    field_simp
  · exfalso
    have h3 : (2 : ℝ) ^ e ≤ 2 ^ (-(n : ℤ) - 1) := zpow_le_zpow_right₀ (by norm_num) (by omega)
    have h4 : (|m| : ℝ) < 2 ^ 53 := by exact_mod_cast hm
    have e0 : (0 : ℝ) < 2 ^ e := by positivity
    rw [abs_mul, abs_of_pos e0] at hd
    have h5 : |(m : ℝ)| * 2 ^ e < 2 ^ 53 * 2 ^ (-(n : ℤ) - 1) := mul_lt_mul h4 h3 e0 (by positivity)
    have h6 : (2 : ℝ) ^ 53 * 2 ^ (-(n : ℤ) - 1) = 2 ^ 52 / 2 ^ n := by
      rw [zpow_sub₀ (by norm_num : (2 : ℝ) ≠ 0), zpow_neg, zpow_natCast]
      norm_num
      ring
    linarith

theorem u_eq : u = 1 / 2 ^ 53 := rfl

/-- Just above a half. -/
theorem sin_half_up {i : ℤ} (i0 : 0 ≤ i) (i1 : i ≤ 2 ^ 30) {s A Q C D : ℝ} (hs : s = 1 / 2 + i * u)
    (hA : Near (3 * s) A) (hQ : Near (s * s) Q) (hC : Near (Q * s) C) (hD : Near (4 * C) D) : A - D ≤ 1 + u := by
  have hu := u_pos
  have i0' : (0 : ℝ) ≤ i := by exact_mod_cast i0
  have I0 : 0 ≤ i * u := mul_nonneg i0' hu.le
  have d1 : IsDouble (1 / 4 + i * u) := by
    have := dbl (2 ^ 51 + i) 53 (by norm_num) (by rw [abs_lt]; constructor <;> omega)
    convert this using 1
    rw [u_eq]; push_cast; ring
  have d2 : IsDouble (1 / 8 + 3 / 4 * (i * u)) := by
    have := dbl (2 ^ 52 + 3 * i) 55 (by norm_num) (by rw [abs_lt]; constructor <;> omega)
    convert this using 1
    rw [u_eq]; push_cast; ring
  have d3 : IsDouble (1 / 2 + 3 * (i * u)) := by
    have := dbl (2 ^ 52 + 3 * i) 53 (by norm_num) (by rw [abs_lt]; constructor <;> omega)
    convert this using 1
    rw [u_eq]; push_cast; ring
  obtain ⟨j, j1, j2⟩ : ∃ j : ℤ, 3 * i ≤ 2 * j ∧ 2 * j ≤ 3 * i + 1 := ⟨(3 * i + 1) / 2, by omega, by omega⟩
  have d4 : IsDouble (3 / 2 + 2 * (j * u)) := by
    have := dbl (3 * 2 ^ 51 + j) 52 (by norm_num) (by rw [abs_lt]; constructor <;> omega)
    convert this using 1
    rw [u_eq]; push_cast; ring
  have j1' : (3 * i : ℝ) ≤ 2 * j := by exact_mod_cast j1
  have j2' : (2 * j : ℝ) ≤ 3 * i + 1 := by exact_mod_cast j2
  have k1 := mul_le_mul_of_nonneg_right j1' hu.le
  have k2 := mul_le_mul_of_nonneg_right j2' hu.le
  generalize hI : (i : ℝ) * u = I at *
  have a := hA.le d4 (by rw [hs]; linarith)
  have q := hQ.ge d1 (by rw [hs]; nlinarith)
  have c := hC.ge d2 (by rw [hs]; nlinarith)
  have d := hD.ge d3 (by linarith)
  linarith

/-- Just below a half. -/
theorem sin_half_down {i : ℤ} (i0 : 1 ≤ i) (i1 : i ≤ 2 ^ 30) {s A Q C D : ℝ} (hs : s = 1 / 2 - i * u / 2)
    (hA : Near (3 * s) A) (hQ : Near (s * s) Q) (hC : Near (Q * s) C) (hD : Near (4 * C) D) : A - D ≤ 1 + u := by
  have hu := u_pos
  have hu1 := u_lt
  norm_num at hu1
  have i0' : (0 : ℝ) ≤ i := by exact_mod_cast (by omega : (0 : ℤ) ≤ i)
  have i1' : (i : ℝ) ≤ 2 ^ 30 := by exact_mod_cast i1
  have I0 : 0 ≤ i * u := mul_nonneg i0' hu.le
  have I1 : i * u ≤ 1 / 100 := by
    have := mul_le_mul_of_nonneg_right i1' hu.le
    norm_num at this
    linarith
  have d1 : IsDouble (1 / 4 - i * u / 2) := by
    have := dbl (2 ^ 52 - i) 54 (by norm_num) (by rw [abs_lt]; constructor <;> omega)
    convert this using 1
    rw [u_eq]; push_cast; ring
  have d2 : IsDouble (1 / 8 - 3 / 4 * (i * u / 2)) := by
    have := dbl (2 ^ 53 - 3 * i) 56 (by norm_num) (by rw [abs_lt]; constructor <;> omega)
    convert this using 1
    rw [u_eq]; push_cast; ring
  have d3 : IsDouble (1 / 2 - 3 * (i * u / 2)) := by
    have := dbl (2 ^ 53 - 3 * i) 54 (by norm_num) (by rw [abs_lt]; constructor <;> omega)
    convert this using 1
    rw [u_eq]; push_cast; ring
  obtain ⟨j, j1, j2⟩ : ∃ j : ℤ, 3 * i - 2 ≤ 4 * j ∧ 4 * j ≤ 3 * i + 2 := ⟨(3 * i + 2) / 4, by omega, by omega⟩
  have d4 : IsDouble (3 / 2 - 2 * (j * u)) := by
    have := dbl (3 * 2 ^ 51 - j) 52 (by norm_num) (by rw [abs_lt]; constructor <;> omega)
    convert this using 1
    rw [u_eq]; push_cast; ring
  have j1' : (3 * i - 2 : ℝ) ≤ 4 * j := by exact_mod_cast j1
  have j2' : (4 * j : ℝ) ≤ 3 * i + 2 := by exact_mod_cast j2
  have k1 := mul_le_mul_of_nonneg_right j1' hu.le
  have k2 := mul_le_mul_of_nonneg_right j2' hu.le
  generalize hI : (i : ℝ) * u = I at *
  have a := hA.2 _ d4
  have b : |3 * s - (3 / 2 - 2 * (j * u))| ≤ u := by
    rw [hs, abs_le]; constructor <;> linarith
  have a := abs_le.mp (a.trans b)
  have q := hQ.ge d1 (by rw [hs]; nlinarith)
  have c := hC.ge d2 (by rw [hs]; nlinarith)
  have d := hD.ge d3 (by linarith)
  linarith

/-- The general error bound for one level. -/
theorem sin_level_err {s A Q C D : ℝ} (hs : |s| ≤ 1)
    (hA : Near (3 * s) A) (hQ : Near (s * s) Q) (hC : Near (Q * s) C) (hD : Near (4 * C) D) :
    A - D ≤ 3 * s - 4 * s ^ 3 + 15 * u := by
  have hu := u_pos
  have s' := abs_le.mp hs
  have one : IsDouble (1 : ℝ) := by simpa using isDouble_int (K := ℝ) (k := 1) (by norm_num)
  have a := abs_le.mp (hA.err (B := 3) (by rw [abs_le]; constructor <;> linarith) (by norm_num) (by norm_num))
  have q1 : s * s ≤ 1 := by nlinarith
  have q0 : 0 ≤ s * s := mul_self_nonneg s
  have q := hQ.err (B := 1) (by rw [abs_of_nonneg q0]; exact q1) le_rfl (by norm_num)
  have Q1 := hQ.le one q1
  have Q0 := hQ.ge isDouble_zero q0
  have c1 : |Q * s| ≤ 1 := by
    rw [abs_mul, abs_of_nonneg Q0]
    exact mul_le_one₀ Q1 (abs_nonneg s) hs
  have c := abs_le.mp (hC.err (B := 1) c1 le_rfl (by norm_num))
  have c1' := abs_le.mp c1
  have C1 := hC.le one c1'.2
  have C0 := hC.ge one.neg c1'.1
  have d := abs_le.mp (hD.err (B := 4) (by rw [abs_le]; constructor <;> linarith) (by norm_num) (by norm_num))
  have m : |(Q - s * s) * s| ≤ u * 1 * 1 := by
    rw [abs_mul]
    exact mul_le_mul q hs (abs_nonneg s) (by linarith)
  have m := abs_le.mp m
  have e : (Q - s * s) * s = Q * s - s ^ 3 := by ring
  rw [e] at m
  linarith

/-- One step above -1. -/
theorem sin_minus_one_next {s A Q C D : ℝ} (hs : s = -1 + u)
    (hA : Near (3 * s) A) (hQ : Near (s * s) Q) (hC : Near (Q * s) C) (hD : Near (4 * C) D) : A - D ≤ 1 := by
  have hu := u_pos
  have hu1 := u_lt
  norm_num at hu1
  have a := abs_le.mp (hA.err (B := 3) (by rw [abs_le]; constructor <;> linarith) (by norm_num) (by norm_num))
  have d1 : IsDouble (1 - 2 * u) := by
    have := dbl (2 ^ 53 - 2) 53 (by norm_num) (by norm_num)
    convert this using 1
    rw [u_eq]; norm_num
  have d2 : IsDouble (-(1 - 3 * u)) := by
    have := dbl (-(2 ^ 53 - 3)) 53 (by norm_num) (by norm_num)
    convert this using 1
    rw [u_eq]; norm_num
  have q := hQ.ge d1 (by rw [hs]; nlinarith)
  have c : -(1 - 3 * u) ≤ C ∨ C ≤ -(1 - 3 * u) := le_total _ _
  have q' := hQ.2 _ d1
  have e1 : s * s - (1 - 2 * u) = u * u := by rw [hs]; ring
  rw [e1, abs_of_nonneg (mul_nonneg hu.le hu.le : 0 ≤ u * u)] at q'
  have q' := abs_le.mp q'
  have c' := hC.2 _ d2
  have uu : u * u ≤ u / 1000 := by nlinarith
  have Q2 : Q ≤ 1 - 2 * u + u / 500 := by nlinarith
  have e2 : |Q * s - -(1 - 3 * u)| ≤ u / 100 := by
    rw [hs, abs_le]
    constructor <;> nlinarith
  have c' := abs_le.mp (c'.trans e2)
  have e2 := abs_le.mp e2
  have d := abs_le.mp (hD.err (B := 4) (by rw [abs_le]; constructor <;> linarith) (by norm_num) (by norm_num))
  linarith

/-- One level of the recursion stays within rounding distance of 1. -/
theorem sin_level {s A Q C D : ℝ} (ds : IsDouble s) (hs : |s| ≤ 1)
    (hA : Near (3 * s) A) (hQ : Near (s * s) Q) (hC : Near (Q * s) C) (hD : Near (4 * C) D) : A - D ≤ 1 + u := by
  have hu := u_pos
  have hu1 := u_lt
  norm_num at hu1
  have s' := abs_le.mp hs
  have key := sin_level_err hs hA hQ hC hD
  have e : 3 * s - 4 * s ^ 3 = 1 - (1 + s) * (1 - 2 * s) ^ 2 := by ring
  rw [e] at key
  have fin : 15 * u ≤ (1 + s) * (1 - 2 * s) ^ 2 → A - D ≤ 1 + u := fun h => by linarith
  rcases lt_or_ge s (-(1 / 2)) with c1 | c1
  · -- near -1
    obtain ⟨k, hk⟩ := multiple ds (n := 53) (by rw [abs_of_neg (by linarith)]; norm_num; linarith)
    have hk' : s = k * u := by rw [hk, u_eq]; ring
    have U : u * 2 ^ 53 = 1 := by rw [u_eq]; norm_num
    have k1 : -2 ^ 53 ≤ k := by
      by_contra c
      have : (k : ℝ) < -2 ^ 53 := by exact_mod_cast not_le.mp c
      nlinarith
    rcases (by omega : k = -2 ^ 53 ∨ k = -2 ^ 53 + 1 ∨ -2 ^ 53 + 2 ≤ k) with h | h | h
    · have hs : s = -1 := by rw [hk', h]; push_cast; linarith
      have one : IsDouble (1 : ℝ) := by simpa using isDouble_int (K := ℝ) (k := 1) (by norm_num)
      have three : IsDouble (-3 : ℝ) := by simpa using isDouble_int (K := ℝ) (k := -3) (by norm_num)
      have four : IsDouble (-4 : ℝ) := by simpa using isDouble_int (K := ℝ) (k := -4) (by norm_num)
      have a : A = -3 := by rw [hs] at hA; norm_num at hA; exact hA.exact three
      have q : Q = 1 := by rw [hs] at hQ; norm_num at hQ; exact hQ.exact one
      have c : C = -1 := by rw [hs, q] at hC; norm_num at hC; exact hC.exact one.neg
      have d : D = -4 := by rw [c] at hD; norm_num at hD; exact hD.exact four
      rw [a, d]; linarith
    · have := sin_minus_one_next (s := s) (by rw [hk', h]; push_cast; linarith) hA hQ hC hD
      linarith
    · apply fin
      have : ((-2 ^ 53 + 2 : ℤ) : ℝ) ≤ k := by exact_mod_cast h
      push_cast at this
      have h2 : 2 * u ≤ 1 + s := by rw [hk']; nlinarith
      rcases le_or_gt s (-1 + 4 * u) with c2 | c2
      · have : 8 ≤ (1 - 2 * s) ^ 2 := by nlinarith
        nlinarith
      · have : 4 ≤ (1 - 2 * s) ^ 2 := by nlinarith
        nlinarith
  rcases lt_or_ge s (1 / 4) with c2 | c2
  · apply fin
    rcases lt_or_ge s 0 with c3 | c3
    · have : 1 ≤ (1 - 2 * s) ^ 2 := by nlinarith
      nlinarith
    · have : 1 / 4 ≤ (1 - 2 * s) ^ 2 := by nlinarith
      nlinarith
  have far : 1 / 2 ^ 23 ≤ |1 - 2 * s| → A - D ≤ 1 + u := by
    intro h
    apply fin
    have : (1 / 2 ^ 23) ^ 2 ≤ (1 - 2 * s) ^ 2 := by
      rw [← sq_abs (1 - 2 * s)]; exact pow_le_pow_left₀ (by positivity) h 2
    norm_num at this
    nlinarith
  rcases lt_or_ge s (1 / 2) with c3 | c3
  · obtain ⟨k, hk⟩ := multiple ds (n := 54) (by rw [abs_of_nonneg (by linarith)]; norm_num; linarith)
    have hk' : s = 1 / 2 - ((2 ^ 53 - k : ℤ) : ℝ) * u / 2 := by rw [hk, u_eq]; push_cast; ring
    generalize 2 ^ 53 - k = i at *
    have i0 : 0 < i := by
      by_contra c
      have : (i : ℝ) ≤ 0 := by exact_mod_cast not_lt.mp c
      nlinarith
    by_cases c : i ≤ 2 ^ 30
    · exact sin_half_down (by omega) c hk' hA hQ hC hD
    · apply far
      have : (2 ^ 30 : ℝ) < i := by exact_mod_cast not_le.mp c
      have := mul_lt_mul_of_pos_right this hu
      rw [abs_of_nonneg (by linarith), hk']
      have U : u * 2 ^ 30 = 1 / 2 ^ 23 := by rw [u_eq]; norm_num
      norm_num at U this ⊢
      linarith
  · obtain ⟨k, hk⟩ := multiple ds (n := 53) (by rw [abs_of_nonneg (by linarith)]; norm_num; linarith)
    have hk' : s = 1 / 2 + ((k - 2 ^ 52 : ℤ) : ℝ) * u := by rw [hk, u_eq]; push_cast; ring
    generalize k - 2 ^ 52 = i at *
    have i0 : 0 ≤ i := by
      by_contra c
      have : (i : ℝ) < 0 := by exact_mod_cast not_le.mp c
      nlinarith
    by_cases c : i ≤ 2 ^ 30
    · exact sin_half_up i0 c hk' hA hQ hC hD
    · apply far
      have : (2 ^ 30 : ℝ) < i := by exact_mod_cast not_le.mp c
      have := mul_lt_mul_of_pos_right this hu
      rw [abs_of_nonpos (by linarith), hk']
      have U : u * 2 ^ 30 = 1 / 2 ^ 23 := by rw [u_eq]; norm_num
      norm_num at U this ⊢
      linarith

theorem not_even_succ_one : ¬ EvenDouble (1 + 2 * u) := by
  rintro ⟨m, e, h, hm, hlt, he1, he2, hn⟩
  have hu := u_pos
  have hu1 := u_lt
  norm_num at hu1
  have hpe : (0 : ℝ) < 2 ^ e := by positivity
  have hm0 : 0 < m := by
    by_contra hc
    have : (m : ℝ) ≤ 0 := by exact_mod_cast not_lt.mp hc
    nlinarith
  have hm1 : (m : ℝ) * 2 ^ e < 2 := by rw [← h]; linarith
  have hm2 : (1 : ℝ) < m * 2 ^ e := by rw [← h]; linarith
  rw [abs_of_pos hm0] at hlt hn
  have low : ¬ e ≤ -53 := by
    intro c
    have h3 : (2 : ℝ) ^ e ≤ 2 ^ (-53 : ℤ) := zpow_le_zpow_right₀ (by norm_num) c
    have h4 : (m : ℝ) ≤ 2 ^ 53 := by exact_mod_cast hlt.le
    have h5 : (m : ℝ) * 2 ^ e ≤ 2 ^ 53 * 2 ^ (-53 : ℤ) := mul_le_mul h4 h3 hpe.le (by positivity)
    have h6 : (2 : ℝ) ^ 53 * 2 ^ (-53 : ℤ) = 1 := by norm_num
    linarith
  rcases hn with hn | rfl
  · have high : ¬ -51 ≤ e := by
      intro c
      have h3 : (2 : ℝ) ^ (-51 : ℤ) ≤ 2 ^ e := zpow_le_zpow_right₀ (by norm_num) c
      have h4 : (2 : ℝ) ^ 52 ≤ m := by exact_mod_cast hn
      have h5 : (2 : ℝ) ^ 52 * 2 ^ (-51 : ℤ) ≤ m * 2 ^ e := mul_le_mul h4 h3 (by positivity) (by positivity)
      have h6 : (2 : ℝ) ^ 52 * 2 ^ (-51 : ℤ) = 2 := by norm_num
      linarith
    have he : e = -52 := by omega
    subst he
    have hp : (0 : ℝ) < 2 ^ (-52 : ℤ) := by positivity
    have e1 : (1 + 2 * u : ℝ) = ((2 ^ 52 + 1 : ℤ) : ℝ) * 2 ^ (-52 : ℤ) := by rw [u_eq]; norm_num
    rw [e1] at h
    have := mul_right_cancel₀ hp.ne' h
    have : m = 2 ^ 52 + 1 := by exact_mod_cast this.symm
    subst this
    exact absurd hm (by decide)
  · omega

/-- The halfway case between 1 and the next double goes down. -/
theorem round_half_one (h : RoundsTiesEven ρ) {t : ℝ} (ht : t = 1 + u ∨ t = -(1 + u)) : |ρ t| = 1 := by
  have hu := u_pos
  have hu1 := u_lt
  norm_num at hu1
  have ev : EvenDouble (1 : ℝ) :=
    ⟨2 ^ 52, -52, by norm_num, by decide, by norm_num, by norm_num, by norm_num, Or.inl (by norm_num)⟩
  have d2 : IsDouble (1 + 2 * u) := by
    have := dbl (2 ^ 52 + 1) 52 (by norm_num) (by norm_num)
    convert this using 1
    rw [u_eq]; norm_num
  have cases : ∀ d : ℝ, IsDouble d → 1 ≤ d → d ≤ 1 + 2 * u → d = 1 ∨ d = 1 + 2 * u := by
    intro d hd h1 h2
    obtain ⟨k, hk⟩ := multiple hd (n := 52) (by rw [abs_of_nonneg (by linarith)]; norm_num; exact h1)
    have U : u = 1 / 9007199254740992 := by rw [u_eq]; norm_num
    norm_num at hk
    have k1 : 2 ^ 52 ≤ k := by
      have : ((2 ^ 52 : ℤ) : ℝ) ≤ k := by push_cast; linarith
      exact_mod_cast this
    have k2 : k ≤ 2 ^ 52 + 1 := by
      have : (k : ℝ) ≤ ((2 ^ 52 + 1 : ℤ) : ℝ) := by push_cast; linarith
      exact_mod_cast this
    rcases (by omega : k = 2 ^ 52 ∨ k = 2 ^ 52 + 1) with rfl | rfl
    · left; rw [hk]; norm_num
    · right; rw [hk, U]; norm_num
  rcases ht with rfl | rfl
  · have l1 := h.ge_of_ge ev.isDouble (x := 1 + u) (by linarith)
    have l2 := h.le_of_le d2 (x := 1 + u) (by linarith)
    rcases cases _ (h.double _) l1 l2 with e | e
    · rw [e, abs_one]
    · exfalso
      have := h.ties (1 + u) 1 ev (by
        rw [e, show (1 + u - 1 : ℝ) = u by ring, show (1 + u - (1 + 2 * u) : ℝ) = -u by ring, abs_neg])
      rw [e] at this
      exact not_even_succ_one this
  · have l1 := h.le_of_le ev.isDouble.neg (x := -(1 + u)) (by linarith)
    have l2 := h.ge_of_ge d2.neg (x := -(1 + u)) (by linarith)
    rcases cases _ (h.double (-(1 + u))).neg (by linarith) (by linarith) with e | e
    · rw [← abs_neg, e, abs_one]
    · exfalso
      have e' : ρ (-(1 + u)) = -(1 + 2 * u) := by linarith
      have := h.ties (-(1 + u)) (-1) ev.neg (by
        rw [e', show (-(1 + u) - -1 : ℝ) = -u by ring, show (-(1 + u) - -(1 + 2 * u) : ℝ) = u by ring, abs_neg])
      rw [e'] at this
      have := this.neg
      rw [neg_neg] at this
      exact not_even_succ_one this

/-- One level of the recursion of `sin_helper`. -/
theorem sin_tri_le (h : RoundsTiesEven ρ) {s : ℝ} (ds : IsDouble s) (hs : |s| ≤ 1) :
    |fsub ρ (fmul ρ 3 s) (fmul ρ 4 (cube ρ s))| ≤ 1 := by
  have hr := h.toRoundsToNearest
  unfold fsub fmul cube fmul
  have hA := near_round hr (3 * s)
  have hQ := near_round hr (s * s)
  have hC := near_round hr (ρ (s * s) * s)
  have hD := near_round hr (4 * ρ (ρ (s * s) * s))
  have up := sin_level ds hs hA hQ hC hD
  have dn := sin_level (s := -s) ds.neg (by rwa [abs_neg]) (A := -ρ (3 * s)) (Q := ρ (s * s))
    (C := -ρ (ρ (s * s) * s)) (D := -ρ (4 * ρ (ρ (s * s) * s)))
    (by have := hA.neg; rwa [← mul_neg] at this) (by rwa [neg_mul_neg])
    (by have := hC.neg; rwa [← mul_neg] at this) (by have := hD.neg; rwa [← mul_neg] at this)
  have t1 := mono hr up
  have t2 := mono hr (x := -(1 + u)) (y := ρ (3 * s) - ρ (4 * ρ (ρ (s * s) * s))) (by linarith)
  have r1 := round_half_one h (Or.inl rfl)
  have r2 := round_half_one h (Or.inr rfl)
  rw [abs_le]
  exact ⟨by linarith [neg_abs_le (ρ (-(1 + u)))], by linarith [le_abs_self (ρ (1 + u))]⟩

/-- What one call of `sin_helper` does. -/
theorem sinHelper_inv {fuel : ℕ} {x v : ℝ} (h : sinHelper ρ (fuel + 1) x () = .ok v ()) :
    (x < tol ρ ∧ v = x) ∨ (¬ x < tol ρ ∧ ∃ s, sinHelper ρ fuel (ρ (x / 3)) () = .ok s () ∧
      v = fsub ρ (fmul ρ 3 s) (fmul ρ 4 (cube ρ s))) := by
  rw [sinHelper] at h
  by_cases c : x < tol ρ
  · left
    rw [if_pos c] at h
    injection h with h
    exact ⟨c, h.symm⟩
  · right
    rw [if_neg c] at h
    have e := fdiv_ok (ρ := ρ) (a := x) (three_ne_zero (α := ℝ))
    simp only [M.bind_apply, e] at h
    rcases q : sinHelper ρ fuel (ρ (x / 3)) () with ⟨s, ⟨⟩⟩ | _ | _ | _
    · simp only [q, M.pure_apply] at h
      injection h with h
      exact ⟨c, s, rfl, h.symm⟩
    all_goals simp [q] at h

theorem sinHelper_le (h : RoundsTiesEven ρ) : ∀ (fuel : ℕ) (x v : ℝ), IsDouble x → 0 ≤ x →
    sinHelper ρ fuel x () = .ok v () → IsDouble v ∧ |v| ≤ 1
  | 0, _, _, _, _, h => by cases h
  | fuel + 1, x, v, dx, x0, hv => by
    have hr := h.toRoundsToNearest
    rcases sinHelper_inv hv with ⟨c, rfl⟩ | ⟨-, s, hs, rfl⟩
    · have hu1 := u_lt
      norm_num at hu1
      have ht := (tol_bounds hr).2
      refine ⟨dx, ?_⟩
      rw [abs_of_nonneg x0]
      linarith
    · obtain ⟨ds, hs1⟩ := sinHelper_le h fuel _ s (hr.double _) (round_nonneg hr (by linarith)) hs
      exact ⟨hr.double _, sin_tri_le h ds hs1⟩

theorem sin_le (h : RoundsTiesEven ρ) {fuel : ℕ} {x v : ℝ} (dx : IsDouble x)
    (hv : sin ρ fuel x () = .ok v ()) : IsDouble v ∧ |v| ≤ 1 := by
  have hr := h.toRoundsToNearest
  rw [sin] at hv
  by_cases c : x < 0
  · rw [if_pos c] at hv
    have hpi : 0 ≤ mPi ρ := round_nonneg hr (by norm_num)
    exact sinHelper_le h fuel _ v (hr.double _) (round_nonneg hr (by linarith)) hv
  · rw [if_neg c] at hv
    exact sinHelper_le h fuel x v dx (not_lt.mp c) hv

/-! ### `sqrt` from 1 on -/

/-- The next approximation is at least 1 if the last one is. -/
theorem newton_ge_one (hr : RoundsToNearest ρ) {x g : ℝ} (hx : 1 ≤ x) (dg : IsDouble g) (hg : 1 ≤ g) :
    1 ≤ ρ (ρ (g + ρ (x / g)) / 2) := by
  have one : IsDouble (1 : ℝ) := by simpa using isDouble_int (K := ℝ) (k := 1) (by norm_num)
  have two : IsDouble (2 : ℝ) := by simpa using isDouble_int (K := ℝ) (k := 2) (by norm_num)
  have q0 : 0 ≤ ρ (x / g) := round_nonneg hr (by positivity)
  have key : 2 ≤ g + ρ (x / g) := by
    rcases le_or_gt 2 g with c | c
    · linarith
    · obtain ⟨k, hk⟩ := multiple dg (n := 52) (by rw [abs_of_nonneg (by linarith)]; norm_num; exact hg)
      have k1 : 2 ^ 52 ≤ k := by
        have : ((2 ^ 52 : ℤ) : ℝ) ≤ k := by
          have := (le_div_iff₀ (by positivity : (0 : ℝ) < 2 ^ 52)).mp (hk ▸ hg)
          push_cast; linarith
        exact_mod_cast this
      have k2 : k < 2 ^ 53 := by
        have : (k : ℝ) < ((2 ^ 53 : ℤ) : ℝ) := by
          have := (div_lt_iff₀ (by positivity : (0 : ℝ) < 2 ^ 52)).mp (hk ▸ c)
          push_cast; norm_num at this ⊢; linarith
        exact_mod_cast this
      have d : IsDouble (2 - g) := by
        have := dbl (2 ^ 53 - k) 52 (by norm_num) (by rw [abs_lt]; constructor <;> omega)
        convert this using 1
        rw [hk]; push_cast; ring
      have : 2 - g ≤ x / g := by
        rw [le_div_iff₀ (by linarith)]
        nlinarith [sq_nonneg (g - 1)]
      linarith [hr.ge_of_ge d this]
  have := hr.ge_of_ge two key
  exact hr.ge_of_ge one (by linarith)

theorem sqrtHelper_ge_one (hr : RoundsToNearest ρ) {x : ℝ} (hx : 1 ≤ x) : ∀ (fuel : ℕ) (g r : ℝ), IsDouble g →
    1 ≤ g → sqrtHelper ρ fuel x g () = .ok r () → 1 ≤ r
  | 0, _, _, _, _, h => by cases h
  | fuel + 1, g, r, dg, hg, h => by
    by_cases c : |ρ (g - ρ (x / g))| < ρ (tol ρ * g)
    · rw [sqrtHelper_pass (by linarith) c] at h
      injection h with h
      linarith
    · rw [sqrtHelper_next (by linarith) c] at h
      exact sqrtHelper_ge_one hr hx fuel _ r (hr.double _) (newton_ge_one hr hx dg hg) h

theorem sqrt_ge_one (hr : RoundsToNearest ρ) {x : ℝ} (hx : 1 ≤ x) {fuel : ℕ} {r : ℝ}
    (h : sqrt ρ fuel x () = .ok r ()) : 1 ≤ r :=
  sqrtHelper_ge_one hr hx fuel 1 r (by simpa using isDouble_int (K := ℝ) (k := 1) (by norm_num)) le_rfl h

/-! ### `sqrt` in exact arithmetic -/

/-- Every result but the first guess lies strictly above the root. -/
theorem sqrtHelper_above {x : ℝ} (hx : 0 < x) : ∀ (fuel : ℕ) (g r : ℝ), 0 < g →
    sqrtHelper id fuel x g () = .ok r () → (r = g ∧ |g - x / g| < 1 / 1000 * g) ∨ (0 < r ∧ x < r ^ 2)
  | 0, _, _, _, h => by cases h
  | fuel + 1, g, r, hg, h => by
    by_cases c : |g - x / g| < 1 / 1000 * g
    · rw [sqrtHelper_stop hg.ne' c] at h
      injection h with h
      exact Or.inl ⟨h.symm, c⟩
    · rw [sqrtHelper_step hg.ne' c] at h
      right
      obtain ⟨n0, -⟩ := newton_inv hx hg
      have e : ((g + x / g) / 2) ^ 2 - x = ((g - x / g) / 2) ^ 2 := by field_simp; ring
      have ne : g - x / g ≠ 0 := by
        intro z
        rw [z, abs_zero] at c
        exact c (by positivity)
      have lt : x < ((g + x / g) / 2) ^ 2 := by
        have : 0 < ((g - x / g) / 2) ^ 2 := by positivity
        linarith
      rcases sqrtHelper_above hx fuel _ r n0 h with ⟨rfl, -⟩ | h
      · exact ⟨n0, lt⟩
      · exact h

/-- The first two steps of `sqrt(4)` reach 2.05. -/
theorem sqrt_four_two (hr : RoundsToNearest ρ) : ∃ k, |k - 41 / 20| ≤ 50 * u ∧
    ∀ n, sqrt ρ (n + 2) 4 () = sqrtHelper ρ n 4 k () := by
  have hu := u_pos
  have hu1 := u_lt
  norm_num at hu1
  obtain ⟨t1, t2⟩ := tol_bounds hr
  have er : ∀ {x : ℝ}, |x| ≤ 8 → |ρ x - x| ≤ 8 * u := fun h => by
    have := err hr h (by norm_num) (by norm_num)
    linarith
  -- the first step
  have p1 := abs_le.mp (er (x := 4 / 1) (by norm_num))
  have q1 := abs_le.mp (er (x := 1 + ρ (4 / 1)) (by rw [abs_le]; constructor <;> linarith))
  have g1 := abs_le.mp (er (x := ρ (1 + ρ (4 / 1)) / 2) (by rw [abs_le]; constructor <;> linarith))
  have n1 : ¬ |ρ (1 - ρ (4 / 1))| < ρ (tol ρ * 1) := by
    have a := abs_le.mp (er (x := 1 - ρ (4 / 1)) (by rw [abs_le]; constructor <;> linarith))
    have b := abs_le.mp (er (x := tol ρ * 1) (by rw [abs_le]; constructor <;> linarith))
    rw [not_lt]
    exact le_trans (by linarith) (neg_le_abs _)
  generalize hg1 : ρ (ρ (1 + ρ (4 / 1)) / 2) = g at *
  have gb : |g - 5 / 2| ≤ 20 * u := by rw [abs_le]; constructor <;> linarith
  have gb := abs_le.mp gb
  clear p1 q1 g1
  -- the second step
  have g0 : 0 < g := by linarith
  have d1 : 4 / g ≤ 8 / 5 + 20 * u := by rw [div_le_iff₀ g0]; nlinarith
  have d2 : 8 / 5 - 20 * u ≤ 4 / g := by rw [le_div_iff₀ g0]; nlinarith
  have p1 := abs_le.mp (er (x := 4 / g) (by rw [abs_le]; constructor <;> linarith))
  have q1 := abs_le.mp (er (x := g + ρ (4 / g)) (by rw [abs_le]; constructor <;> linarith))
  have g1 := abs_le.mp (er (x := ρ (g + ρ (4 / g)) / 2) (by rw [abs_le]; constructor <;> linarith))
  have n2 : ¬ |ρ (g - ρ (4 / g))| < ρ (tol ρ * g) := by
    have a := abs_le.mp (er (x := g - ρ (4 / g)) (by rw [abs_le]; constructor <;> linarith))
    have tg : tol ρ * g ≤ 1 / 100 := by nlinarith
    have tg' : 0 ≤ tol ρ * g := mul_nonneg (by linarith) g0.le
    have b := abs_le.mp (er (x := tol ρ * g) (by rw [abs_le]; constructor <;> linarith))
    rw [not_lt]
    exact le_trans (by linarith) (le_abs_self _)
  generalize hg2 : ρ (ρ (g + ρ (4 / g)) / 2) = k at *
  have kb : |k - 41 / 20| ≤ 50 * u := by rw [abs_le]; constructor <;> linarith
  clear p1 q1 g1
  exact ⟨k, kb, fun n => by rw [sqrt, sqrtHelper_next one_ne_zero n1, hg1, sqrtHelper_next g0.ne' n2, hg2]⟩

/-- The third step reaches a number between 2.0006 and 2.0007. -/
theorem sqrt_four_third (hr : RoundsToNearest ρ) {k : ℝ} (kb : |k - 41 / 20| ≤ 50 * u) :
    ∃ r, 20006 / 10000 < r ∧ r < 20007 / 10000 ∧ ∀ n, sqrtHelper ρ (n + 1) 4 k () = sqrtHelper ρ n 4 r () := by
  have hu := u_pos
  have hu1 := u_lt
  norm_num at hu1
  obtain ⟨t1, t2⟩ := tol_bounds hr
  have er : ∀ {x : ℝ}, |x| ≤ 8 → |ρ x - x| ≤ 8 * u := fun h => by
    have := err hr h (by norm_num) (by norm_num)
    linarith
  have kb := abs_le.mp kb
  -- the third step
  have k0 : 0 < k := by linarith
  have d1 : 4 / k ≤ 80 / 41 + 100 * u := by rw [div_le_iff₀ k0]; nlinarith
  have d2 : 80 / 41 - 100 * u ≤ 4 / k := by rw [le_div_iff₀ k0]; nlinarith
  have p1 := abs_le.mp (er (x := 4 / k) (by rw [abs_le]; constructor <;> linarith))
  have q1 := abs_le.mp (er (x := k + ρ (4 / k)) (by rw [abs_le]; constructor <;> linarith))
  have g1 := abs_le.mp (er (x := ρ (k + ρ (4 / k)) / 2) (by rw [abs_le]; constructor <;> linarith))
  have n3 : ¬ |ρ (k - ρ (4 / k))| < ρ (tol ρ * k) := by
    have a := abs_le.mp (er (x := k - ρ (4 / k)) (by rw [abs_le]; constructor <;> linarith))
    have tg : tol ρ * k ≤ 1 / 100 := by nlinarith
    have tg' : 0 ≤ tol ρ * k := mul_nonneg (by linarith) k0.le
    have b := abs_le.mp (er (x := tol ρ * k) (by rw [abs_le]; constructor <;> linarith))
    rw [not_lt]
    exact le_trans (by linarith) (le_abs_self _)
  generalize hg3 : ρ (ρ (k + ρ (4 / k)) / 2) = r at *
  have r1 : 20006 / 10000 < r := by linarith
  have r2 : r < 20007 / 10000 := by linarith
  clear p1 q1 g1
  exact ⟨r, r1, r2, fun n => by rw [sqrtHelper_next k0.ne' n3, hg3]⟩

/-- The test accepts that number. -/
theorem sqrt_four_test (hr : RoundsToNearest ρ) {r : ℝ} (r1 : 20006 / 10000 < r) (r2 : r < 20007 / 10000) (n : ℕ) :
    sqrtHelper ρ (n + 1) 4 r () = .ok r () := by
  have hu := u_pos
  have hu1 := u_lt
  norm_num at hu1
  obtain ⟨t1, t2⟩ := tol_bounds hr
  have er : ∀ {x : ℝ}, |x| ≤ 8 → |ρ x - x| ≤ 8 * u := fun h => by
    have := err hr h (by norm_num) (by norm_num)
    linarith
  -- the test
  have r0 : 0 < r := by linarith
  have d1 : 4 / r ≤ 19995 / 10000 := by rw [div_le_iff₀ r0]; linarith
  have d2 : 19992 / 10000 ≤ 4 / r := by rw [le_div_iff₀ r0]; linarith
  have p1 := abs_le.mp (er (x := 4 / r) (by rw [abs_le]; constructor <;> linarith))
  have pass : |ρ (r - ρ (4 / r))| < ρ (tol ρ * r) := by
    have a := abs_le.mp (er (x := r - ρ (4 / r)) (by rw [abs_le]; constructor <;> linarith))
    have tg : 199 / 100000 ≤ tol ρ * r := by nlinarith
    have tg' : tol ρ * r ≤ 1 := by nlinarith
    have b := abs_le.mp (er (x := tol ρ * r) (by rw [abs_le]; constructor <;> linarith))
    rw [abs_lt]
    constructor <;> linarith
  rw [sqrtHelper_pass r0.ne' pass]

end Cest.Fp
