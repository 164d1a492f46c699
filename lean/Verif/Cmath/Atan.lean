import Verif.Cmath.ExpLog
import Mathlib.Analysis.SpecialFunctions.Complex.Arctan
import Mathlib.Analysis.SpecialFunctions.Trigonometric.Bounds

/-! Lemmas about atan and atan2 in exact arithmetic. -/

namespace Cest.Cmath

/-- The iteration of sqrt(3): 1, 2, 7/4, 97/56. -/
theorem sqrt_three (fuel : ℕ) : sqrt id (fuel + 4) (3 : ℝ) () = .ok (97 / 56) () := by
  rw [sqrt, sqrtHelper_step (by norm_num) (by norm_num [abs_of_neg])]
  rw [show ((1 : ℝ) + 3 / 1) / 2 = 2 by norm_num]
  rw [sqrtHelper_step (by norm_num) (by norm_num [abs_of_pos])]
  rw [show ((2 : ℝ) + 3 / 2) / 2 = 7 / 4 by norm_num]
  rw [sqrtHelper_step (by norm_num) (by norm_num [abs_of_pos])]
  rw [show ((7 / 4 : ℝ) + 3 / (7 / 4)) / 2 = 97 / 56 by norm_num]
  rw [sqrtHelper_stop (by norm_num) (by rw [abs_lt]; norm_num)]

section
set_option linter.unusedSectionVars false
variable {K : Type} [Field K] [LinearOrder K] [IsStrictOrderedRing K] [FloorRing K]

theorem atanPolyHelper_stop {res : K} (h : res < 1 / 1000) (num den delta : K) (fuel : ℕ) :
    atanPolyHelper id (fuel + 1) res num den delta () = .ok res () := by
  rw [atanPolyHelper]
  exact congrFun (if_pos h) ()

theorem atanPolyHelper_two {res num den delta : K} (h : ¬ res < 1 / 1000) (d0 : den ≠ 0) (d2 : den + 2 ≠ 0)
    (h2 : num * delta / (den + 2) - num / den < 1 / 1000) (fuel : ℕ) :
    atanPolyHelper id (fuel + 2) res num den delta () = .ok (res + (num * delta / (den + 2) - num / den)) () := by
  rw [atanPolyHelper]
  refine (congrFun (if_neg h) ()).trans ?_
  simp only [M.bind_apply, fmul, fadd, fsub, id, fdiv_ok d0, fdiv_ok d2, atanPolyHelper_stop h2, M.pure_apply]
end

/-- Values of the polynomial: five or nine terms. -/
theorem atanPoly_val {y : ℝ} (hy : |y| ≤ 27 / 100) :
    ∃ v, (v = y - y ^ 3 / 3 + y ^ 5 / 5 ∨ y < 0 ∧ v = y - y ^ 3 / 3 + y ^ 5 / 5 - y ^ 7 / 7 + y ^ 9 / 9) ∧
      ∀ fuel, atanPoly id (fuel + 2) y () = .ok v () := by
  have hp : ∀ fuel h, atanPolyHelper id (fuel + 2) (y ^ 5 / 5 - y ^ 3 / 3) (y ^ 7) 7 (y * y) () = .ok h () →
      atanPoly id (fuel + 2) y () = .ok (y + h) () := by
    intro fuel h e
    simp only [atanPoly, M.bind_apply, pow_lit y (by norm_num : (0 : ℤ) ≤ 3),
      pow_lit y (by norm_num : (0 : ℤ) ≤ 5), pow_lit y (by norm_num : (0 : ℤ) ≤ 7),
      fdiv_ok (by norm_num : (3 : ℝ) ≠ 0), fdiv_ok (by norm_num : (5 : ℝ) ≠ 0), fsub, fmul, fadd, id,
      M.pure_apply]
    erw [e]
  by_cases h : y ^ 5 / 5 - y ^ 3 / 3 < 1 / 1000
  · refine ⟨_, Or.inl rfl, fun fuel => ?_⟩
    rw [hp fuel (y ^ 5 / 5 - y ^ 3 / 3)]
    · congr 1; ring
    · exact atanPolyHelper_stop h _ _ _ _
  · have hneg : y < 0 := by
      by_contra h0
      push Not at h0
      rw [abs_of_nonneg h0] at hy
      apply h
      have : y ^ 5 ≤ y ^ 3 := pow_le_pow_of_le_one h0 (by linarith) (by norm_num)
      have : 0 ≤ y ^ 3 := by positivity
      linarith
    have h2 : y ^ 7 * (y * y) / (7 + 2) - y ^ 7 / 7 < 1 / 1000 := by
      have e : y ^ 7 * (y * y) / (7 + 2) - y ^ 7 / 7 = |y| ^ 7 / 7 - |y| ^ 9 / 9 := by
        rw [abs_of_neg hneg]; ring
      rw [e]
      have p7 : |y| ^ 7 ≤ (27 / 100) ^ 7 := pow_le_pow_left₀ (abs_nonneg _) hy 7
      have p9 : 0 ≤ |y| ^ 9 := by positivity
      norm_num at p7
      linarith
    refine ⟨_, Or.inr ⟨hneg, rfl⟩, fun fuel => ?_⟩
    rw [hp fuel (y ^ 5 / 5 - y ^ 3 / 3 + (y ^ 7 * (y * y) / (7 + 2) - y ^ 7 / 7))]
    · congr 1; ring
    · exact atanPolyHelper_two h (by norm_num) (by norm_num) h2 _

/-- Partial sums of the arctangent series. -/
theorem arctan_tail {y : ℝ} (hy : |y| ≤ 27 / 100) {n : ℕ} (hn : 3 ≤ n) :
    |(∑ k ∈ Finset.range n, (-1) ^ k * y ^ (2 * k + 1) / ((2 * k + 1 : ℕ) : ℝ)) - Real.arctan y|
      ≤ 17 / 1000000 := by
  have hs := Real.hasSum_arctan (x := y) (by rw [Real.norm_eq_abs]; linarith)
  set f : ℕ → ℝ := fun k => (-1) ^ k * y ^ (2 * k + 1) / ((2 * k + 1 : ℕ) : ℝ) with hf
  have ht : HasSum (fun k => f (k + n)) (Real.arctan y - ∑ k ∈ Finset.range n, f k) :=
    (hasSum_nat_add_iff' n).mpr hs
  have hy2 : y ^ 2 ≤ 729 / 10000 := by
    rw [← sq_abs]; nlinarith [abs_nonneg y]
  have hg : HasSum (fun k : ℕ => 1 / 7 * |y| ^ 7 * (y ^ 2) ^ k) (1 / 7 * |y| ^ 7 * (1 - y ^ 2)⁻¹) :=
    (hasSum_geometric_of_lt_one (sq_nonneg y) (by linarith)).mul_left _
  have hle : ‖∑' k, f (k + n)‖ ≤ 1 / 7 * |y| ^ 7 * (1 - y ^ 2)⁻¹ := by
    refine tsum_of_norm_bounded hg (fun k => ?_)
    rw [Real.norm_eq_abs, hf]
    simp only [abs_mul, abs_pow, abs_div, abs_neg, abs_one, one_pow, one_mul]
    have e : |y| ^ (2 * (k + n) + 1) ≤ |y| ^ 7 * (y ^ 2) ^ k := by
      rw [← sq_abs, ← pow_mul, ← pow_add]
      exact pow_le_pow_of_le_one (abs_nonneg _) (by linarith) (by omega)
    have h7 : (7 : ℝ) ≤ ((2 * (k + n) + 1 : ℕ) : ℝ) := by exact_mod_cast (by omega : 7 ≤ 2 * (k + n) + 1)
    rw [abs_of_pos (by linarith : (0 : ℝ) < ((2 * (k + n) + 1 : ℕ) : ℝ)), div_le_iff₀ (by linarith)]
    have hpos : 0 ≤ |y| ^ 7 * (y ^ 2) ^ k := by positivity
    nlinarith
  rw [ht.tsum_eq, Real.norm_eq_abs, abs_sub_comm] at hle
  refine hle.trans ?_
  have p7 : |y| ^ 7 ≤ (27 / 100) ^ 7 := pow_le_pow_left₀ (abs_nonneg _) hy 7
  have inv : (1 - y ^ 2)⁻¹ ≤ 10000 / 9271 := by
    rw [inv_le_comm₀ (by linarith) (by norm_num)]; norm_num; linarith
  have inv0 : 0 ≤ (1 - y ^ 2)⁻¹ := by rw [inv_nonneg]; linarith
  calc 1 / 7 * |y| ^ 7 * (1 - y ^ 2)⁻¹ ≤ 1 / 7 * (27 / 100) ^ 7 * (10000 / 9271) := by
        apply mul_le_mul (by linarith) inv inv0 (by positivity)
    _ ≤ 17 / 1000000 := by norm_num

theorem atanPoly_near {y : ℝ} (hy : |y| ≤ 27 / 100) :
    ∃ v, (∀ fuel, atanPoly id (fuel + 2) y () = .ok v ()) ∧ |v - Real.arctan y| ≤ 17 / 1000000 ∧
      |v| ≤ 3 / 10 ∧ (0 < y → 0 < v) ∧ (y = 0 → v = 0) := by
  obtain ⟨v, hv, he⟩ := atanPoly_val hy
  have key : |v - Real.arctan y| ≤ 17 / 1000000 := by
    rcases hv with rfl | ⟨-, rfl⟩
    · have := arctan_tail hy (n := 3) le_rfl
      simp only [Finset.sum_range_succ, Finset.sum_range_zero] at this
      norm_num at this
      convert this using 3; ring
    · have := arctan_tail hy (n := 5) (by norm_num)
      simp only [Finset.sum_range_succ, Finset.sum_range_zero] at this
      norm_num at this
      convert this using 3; ring
  refine ⟨v, he, key, ?_, ?_, ?_⟩
  · have h3 : |y| ^ 3 ≤ (27 / 100) ^ 3 := pow_le_pow_left₀ (abs_nonneg _) hy 3
    have h5 : |y| ^ 5 ≤ (27 / 100) ^ 5 := pow_le_pow_left₀ (abs_nonneg _) hy 5
    have h7 : |y| ^ 7 ≤ (27 / 100) ^ 7 := pow_le_pow_left₀ (abs_nonneg _) hy 7
    have h9 : |y| ^ 9 ≤ (27 / 100) ^ 9 := pow_le_pow_left₀ (abs_nonneg _) hy 9
    norm_num at h3 h5 h7 h9
    rw [← abs_pow] at h3 h5 h7 h9
    rw [abs_le] at hy h3 h5 h7 h9 ⊢
    rcases hv with rfl | ⟨-, rfl⟩ <;> constructor <;> linarith
  · intro h0
    rcases hv with rfl | ⟨h, -⟩
    · rw [abs_of_pos h0] at hy
      have : y ^ 3 = y * y ^ 2 := by ring
      have h5 : 0 < y ^ 5 := by positivity
      nlinarith
    · linarith
  · rintro rfl
    rcases hv with rfl | ⟨h, -⟩
    · norm_num
    · exact absurd h (lt_irrefl _)

theorem arctan_le {t : ℝ} (h : 0 ≤ t) : Real.arctan t ≤ t := by
  have h0 : 0 ≤ Real.arctan t := by rw [← Real.arctan_zero]; exact Real.arctan_strictMono.monotone h
  have := Real.le_tan h0 (Real.arctan_lt_pi_div_two t)
  rwa [Real.tan_arctan] at this

/-- The angle used in place of a sixth of pi. -/
theorem arctan_sixth : |Real.arctan (56 / 97) - Real.pi / 6| ≤ 31 / 1000000 := by
  have hs : 0 < Real.sqrt 3 := Real.sqrt_pos.mpr (by norm_num)
  have hsq : Real.sqrt 3 ^ 2 = 3 := Real.sq_sqrt (by norm_num)
  have hlo : (17320 / 10000 : ℝ) < Real.sqrt 3 := by
    rw [Real.lt_sqrt (by norm_num)]; norm_num
  have hhi : Real.sqrt 3 < 17321 / 10000 := by
    rw [Real.sqrt_lt' (by norm_num)]; norm_num
  rw [← Real.arctan_inv_sqrt_three, abs_sub_comm, sub_eq_add_neg, ← Real.arctan_neg,
    Real.arctan_add (by nlinarith [inv_pos.mpr hs])]
  set t := ((Real.sqrt 3)⁻¹ + -(56 / 97)) / (1 - (Real.sqrt 3)⁻¹ * -(56 / 97)) with ht
  have e : t = (97 - 56 * Real.sqrt 3) / (97 * Real.sqrt 3 + 56) := by
    have i0 := inv_pos.mpr hs
    rw [ht, div_eq_div_iff (by nlinarith) (by linarith)]; field_simp; ring
  have hd : 0 < 97 * Real.sqrt 3 + 56 := by linarith
  have hn : (97 - 56 * Real.sqrt 3) * (97 + 56 * Real.sqrt 3) = 1 := by nlinarith
  have hn0 : 0 < 97 - 56 * Real.sqrt 3 := by
    by_contra h
    push Not at h
    nlinarith
  have t0 : 0 ≤ t := by rw [e]; positivity
  have t1 : t ≤ 31 / 1000000 := by
    rw [e, div_le_iff₀ hd]
    nlinarith
  have a0 : 0 ≤ Real.arctan t := by rw [← Real.arctan_zero]; exact Real.arctan_strictMono.monotone t0
  rw [abs_of_nonneg a0]
  exact (arctan_le t0).trans t1

theorem atanIdentity_near {x : ℝ} (h0 : 0 ≤ x) (h1 : x ≤ 1) :
    ∃ v, (∀ fuel, atanIdentity id (fuel + 4) x () = .ok v ()) ∧ |v - Real.arctan x| ≤ 49 / 1000000 ∧
      0 ≤ v ∧ v ≤ 9 / 10 ∧ (0 < x → 0 < v) ∧ (x = 0 → v = 0) := by
  by_cases h : x ≤ 2 - 97 / 56
  · obtain ⟨v, a1, a2, a3, a4, a5⟩ := atanPoly_near (y := x) (by rw [abs_of_nonneg h0]; norm_num at h; linarith)
    rw [abs_le] at a3
    refine ⟨v, fun fuel => ?_, by linarith, ?_, by linarith, a4, a5⟩
    · rw [atanIdentity, M.bind_apply, sqrt_three]
      exact (congrFun (if_pos h) ()).trans (a1 (fuel + 2))
    · rcases h0.eq_or_lt with h | h
      · rw [a5 h.symm]
      · exact (a4 h).le
  · have hx : 15 / 56 < x := by norm_num at h; linarith
    have hd : 0 < 97 / 56 + x := by linarith
    obtain ⟨v, a1, a2, a3, -, -⟩ := atanPoly_near (y := (97 / 56 * x - 1) / (97 / 56 + x))
      (by
        rw [abs_div, abs_of_pos hd, div_le_iff₀ hd, abs_le]
        constructor <;> nlinarith)
    obtain ⟨-, p2⟩ := mPi_near
    have hb := arctan_sixth
    have hat : Real.arctan x = Real.arctan (56 / 97) + Real.arctan ((97 / 56 * x - 1) / (97 / 56 + x)) := by
      have := Real.arctan_add (x := x) (y := -(56 / 97)) (by nlinarith)
      rw [Real.arctan_neg] at this
      have e : (x + -(56 / 97)) / (1 - x * -(56 / 97)) = (97 / 56 * x - 1) / (97 / 56 + x) := by
        rw [div_eq_div_iff (by nlinarith) hd.ne']; ring
      rw [e] at this
      linarith
    refine ⟨mPi2 id / 3 + v, fun fuel => ?_, ?_, ?_, ?_, ?_, ?_⟩
    · rw [atanIdentity, M.bind_apply, sqrt_three]
      refine (congrFun (if_neg h) ()).trans ?_
      simp only [M.bind_apply, fdiv_ok (by norm_num : (3 : ℝ) ≠ 0), sqrt_three, fadd, fsub, fmul, id,
        fdiv_ok hd.ne', a1 (fuel + 2), M.pure_apply]
    · rw [hat]
      rw [abs_le] at *
      constructor <;> linarith
    all_goals
      rw [abs_le] at a3
      simp only [mPi2, id]
      try intro _
      linarith

/-- `atan` on every real. -/
theorem atan_near (x : ℝ) :
    ∃ v, (∀ fuel, atan id (fuel + 4) x () = .ok v ()) ∧ |v - Real.arctan x| ≤ 1 / 20000 ∧
      (0 < x → 0 < v ∧ v < mPi2 id) ∧ (x < 0 → -mPi2 id < v ∧ v < 0) ∧ (x = 0 → v = 0) := by
  have key : ∀ x : ℝ, 0 ≤ x → ∃ v, (∀ fuel, atanCmplmntry id (fuel + 4) x () = .ok v ()) ∧
      |v - Real.arctan x| ≤ 1 / 20000 ∧ (0 < x → 0 < v ∧ v < mPi2 id) ∧ (x = 0 → v = 0) := by
    intro x hx
    by_cases h : x < 1
    · obtain ⟨v, a1, a2, -, a4, a5, a6⟩ := atanIdentity_near hx h.le
      refine ⟨v, fun fuel => ?_, by linarith, fun h => ⟨a5 h, ?_⟩, a6⟩
      · rw [atanCmplmntry, if_pos h]; exact a1 fuel
      · simp only [mPi2, id]; linarith
    · have hx1 : 1 ≤ x := not_lt.mp h
      have hx0 : 0 < x := by linarith
      obtain ⟨v, a1, a2, a3, a4, a5, -⟩ := atanIdentity_near (x := 1 / x) (by positivity)
        (by rw [div_le_one hx0]; exact hx1)
      obtain ⟨-, p2⟩ := mPi_near
      refine ⟨mPi2 id - v, fun fuel => ?_, ?_, fun h => ⟨?_, ?_⟩, fun h => absurd h hx0.ne'⟩
      · rw [atanCmplmntry, if_neg h]
        simp only [M.bind_apply, fdiv_ok hx0.ne', id, a1, M.pure_apply, fsub]
      · rw [one_div, Real.arctan_inv_of_pos hx0] at a2
        rw [abs_le] at *
        constructor <;> linarith
      · simp only [mPi2, id]; linarith
      · have := a5 (by positivity)
        linarith
  by_cases hx : 0 ≤ x
  · obtain ⟨v, a1, a2, a3, a4⟩ := key x hx
    refine ⟨v, fun fuel => ?_, a2, a3, fun h => absurd hx (not_le.mpr h), a4⟩
    rw [atan, if_pos hx]; exact a1 fuel
  · have hx' : x < 0 := not_le.mp hx
    obtain ⟨v, a1, a2, a3, a4⟩ := key (-x) (by linarith)
    refine ⟨-v, fun fuel => ?_, ?_, fun h => absurd h (by linarith), fun h => ?_, fun h => absurd h hx'.ne⟩
    · rw [atan, if_neg hx]
      simp only [M.bind_apply, a1, M.pure_apply]
    · rw [Real.arctan_neg] at a2
      rw [abs_le] at *
      constructor <;> linarith
    · have := a3 (by linarith)
      constructor <;> linarith

/-- Cosine and sine of an arctangent, without square roots in denominators. -/
theorem polar_of_arctan {x y : ℝ} (hx : x ≠ 0) :
    |x| = Real.sqrt (x ^ 2 + y ^ 2) * Real.cos (Real.arctan (y / x)) ∧
    |x| * (y / x) = Real.sqrt (x ^ 2 + y ^ 2) * Real.sin (Real.arctan (y / x)) := by
  have hr : Real.sqrt (x ^ 2 + y ^ 2) = |x| * Real.sqrt (1 + (y / x) ^ 2) := by
    rw [← Real.sqrt_sq_eq_abs, ← Real.sqrt_mul (sq_nonneg x)]
    congr 1; field_simp
  have hs : 0 < Real.sqrt (1 + (y / x) ^ 2) := Real.sqrt_pos.mpr (by positivity)
  rw [Real.cos_arctan, Real.sin_arctan, hr]
  constructor <;> field_simp

end Cest.Cmath
