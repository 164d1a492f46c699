import Verif.Ieee.Atan
import Verif.ComplexFn.FpProofs

/-! `atan2` and `abs(complex)` over all values of `double`. -/
namespace Cest.Ieee
open Cest.Cmath (FM IsDouble RoundsToNearest)
open D Classical
open Cest.Fp (u u_pos u_lt)

variable {ρ : ℝ → ℝ}

/-! ### `atan2` -/

theorem arctan_huge {t : ℝ} (h : 2 ^ 1023 ≤ t) : |Real.arctan t - Real.pi / 2| ≤ u := by
  have t0 : 0 < t := lt_of_lt_of_le (by positivity) h
  have e := Real.arctan_inv_of_pos t0
  have l := Fp.arctan_lip t⁻¹ 0
  rw [Real.arctan_zero, sub_zero, sub_zero, e] at l
  rw [abs_sub_comm]
  refine l.trans ?_
  rw [abs_of_pos (inv_pos.mpr t0), ← one_div]
  unfold u
  exact one_div_le_one_div_of_le (by positivity)
    (le_trans (pow_le_pow_right₀ (by norm_num) (by norm_num)) h)

theorem isDouble_1023 : IsDouble ((2 : ℝ) ^ 1023) :=
  ⟨2 ^ 52, 971, by
    rw [show (1023 : ℕ) = 52 + 971 by norm_num, pow_add]
    push_cast
    congr 1; norm_num, by norm_num, by norm_num, by norm_num⟩

/-- The call of `atan` in `atan2`: also when the quotient overflows. -/
theorem atan_div (hr : RoundsToNearest ρ) {Y X : D} {y x : ℝ} (hY : Is Y y) (hX : Is X x) (h0 : x ≠ 0) :
    ∃ V v, Bd V v 20000 ∧ Cmath.Gives (fun fuel => atan ρ fuel (div ρ Y X)) V ∧
      |v - Real.arctan (y / x)| ≤ 1 / 20000 + 2 * u := by
  have hu := u_pos
  by_cases ht : |y / x| ≤ 2 ^ 1023
  · obtain ⟨V, v, h1, h2, h3⟩ := atan_value hr (hY.div hX h0 (ρ := ρ) (lt_lim ht))
    have h4 := Fp.arctan_round hr ht
    have h5 := abs_sub_le v (Real.arctan (ρ (y / x))) (Real.arctan (y / x))
    clear ht
    exact ⟨V, v, h1, h2, by linarith⟩
  · rw [not_le] at ht
    have y0 : y ≠ 0 := by
      rintro rfl
      rw [zero_div, abs_zero] at ht
      exact absurd ht (not_lt.mpr (by positivity))
    have hd : div ρ Y X = pack ρ (xor Y.sign X.sign) (y / x) := by
      rw [div_fin hY.1 hX.1, hY.2, hX.2, if_neg h0]
    rcases lt_or_gt_of_ne (div_ne_zero y0 h0) with hn | hp
    · have hs : xor Y.sign X.sign = true := by
        rcases div_neg_iff.mp hn with ⟨a, b⟩ | ⟨a, b⟩
        · rw [sign_pos hY a, sign_neg hX b]; rfl
        · rw [sign_neg hY a, sign_pos hX b]; rfl
      rw [abs_of_neg hn] at ht
      have hq := arctan_huge ht.le
      rw [Real.arctan_neg] at hq
      rcases pack_cases (ρ := ρ) (s := xor Y.sign X.sign) (r := y / x) with h | h
      · rw [← hd] at h
        obtain ⟨V, v, h1, h2, h3⟩ := atan_value hr h
        have hw := arctan_huge (t := -ρ (y / x)) (by
          have := hr.le_of_le isDouble_1023.neg (x := y / x) (le_neg_of_le_neg ht.le)
          exact le_neg_of_le_neg this)
        rw [Real.arctan_neg] at hw
        clear ht
        refine ⟨V, v, h1, h2, ?_⟩
        rw [abs_le] at *
        constructor <;> linarith
      · obtain ⟨V, v, h1, h2, h3, h4⟩ := atan_inf hr
        rw [hd, h, hs]
        clear ht
        refine ⟨neg V, -v, ⟨h1.1.neg, by rw [abs_neg]; exact h1.2⟩, h3, ?_⟩
        rw [abs_le] at *
        constructor <;> linarith
    · have hs : xor Y.sign X.sign = false := by
        rcases div_pos_iff.mp hp with ⟨a, b⟩ | ⟨a, b⟩
        · rw [sign_pos hY a, sign_pos hX b]; rfl
        · rw [sign_neg hY a, sign_neg hX b]; rfl
      rw [abs_of_pos hp] at ht
      have hq := arctan_huge ht.le
      rcases pack_cases (ρ := ρ) (s := xor Y.sign X.sign) (r := y / x) with h | h
      · rw [← hd] at h
        obtain ⟨V, v, h1, h2, h3⟩ := atan_value hr h
        have hw := arctan_huge (t := ρ (y / x)) (hr.ge_of_ge isDouble_1023 ht.le)
        clear ht
        refine ⟨V, v, h1, h2, ?_⟩
        rw [abs_le] at *
        constructor <;> linarith
      · obtain ⟨V, v, h1, h2, h3, h4⟩ := atan_inf hr
        rw [hd, h, hs]
        clear ht
        refine ⟨V, v, h1, h2, ?_⟩
        rw [abs_le] at *
        constructor <;> linarith

/-- `atan2` of two finite doubles that are not both zero. -/
theorem atan2_value (hr : RoundsToNearest ρ) {Y X : D} {y x : ℝ} (hY : Is Y y) (hX : Is X x) (h : ¬ (x = 0 ∧ y = 0)) :
    ∃ V v, Is V v ∧ Cmath.Gives (fun fuel => atan2 ρ fuel Y X) V ∧ |v - Complex.arg ⟨x, y⟩| ≤ 1 / 19000 := by
  have hl := lim_big
  norm_num at hl
  have hu := u_pos
  have hu1 := u_lt
  norm_num at hu1
  obtain ⟨p1, p2⟩ := Fp.mPi_fp hr
  norm_num at p1 p2
  rw [abs_le] at p1 p2
  have pg := Real.pi_gt_three
  have pl := Real.pi_lt_d2
  norm_num at pl
  have zy := (is_fin 0).lt hY
  have zy' := (is_fin 0).le hY
  have yz := hY.lt (is_fin 0)
  have zx := (is_fin 0).lt hX
  have xz := hX.lt (is_fin 0)
  have xe := hX.eq (is_fin 0)
  rcases lt_trichotomy x 0 with hx | hx | hx
  · obtain ⟨V, v, hV, ⟨N, hN⟩, he⟩ := atan_div hr hY hX hx.ne
    have l1 := Real.neg_pi_div_two_lt_arctan (y / x)
    have l2 := Real.arctan_lt_pi_div_two (y / x)
    rw [abs_le] at he
    rw [Fp.arg_left hx]
    by_cases hy : 0 ≤ y
    · have e2 := abs_le.mp (Fp.err hr (x := v + Cmath.mPi ρ) (B := 8) (by rw [abs_le]; constructor <;> linarith)
        (by norm_num) (by norm_num))
      refine ⟨_, _, (hV.add hr (mPi_bd hr) (by linarith)).1, ⟨N, fun fuel hf => ?_⟩, ?_⟩
      · show atan2 ρ fuel Y X () = _
        have e : atan ρ fuel (div ρ Y X) () = .ok V () := hN fuel hf
        rw [atan2, if_neg (fun hc => not_lt.mpr hx.le (zx.mp hc)), if_pos ⟨zy'.mpr hy, xz.mpr hx⟩, M.bind_of_ok e]
        rfl
      · rw [if_pos hy, abs_le]; constructor <;> linarith
    · have e2 := abs_le.mp (Fp.err hr (x := v - Cmath.mPi ρ) (B := 8) (by rw [abs_le]; constructor <;> linarith)
        (by norm_num) (by norm_num))
      refine ⟨_, _, (hV.sub hr (mPi_bd hr) (by linarith)).1, ⟨N, fun fuel hf => ?_⟩, ?_⟩
      · show atan2 ρ fuel Y X () = _
        have e : atan ρ fuel (div ρ Y X) () = .ok V () := hN fuel hf
        rw [atan2, if_neg (fun hc => not_lt.mpr hx.le (zx.mp hc)), if_neg (fun hc => hy (zy'.mp hc.1)),
          if_pos ⟨yz.mpr (not_le.mp hy), xz.mpr hx⟩, M.bind_of_ok e]
        rfl
      · rw [if_neg hy, abs_le]; constructor <;> linarith
  · subst hx
    have n0 : ¬ lt (fin 0) X := fun hc => lt_irrefl _ (zx.mp hc)
    have n1 : ¬ lt X (fin 0) := fun hc => lt_irrefl _ (xz.mp hc)
    rcases lt_trichotomy y 0 with hy | hy | hy
    · refine ⟨neg (mPi2 ρ), _, (is_fin _).neg, ⟨0, fun fuel _ => ?_⟩, ?_⟩
      · show atan2 ρ fuel Y X () = _
        rw [atan2, if_neg n0, if_neg (fun hc => n1 hc.2), if_neg (fun hc => n1 hc.2),
          if_neg (fun hc => lt_asymm hy (zy.mp hc.1)), if_pos ⟨yz.mpr hy, xe.mpr rfl⟩]
        rfl
      · rw [Fp.arg_of_polar (θ := -(Real.pi / 2)) h (by linarith) (by linarith) (by simp)
          (by simp [Real.sqrt_sq_eq_abs, abs_of_neg hy])]
        rw [abs_le]; constructor <;> linarith
    · exact absurd ⟨rfl, hy⟩ h
    · refine ⟨mPi2 ρ, _, is_fin _, ⟨0, fun fuel _ => ?_⟩, ?_⟩
      · show atan2 ρ fuel Y X () = _
        rw [atan2, if_neg n0, if_neg (fun hc => n1 hc.2), if_neg (fun hc => n1 hc.2),
          if_pos ⟨zy.mpr hy, xe.mpr rfl⟩]
        rfl
      · rw [Fp.arg_of_polar (θ := Real.pi / 2) h (by linarith) (by linarith) (by simp)
          (by simp [Real.sqrt_sq_eq_abs, abs_of_pos hy])]
        rw [abs_le]; constructor <;> linarith
  · obtain ⟨V, v, hV, ⟨N, hN⟩, he⟩ := atan_div hr hY hX hx.ne'
    rw [abs_le] at he
    rw [Fp.arg_right hx]
    refine ⟨V, v, hV.1, ⟨N, fun fuel hf => ?_⟩, ?_⟩
    · show atan2 ρ fuel Y X () = _
      rw [atan2, if_pos (zx.mpr hx)]
      exact hN fuel hf
    · rw [abs_le]; constructor <;> linarith

theorem atan_returns (hr : RoundsToNearest ρ) {A : D} (h : A ≠ nan) : ∃ V, Cmath.Gives (fun fuel => atan ρ fuel A) V := by
  rcases trichotomy A with rfl | rfl | rfl | ⟨x, hx⟩
  · exact absurd rfl h
  · obtain ⟨V, v, -, -, g, -⟩ := atan_inf hr; exact ⟨_, g⟩
  · obtain ⟨V, v, -, g, -, -⟩ := atan_inf hr; exact ⟨_, g⟩
  · obtain ⟨V, v, -, g, -⟩ := atan_value hr hx; exact ⟨_, g⟩

theorem atan2_returns (hr : RoundsToNearest ρ) {Y X : D} (h1 : ¬ (lt (fin 0) X ∧ Y = nan))
    (h2 : ¬ ((∃ s, X = inf s) ∧ ∃ s, Y = inf s)) : ∃ V, Cmath.Gives (fun fuel => atan2 ρ fuel Y X) V := by
  have hd : (lt (fin 0) X ∨ lt X (fin 0)) → Y ≠ nan → div ρ Y X ≠ nan := by
    intro hX hY
    rcases trichotomy X with rfl | rfl | rfl | ⟨x, hx⟩
    · rcases hX with h | h
      · exact absurd rfl h.2.1
      · exact absurd rfl h.1
    · rcases trichotomy Y with rfl | rfl | rfl | ⟨y, hy⟩
      · exact absurd rfl hY
      · exact absurd ⟨⟨_, rfl⟩, _, rfl⟩ h2
      · exact absurd ⟨⟨_, rfl⟩, _, rfl⟩ h2
      · exact (div_inf hy _).ne_nan
    · rcases trichotomy Y with rfl | rfl | rfl | ⟨y, hy⟩
      · exact absurd rfl hY
      · exact absurd ⟨⟨_, rfl⟩, _, rfl⟩ h2
      · exact absurd ⟨⟨_, rfl⟩, _, rfl⟩ h2
      · exact (div_inf hy _).ne_nan
    · have x0 : x ≠ 0 := by
        rintro rfl
        rcases hX with h | h
        · exact lt_irrefl _ (((is_fin 0).lt hx).mp h)
        · exact lt_irrefl _ ((hx.lt (is_fin 0)).mp h)
      rcases trichotomy Y with rfl | rfl | rfl | ⟨y, hy⟩
      · exact absurd rfl hY
      · rw [inf_div hx]; simp
      · rw [inf_div hx]; simp
      · rw [div_fin hy.1 hx.1, hx.2, if_neg x0]; exact pack_ne_nan
  by_cases c1 : lt (fin 0) X
  · obtain ⟨V, N, hN⟩ := atan_returns hr (hd (Or.inl c1) (fun hn => h1 ⟨c1, hn⟩))
    refine ⟨V, N, fun fuel hf => ?_⟩
    show atan2 ρ fuel Y X () = _
    rw [atan2, if_pos c1]; exact hN fuel hf
  by_cases c2 : le (fin 0) Y ∧ lt X (fin 0)
  · obtain ⟨V, N, hN⟩ := atan_returns hr (hd (Or.inr c2.2) c2.1.2.1)
    refine ⟨add ρ V (mPi ρ), N, fun fuel hf => ?_⟩
    show atan2 ρ fuel Y X () = _
    rw [atan2, if_neg c1, if_pos c2, M.bind_of_ok (hN fuel hf)]; rfl
  by_cases c3 : lt Y (fin 0) ∧ lt X (fin 0)
  · obtain ⟨V, N, hN⟩ := atan_returns hr (hd (Or.inr c3.2) c3.1.1)
    refine ⟨sub ρ V (mPi ρ), N, fun fuel hf => ?_⟩
    show atan2 ρ fuel Y X () = _
    rw [atan2, if_neg c1, if_neg c2, if_pos c3, M.bind_of_ok (hN fuel hf)]; rfl
  by_cases c4 : lt (fin 0) Y ∧ eq X (fin 0)
  · refine ⟨mPi2 ρ, 0, fun fuel _ => ?_⟩
    show atan2 ρ fuel Y X () = _
    rw [atan2, if_neg c1, if_neg c2, if_neg c3, if_pos c4]; rfl
  by_cases c5 : lt Y (fin 0) ∧ eq X (fin 0)
  · refine ⟨neg (mPi2 ρ), 0, fun fuel _ => ?_⟩
    show atan2 ρ fuel Y X () = _
    rw [atan2, if_neg c1, if_neg c2, if_neg c3, if_neg c4, if_pos c5]; rfl
  · refine ⟨fin 0, 0, fun fuel _ => ?_⟩
    show atan2 ρ fuel Y X () = _
    rw [atan2, if_neg c1, if_neg c2, if_neg c3, if_neg c4, if_neg c5]; rfl

theorem atan2_diverges {Y X : D} (h : (lt (fin 0) X ∧ Y = nan) ∨ ((∃ s, X = inf s) ∧ ∃ s, Y = inf s)) (fuel : ℕ) :
    atan2 ρ fuel Y X () = .timeout := by
  rcases h with ⟨h, rfl⟩ | ⟨⟨s, rfl⟩, t, rfl⟩
  · rw [atan2, if_pos h]
    have : div ρ nan X = nan := by cases X <;> rfl
    rw [this, atan_nan]
  · have e : div ρ (inf t) (inf s) = nan := rfl
    cases s
    · rw [atan2, if_pos (lt_pinf (is_fin 0)), e, atan_nan]
    · have n : lt (inf true) (fin 0) := ninf_lt (is_fin 0)
      rw [atan2, if_neg (lt_not_lt n)]
      cases t
      · rw [if_pos ⟨⟨by simp, by simp, by simp [D.ext]⟩, n⟩, e, M.bind_apply, atan_nan]
      · rw [if_neg (fun hc => lt_le n hc.1), if_pos ⟨n, n⟩, e, M.bind_apply, atan_nan]

theorem atan2_nan {Y X : D} (h : X = nan ∨ (Y = nan ∧ ¬ lt (fin 0) X)) (fuel : ℕ) : atan2 ρ fuel Y X () = .ok (fin 0) () := by
  rcases h with rfl | ⟨rfl, h⟩
  · rw [atan2, if_neg (by simp [D.lt]), if_neg (by simp [D.lt]), if_neg (by simp [D.lt]), if_neg (by simp [D.eq]),
      if_neg (by simp [D.eq])]
    rfl
  · rw [atan2, if_neg h, if_neg (by simp [D.le]), if_neg (by simp [D.lt]), if_neg (by simp [D.lt]),
      if_neg (by simp [D.lt])]
    rfl

/-! ### `abs(complex)` -/

theorem is_stdMax {A B : D} {x y : ℝ} (hA : Is A x) (hB : Is B y) : Is (stdMax A B) (max x y) := by
  unfold stdMax
  split
  · rename_i h
    rw [max_eq_right ((hA.lt hB).mp h).le]; exact hB
  · rename_i h
    rw [max_eq_left (not_lt.mp (fun hc => h ((hA.lt hB).mpr hc)))]; exact hA

theorem round_err_lim (hr : RoundsToNearest ρ) {t : ℝ} (ht : |t| < lim) : |ρ t - t| ≤ u * |t| + CxFp.η := by
  have hη := CxFp.η_pos
  by_cases h : 1 / 2 ^ 1022 ≤ |t|
  · have := rel_err_lim hr h ht
    linarith
  · refine CxFp.round_err hr ((not_le.mp h).le.trans ?_)
    exact le_trans (by rw [div_le_one (by positivity)]; exact one_le_pow₀ (by norm_num)) (one_le_pow₀ (by norm_num : (1 : ℝ) ≤ 2))

/-- `abs(z)` of a complex number with finite parts: accurate, or an overflow that the exact value is close to. -/
theorem complexAbs_value (hr : RoundsToNearest ρ) {X Y : D} {x y : ℝ} (hX : Is X x) (hY : Is Y y) :
    (∃ V v, Is V v ∧ Cmath.Gives (fun fuel => complexAbs ρ fuel X Y) V ∧
      |v - Real.sqrt (x ^ 2 + y ^ 2)| ≤ 52 / 100000 * Real.sqrt (x ^ 2 + y ^ 2) + 1 / 2 ^ 1075) ∨
    (Cmath.Gives (fun fuel => complexAbs ρ fuel X Y) (inf false) ∧
      (1 - 52 / 100000) * lim ≤ Real.sqrt (x ^ 2 + y ^ 2)) := by
  have hu := u_pos
  have hu1 := u_lt
  norm_num at hu1
  have hl := lim_big
  norm_num at hl
  have hη := CxFp.η_pos
  have hS := is_stdMax hX.abs hY.abs
  by_cases h0 : max |x| |y| = 0
  · left
    have hx : x = 0 := by
      have := le_max_left |x| |y|
      rw [h0] at this; exact abs_nonpos_iff.mp this
    have hy : y = 0 := by
      have := le_max_right |x| |y|
      rw [h0] at this; exact abs_nonpos_iff.mp this
    subst hx hy
    refine ⟨_, _, hS, ⟨0, fun fuel _ => ?_⟩, ?_⟩
    · show complexAbs ρ fuel X Y () = _
      simp only [complexAbs]
      rw [if_pos ((hS.eq (is_fin 0)).mpr h0)]; rfl
    · simp
  · set s := max |x| |y| with hs
    have s0 : 0 < s := lt_of_le_of_ne ((abs_nonneg x).trans (le_max_left _ _)) (Ne.symm h0)
    have tx : |x / s| ≤ 1 := by rw [abs_div, abs_of_pos s0, div_le_one s0]; exact le_max_left _ _
    have ty : |y / s| ≤ 1 := by rw [abs_div, abs_of_pos s0, div_le_one s0]; exact le_max_right _ _
    have hq1 : 1 ≤ x / s * (x / s) + y / s * (y / s) := by
      have hz : |x / s| = 1 ∨ |y / s| = 1 := by
        rcases max_choice |x| |y| with h | h
        · left; rw [abs_div, abs_of_pos s0, hs, h]; exact div_self (by rw [← h, ← hs]; exact s0.ne')
        · right; rw [abs_div, abs_of_pos s0, hs, h]; exact div_self (by rw [← h, ← hs]; exact s0.ne')
      rcases hz with h | h
      · have : x / s * (x / s) = 1 := by rw [← abs_mul_abs_self, h, one_mul]
        nlinarith [mul_self_nonneg (y / s)]
      · have : y / s * (y / s) = 1 := by rw [← abs_mul_abs_self, h, one_mul]
        nlinarith [mul_self_nonneg (x / s)]
    have hq2 : x / s * (x / s) + y / s * (y / s) ≤ 2 := by
      have a1 : x / s * (x / s) ≤ 1 := by rw [← abs_mul_abs_self]; exact mul_le_one₀ tx (abs_nonneg _) tx
      have a2 : y / s * (y / s) ≤ 1 := by rw [← abs_mul_abs_self]; exact mul_le_one₀ ty (abs_nonneg _) ty
      linarith
    have hsq : Real.sqrt (x ^ 2 + y ^ 2) = s * Real.sqrt (x / s * (x / s) + y / s * (y / s)) := by
      rw [show x ^ 2 + y ^ 2 = s ^ 2 * (x / s * (x / s) + y / s * (y / s)) by field_simp,
        Real.sqrt_mul (sq_nonneg s), Real.sqrt_sq s0.le]
    have ex := abs_le.mp (ComplexFn.sq_err hr tx).1
    have ey := abs_le.mp (ComplexFn.sq_err hr ty).1
    have bX : Bd (div ρ X (stdMax (abs X) (abs Y))) (ρ (x / s)) 1 := by
      refine ⟨hX.div hS s0.ne' (by linarith), ?_⟩
      rw [abs_le]
      exact ⟨hr.ge_of_ge (by simpa using isDouble_one.neg) (abs_le.mp tx).1, hr.le_of_le isDouble_one (abs_le.mp tx).2⟩
    have bY : Bd (div ρ Y (stdMax (abs X) (abs Y))) (ρ (y / s)) 1 := by
      refine ⟨hY.div hS s0.ne' (by linarith), ?_⟩
      rw [abs_le]
      exact ⟨hr.ge_of_ge (by simpa using isDouble_one.neg) (abs_le.mp ty).1, hr.le_of_le isDouble_one (abs_le.mp ty).2⟩
    have hsum := (bX.mul hr bX (by linarith)).add hr (bY.mul hr bY (by linarith)) (by linarith)
    rw [hsq]
    generalize hX' : x / s = X' at *
    generalize hY' : y / s = Y' at *
    generalize ha : ρ (ρ X' * ρ X') = a at *
    generalize hb : ρ (ρ Y' * ρ Y') = b at *
    clear tx ty
    generalize hQ : X' * X' + Y' * Y' = Q at *
    have e3 := abs_le.mp (Fp.err hr (x := a + b) (B := 4) (by rw [abs_le]; constructor <;> linarith) (by norm_num)
      (by norm_num))
    have q1 : Q * (1 - 14 * u) ≤ ρ (a + b) := by nlinarith
    have q2 : ρ (a + b) ≤ Q * (1 + 14 * u) := by nlinarith
    have hqd := hr.double (a + b)
    generalize hq : ρ (a + b) = q at *
    have q0 : 1 / 2 ≤ q := by linarith
    obtain ⟨R, r, hR, r2, r3, N, hN⟩ := sqrt_pos hr hsum.1 hqd (by linarith)
    have c0 : 0 < Real.sqrt Q := Real.sqrt_pos.mpr (by linarith)
    have c2 : Real.sqrt Q ^ 2 = Q := Real.sq_sqrt (by linarith)
    have rc := Fp.near_of_sq r2 c0 (by norm_num; linarith : 14 * u ≤ 1 / 10 ^ 9) r3 (by rw [c2]; exact q1)
      (by rw [c2]; exact q2)
    generalize Real.sqrt Q = c at *
    have rc' := abs_le.mp rc
    have hrun : ∀ fuel, N ≤ fuel → complexAbs ρ fuel X Y () = .ok (mul ρ (stdMax (abs X) (abs Y)) R) () := by
      intro fuel hf
      simp only [complexAbs]
      rw [if_neg (fun hc => h0 ((hS.eq (is_fin 0)).mp hc)), M.bind_of_ok (hN fuel hf)]; rfl
    have k4 : 0 < s * c := mul_pos s0 c0
    have k1 : |s * r - s * c| ≤ 51 / 100000 * (s * c) := by
      rw [← mul_sub, abs_mul, abs_of_pos s0]
      have := mul_le_mul_of_nonneg_left rc s0.le
      linarith
    by_cases hov : |s * r| < lim
    · left
      have e5 := round_err_lim hr hov
      rw [abs_of_pos (mul_pos s0 r2)] at e5
      refine ⟨_, _, hS.mul hR hov, ⟨N, hrun⟩, ?_⟩
      have hη' : CxFp.η = 1 / 2 ^ 1075 := rfl
      rw [← hη']
      have k2 : s * r ≤ s * (2 * c) := mul_le_mul_of_nonneg_left (by linarith) s0.le
      have k3 := abs_sub_le (ρ (s * r)) (s * r) (s * c)
      have k5 : u * (s * r) ≤ u * (s * (2 * c)) := mul_le_mul_of_nonneg_left k2 hu.le
      have k6 : u * (s * (2 * c)) ≤ 1 / 100000 * (s * c) := by nlinarith
      linarith
    · right
      rw [not_lt] at hov
      have e : mul ρ (stdMax (abs X) (abs Y)) R = inf false := by
        rw [mul_fin hS.1 hR.1, hS.2, hR.2, pack_over hov, sign_pos hS s0, sign_pos hR r2]; rfl
      refine ⟨⟨N, fun fuel hf => (hrun fuel hf).trans (by rw [e])⟩, ?_⟩
      rw [abs_of_pos (mul_pos s0 r2)] at hov
      have := (abs_le.mp k1).2
      nlinarith

theorem complexAbs_diverges {X Y : D} (h : ¬ (X.Finite ∧ Y.Finite)) (h' : ¬ (Is X 0 ∧ Y = nan)) (fuel : ℕ) :
    complexAbs ρ fuel X Y () = .timeout := by
  have an : abs nan = nan := by unfold D.abs; rw [if_neg (by simp [D.lt])]
  have mn : ∀ A, mul ρ A nan = nan := fun A => by cases A <;> rfl
  have nm : ∀ A, mul ρ nan A = nan := fun A => by cases A <;> rfl
  have na : ∀ A, add ρ nan A = nan := fun A => by cases A <;> rfl
  have an' : ∀ A, add ρ A nan = nan := fun A => by cases A <;> rfl
  have nd : ∀ A, div ρ nan A = nan := fun A => by cases A <;> rfl
  have key : ¬ eq (stdMax (abs X) (abs Y)) (fin 0) → div ρ X (stdMax (abs X) (abs Y)) = nan ∨
      div ρ Y (stdMax (abs X) (abs Y)) = nan → complexAbs ρ fuel X Y () = .timeout := by
    intro k1 k2
    simp only [complexAbs]
    rw [if_neg k1]
    have e : add ρ (mul ρ (div ρ X (stdMax (abs X) (abs Y))) (div ρ X (stdMax (abs X) (abs Y))))
      (mul ρ (div ρ Y (stdMax (abs X) (abs Y))) (div ρ Y (stdMax (abs X) (abs Y)))) = nan := by
      rcases k2 with k | k
      · rw [k, nm, na]
      · rw [k, nm, an']
    rw [e, M.bind_apply, sqrt_nan]
  have ei : ∀ s, ¬ eq (inf s) (fin 0) := fun s hc => by have := hc.2.2; cases s <;> simp [D.ext] at this
  have maxinf : ∀ A, stdMax (inf false) A = inf false := fun A => by unfold stdMax; rw [if_neg not_pinf_lt]
  rcases trichotomy X with rfl | rfl | rfl | ⟨x, hx⟩
  · have : stdMax (abs nan) (abs Y) = nan := by unfold stdMax; rw [an, if_neg (by simp [D.lt])]
    exact key (by rw [this]; simp [D.eq]) (Or.inl (nd _))
  · have : stdMax (abs (inf true)) (abs Y) = inf false := by rw [abs_inf, maxinf]
    exact key (by rw [this]; exact ei _) (Or.inl (by rw [this]; rfl))
  · have : stdMax (abs (inf false)) (abs Y) = inf false := by rw [abs_inf, maxinf]
    exact key (by rw [this]; exact ei _) (Or.inl (by rw [this]; rfl))
  · rcases trichotomy Y with rfl | rfl | rfl | ⟨y, hy⟩
    · have : stdMax (abs X) (abs nan) = abs X := by unfold stdMax; rw [an, if_neg (by simp [D.lt])]
      refine key ?_ (Or.inr (nd _))
      rw [this]
      intro hc
      have := (hx.abs.eq (is_fin 0)).mp hc
      exact h' ⟨by rw [← abs_eq_zero.mp this]; exact hx, rfl⟩
    · have : stdMax (abs X) (abs (inf true)) = inf false := by
        unfold stdMax; rw [abs_inf, if_pos (lt_pinf hx.abs)]
      exact key (by rw [this]; exact ei _) (Or.inr (by rw [this]; rfl))
    · have : stdMax (abs X) (abs (inf false)) = inf false := by
        unfold stdMax; rw [abs_inf, if_pos (lt_pinf hx.abs)]
      exact key (by rw [this]; exact ei _) (Or.inr (by rw [this]; rfl))
    · exact absurd ⟨hx.1, hy.1⟩ h

theorem complexAbs_zero_nan {X : D} (h : Is X 0) (fuel : ℕ) : ∃ Z, Is Z 0 ∧ complexAbs ρ fuel X nan () = .ok Z () := by
  have an : abs nan = nan := by unfold D.abs; rw [if_neg (by simp [D.lt])]
  have : stdMax (abs X) (abs nan) = abs X := by unfold stdMax; rw [an, if_neg (by simp [D.lt])]
  refine ⟨abs X, by simpa using h.abs, ?_⟩
  simp only [complexAbs]
  rw [this, if_pos ((h.abs.eq (is_fin 0)).mpr (by simp))]
  rfl

end Cest.Ieee
