import Verif.Ieee.Values

/-! `cosh` over all values of `double`. -/
namespace Cest.Ieee
open Cest.Cmath (FM IsDouble RoundsToNearest)
open D Classical
open Cest.Fp (u u_pos u_lt)

variable {ρ : ℝ → ℝ}

/-- `a` is at least `L`, or the positive infinity. -/
def Ge (a : D) (L : ℝ) : Prop := a = inf false ∨ ∃ w, Is a w ∧ L ≤ w

theorem Ge.mul (hr : RoundsToNearest ρ) {a b : D} {x y z : ℝ} (ha : Ge a x) (hb : Ge b y) (hx : 0 < x) (hy : 0 < y)
    (hz : IsDouble z) (h : z ≤ x * y) : Ge (D.mul ρ a b) z := by
  rcases ha with rfl | ⟨w, ha, hw⟩
  · rcases hb with rfl | ⟨w', hb, hw'⟩
    · exact Or.inl rfl
    · left; rw [inf_mul hb (by linarith), sign_pos hb (by linarith)]; rfl
  · rcases hb with rfl | ⟨w', hb, hw'⟩
    · left; rw [mul_inf ha (by linarith), sign_pos ha (by linarith)]; rfl
    · rw [mul_fin ha.1 hb.1, ha.2, hb.2, sign_pos ha (by linarith), sign_pos hb (by linarith)]
      rcases pack_cases (ρ := ρ) (s := xor false false) (r := w * w') with h' | h'
      · exact Or.inr ⟨_, h', hr.ge_of_ge hz (h.trans (mul_le_mul hw hw' hy.le (by linarith)))⟩
      · exact Or.inl h'

theorem Ge.add (hr : RoundsToNearest ρ) {a b : D} {x y z : ℝ} (ha : Ge a x) (hb : Ge b y) (hx : 0 < x) (hy : 0 < y)
    (hz : IsDouble z) (h : z ≤ x + y) : Ge (D.add ρ a b) z := by
  rcases ha with rfl | ⟨w, ha, hw⟩
  · rcases hb with rfl | ⟨w', hb, hw'⟩
    · exact Or.inl rfl
    · left; rw [inf_add hb]
  · rcases hb with rfl | ⟨w', hb, hw'⟩
    · left; rw [add_inf ha]
    · have e : decide (w + w' < 0) = false := by simp; linarith
      rw [add_fin ha.1 hb.1, addF, ha.2, hb.2, if_neg (by linarith), e]
      rcases pack_cases (ρ := ρ) (s := false) (r := w + w') with h' | h'
      · exact Or.inr ⟨_, h', hr.ge_of_ge hz (h.trans (by linarith))⟩
      · exact Or.inl h'

theorem isDouble_two_pow {n : ℕ} (h : n ≤ 971) : IsDouble ((2 : ℝ) ^ n) :=
  ⟨1, n, by simp, by norm_num, by omega, by omega⟩

theorem ge_three : Ge (fin 3) 3 := Or.inr ⟨3, is_fin 3, le_rfl⟩
theorem ge_four : Ge (fin 4) 4 := Or.inr ⟨4, is_fin 4, le_rfl⟩

/-- Once a call returned at least 2¹⁷⁰, so does the call that made it, and its cube exceeds 2⁵¹⁰. -/
theorem ge_triple (hr : RoundsToNearest ρ) {v : D} (h : Ge v (2 ^ 170)) :
    Ge (add ρ (mul ρ (fin 3) v) (mul ρ (fin 4) (cube ρ v))) (2 ^ 512) := by
  have p : (0 : ℝ) < 2 ^ 170 := by positivity
  have c1 : Ge (mul ρ v v) (2 ^ 340) := h.mul hr h p p (isDouble_two_pow (by norm_num)) (by rw [← pow_add])
  have c2 : Ge (cube ρ v) (2 ^ 510) := c1.mul hr h (by positivity) p (isDouble_two_pow (by norm_num)) (by rw [← pow_add])
  have c3 : Ge (mul ρ (fin 4) (cube ρ v)) (2 ^ 512) :=
    ge_four.mul hr c2 (by norm_num) (by positivity) (isDouble_two_pow (by norm_num)) (by
      rw [show (4 : ℝ) = 2 ^ 2 by norm_num, ← pow_add])
  have c4 : Ge (mul ρ (fin 3) v) (2 ^ 170) :=
    ge_three.mul hr h (by norm_num) p (isDouble_two_pow (by norm_num)) (le_mul_of_one_le_left p.le (by norm_num))
  exact c4.add hr c3 p (by positivity) (isDouble_two_pow (by norm_num)) (le_add_of_nonneg_left p.le)

theorem Ge.weaken {a : D} {x y : ℝ} (h : Ge a x) (hy : y ≤ x) : Ge a y := by
  rcases h with h | ⟨w, h, hw⟩
  · exact Or.inl h
  · exact Or.inr ⟨w, h, hy.trans hw⟩

theorem sinh_ge_170 {t : ℝ} (h : 118649 / 1000 ≤ t) : 2 ^ 170 ≤ Real.sinh t := by
  have h1 : (2 : ℝ) ^ 171 + 2 ≤ Real.exp t := by
    have h2 : (2 : ℝ) ^ 171 * (1001 / 1000) ≤ Real.exp t := by
      rw [← Real.log_le_iff_le_exp (by positivity), Real.log_mul (by positivity) (by norm_num), Real.log_pow]
      have h3 := Real.log_two_lt_d9
      have h4 : Real.log (1001 / 1000) ≤ 1001 / 1000 - 1 := Real.log_le_sub_one_of_pos (by norm_num)
      push_cast; norm_num at h3 h4 ⊢; linarith
    refine le_trans ?_ h2
    norm_num
  have h2 : Real.exp (-t) ≤ 1 := by rw [Real.exp_le_one_iff]; linarith
  rw [Real.sinh_eq]
  norm_num at h1 ⊢
  linarith

/-- Lower bound on `sinh_helper` for large arguments. -/
theorem sinh_lower (hr : RoundsToNearest ρ) (n : ℕ) : ∀ (A v : D) (x : ℝ), Is A x → Valid A → 11865 / 100 ≤ x →
    sinhHelper ρ n A () = .ok v () → Ge v (2 ^ 170) := by
  induction n with
  | zero => intro A v x _ _ _ h; simp [sinhHelper, M.timeout] at h
  | succ n ih =>
    intro A v x hA hv h1 h
    have ht := tol_pos hr
    have hc : ¬ lt A (tol ρ) := fun hc => by
      have := (hA.lt (is_fin _)).mp hc
      linarith [ht.2]
    rcases le_total x 702 with h2 | h2
    · obtain ⟨θ, t0, t1, hN⟩ := Fp.sinhHelper_near hr (by linarith) h2
      obtain ⟨V, hV, h4⟩ := sinh_ref hr _ _ _ _ hA hv (by linarith) h2 (hN (max (n + 1) 21) (le_max_right _ _))
      obtain ⟨-, w, -, N, hN'⟩ := helpers_gives hr hA hv
      have e1 := sinhHelper_mono h (le_max_left (n + 1) 21)
      rw [e1] at h4
      cases h4
      rw [abs_le] at t1
      norm_num at t1
      exact Or.inr ⟨_, hV, sinh_ge_170 (by linarith)⟩
    · obtain ⟨t1, t2, t3⟩ := is_third hr hA hv (by linarith [ht.2])
      obtain ⟨w, h3, rfl⟩ := sinhHelper_inv h hc
      have := ih _ _ _ t1 (valid_div hr) (by linarith) h3
      exact (ge_triple hr this).weaken (pow_le_pow_right₀ (by norm_num) (by norm_num))

/-- From 356 on the computed `sinh` is at least 2⁵¹². -/
theorem sinhHelper_512 (hr : RoundsToNearest ρ) {n : ℕ} {A v : D} {x : ℝ} (hA : Is A x) (hv : Valid A) (h1 : 356 ≤ x)
    (h : sinhHelper ρ n A () = .ok v ()) : Ge v (2 ^ 512) := by
  have ht := tol_pos hr
  obtain ⟨k, rfl⟩ : ∃ k, n = k + 1 := by
    cases n with
    | zero => simp [sinhHelper, M.timeout] at h
    | succ k => exact ⟨k, rfl⟩
  have hc : ¬ lt A (tol ρ) := fun hc => by
    have := (hA.lt (is_fin _)).mp hc
    linarith [ht.2]
  obtain ⟨t1, t2, t3⟩ := is_third hr hA hv (by linarith [ht.2])
  obtain ⟨w, h3, rfl⟩ := sinhHelper_inv h hc
  exact ge_triple hr (sinh_lower hr _ _ _ _ t1 (valid_div hr) (by linarith) h3)

/-- The square of a number of absolute value 2⁵¹² or more, or of an infinity, is infinite. -/
theorem square_512 {v : D} (h : Ge v (2 ^ 512)) : mul ρ v v = inf false ∧ mul ρ (neg v) (neg v) = inf false := by
  have key : ∀ (a : D) (w : ℝ), Is a w → 2 ^ 512 ≤ |w| → mul ρ a a = inf false := by
    intro a w ha hw
    rw [mul_fin ha.1 ha.1, ha.2, Bool.xor_self]
    refine pack_over ?_
    rw [abs_mul]
    have p : (0 : ℝ) ≤ 2 ^ 512 := by positivity
    have : (2 : ℝ) ^ 512 * 2 ^ 512 ≤ |w| * |w| := mul_le_mul hw hw p (p.trans hw)
    refine le_trans ?_ this
    rw [← pow_add]
    unfold lim
    exact sub_le_self _ (by positivity)
  rcases h with rfl | ⟨w, h, hw⟩
  · exact ⟨rfl, rfl⟩
  · exact ⟨key v w h (hw.trans (le_abs_self w)), key _ _ h.neg (by rw [abs_neg]; exact hw.trans (le_abs_self w))⟩

/-- `cosh` never returns from 356 on. -/
theorem cosh_diverges_big (hr : RoundsToNearest ρ) {A : D} {x : ℝ} (hA : Is A x) (hv : Valid A) (hx : 356 ≤ |x|) (fuel : ℕ) :
    cosh ρ fuel A () = .timeout := by
  have key : ∀ v, Ge v (2 ^ 512) → sqrt ρ fuel (add ρ (fin 1) (square ρ v)) () = .timeout ∧
      sqrt ρ fuel (add ρ (fin 1) (square ρ (neg v))) () = .timeout := by
    intro v h
    obtain ⟨h1, h2⟩ := square_512 (ρ := ρ) h
    rw [square, square, h1, h2, add_inf (is_fin 1)]
    exact ⟨sqrt_inf _ _, sqrt_inf _ _⟩
  unfold cosh sinh
  rcases lt_or_ge x 0 with h | h
  · rw [if_pos ((hA.lt (is_fin 0)).mpr h)]
    rcases sinhHelper_or (ρ := ρ) fuel (neg A) with ⟨v, hv'⟩ | ht
    · simp only [M.bind_apply, hv', M.pure_apply]
      exact (key v (sinhHelper_512 hr hA.neg (valid_neg hv) (by rwa [abs_of_neg h] at hx) hv')).2
    · simp only [M.bind_apply, ht]
  · rw [if_neg (fun hc => not_le.mpr ((hA.lt (is_fin 0)).mp hc) h)]
    rcases sinhHelper_or (ρ := ρ) fuel A with ⟨v, hv'⟩ | ht
    · simp only [M.bind_apply, hv']
      exact (key v (sinhHelper_512 hr hA hv (by rwa [abs_of_nonneg h] at hx) hv')).1
    · simp only [M.bind_apply, ht]

theorem cosh_diverges {A : D} (h : ¬ A.Finite) (fuel : ℕ) : cosh ρ fuel A () = .timeout := by
  unfold cosh
  simp only [M.bind_apply, sinh_diverges h fuel]

/-- The square of the computed `sinh` does not overflow up to 355. -/
theorem square_355 (hr : RoundsToNearest ρ) {x v : ℝ} (hx : |x| ≤ 355) (h : Cmath.sinh ρ 21 x () = .ok v ()) :
    v * v < lim := by
  obtain ⟨θ, h1, -, hN⟩ := Fp.sinh_val hr (x := x) (by linarith)
  rw [hN 21 le_rfl] at h
  cases h
  norm_num at h1
  have tb : |θ| ≤ 355001 / 1000 := by have := (abs_le.mp h1).2; linarith
  have cs : Real.cosh θ ^ 2 ≤ 2 ^ 1022 * (7 / 4) := by
    have h1 : Real.cosh |θ| ≤ Real.exp |θ| * (501 / 1000) + 1 / 2 := by
      rw [Real.cosh_eq]
      have : Real.exp (-|θ|) ≤ 1 := by rw [Real.exp_le_one_iff]; linarith [abs_nonneg θ]
      have := Real.exp_pos |θ|
      linarith
    have h2 : Real.exp |θ| ≤ 2 ^ 512 * (113 / 100) := by
      rw [← Real.le_log_iff_exp_le (by positivity), Real.log_mul (by positivity) (by norm_num), Real.log_pow]
      have h3 := Real.log_two_gt_d9
      have h4 : 1 - (113 / 100 : ℝ)⁻¹ ≤ Real.log (113 / 100) := Real.one_sub_inv_le_log_of_pos (by norm_num)
      push_cast; norm_num at h3 h4 ⊢; linarith
    rw [Real.cosh_abs] at h1
    have h3 : Real.cosh θ ≤ 2 ^ 511 * (13 / 10) := by
      have e : (2 : ℝ) ^ 512 = 2 * 2 ^ 511 := by rw [← pow_succ']
      have e' : (2 : ℝ) ^ 10 ≤ 2 ^ 511 := pow_le_pow_right₀ (by norm_num) (by norm_num)
      rw [e] at h2
      clear e
      norm_num at e'
      generalize (2 : ℝ) ^ 511 = W at *
      linarith
    have h4 := pow_le_pow_left₀ (Real.cosh_pos θ).le h3 2
    refine h4.trans ?_
    rw [mul_pow, ← pow_mul]
    exact mul_le_mul_of_nonneg_left (by norm_num) (by positivity)
  have hlim : (2 : ℝ) ^ 1022 * 2 < lim := lt_lim (by rw [← pow_succ])
  have hch := Real.cosh_sq θ
  generalize (2 : ℝ) ^ 1022 = W at *
  nlinarith

/-- It returns, and accurately, where the square does not overflow. -/
theorem cosh_value (hr : RoundsToNearest ρ) {A : D} {x : ℝ} (hA : Is A x) (hv : Valid A) (hx : |x| ≤ 356)
    (hl : ∀ v, Cmath.sinh ρ 21 x () = .ok v () → v * v < lim) :
    ∃ V v, Is V v ∧ Cmath.Gives (fun fuel => cosh ρ fuel A) V ∧
      |v - Real.cosh x| ≤ (52 / 100000 + 4 / 10 ^ 6 * |x|) * Real.cosh x := by
  have hu := u_pos
  have hu1 := u_lt
  norm_num at hu1
  obtain ⟨θ, h1, -, hN⟩ := Fp.sinh_val hr (x := x) (by linarith)
  obtain ⟨S, hS, hg⟩ := sinh_value hr hA hv (by linarith) ⟨21, hN⟩
  have hx0 := abs_nonneg x
  norm_num at h1
  have hlim := hl _ (hN 21 le_rfl)
  have hch := Real.cosh_sq θ
  set c := Real.cosh θ with hc
  have c1 : 1 ≤ c := Real.one_le_cosh θ
  set s := Real.sinh θ with hs
  have c12 : 1 ≤ c ^ 2 := one_le_pow₀ c1
  -- the square and the sum
  have ss : s * s = c ^ 2 - 1 := by rw [hch]; ring
  rw [ss] at hlim
  have e1 : |ρ (c ^ 2 - 1) - (c ^ 2 - 1)| ≤ u * c ^ 2 := by
    by_cases h : 1 / 2 ^ 1022 ≤ c ^ 2 - 1
    · have := rel_err_lim hr (x := c ^ 2 - 1) (by rwa [abs_of_nonneg (by linarith)])
        (by rw [abs_of_nonneg (by linarith)]; linarith)
      rw [abs_of_nonneg (by linarith : 0 ≤ c ^ 2 - 1)] at this
      nlinarith
    · have h3 := hr.nearest (c ^ 2 - 1) 0 Fp.isDouble_zero
      rw [sub_zero, abs_sub_comm, abs_of_nonneg (by linarith : 0 ≤ c ^ 2 - 1)] at h3
      refine h3.trans ((not_le.mp h).le.trans ?_)
      have h4 : (1 : ℝ) / 2 ^ 1022 ≤ u := by
        unfold u
        exact one_div_le_one_div_of_le (by positivity) (pow_le_pow_right₀ (by norm_num) (by norm_num))
      exact h4.trans (by nlinarith)
  have e1' := abs_le.mp e1
  have q0 : 0 ≤ ρ (c ^ 2 - 1) := by
    apply hr.ge_of_ge Fp.isDouble_zero
    linarith
  have q1 : 1 + ρ (c ^ 2 - 1) < lim := by
    have := (le_abs_self _).trans (isDouble_lt (hr.double (c ^ 2 - 1)))
    unfold lim
    have f1 : (2 : ℝ) ^ 971 = 2 ^ 970 * 2 := pow_succ _ _
    have f2 : (1 : ℝ) < 2 ^ 970 := one_lt_pow₀ (by norm_num) (by norm_num)
    rw [f1] at this
    generalize (2 : ℝ) ^ 970 = W at this f2 ⊢
    generalize (2 : ℝ) ^ 1024 = W' at this ⊢
    linarith only [this, f2]
  have e2 := rb_lim hr (y := 1 + ρ (c ^ 2 - 1)) (by linarith) q1
  have hsq : Is (square ρ S) (ρ (c ^ 2 - 1)) := by
    rw [← ss]
    exact hS.mul hS (by rw [ss, abs_of_nonneg (by linarith)]; linarith)
  have hsum : Is (add ρ (fin 1) (square ρ S)) (ρ (1 + ρ (c ^ 2 - 1))) :=
    (is_fin 1).add hr hsq (by rw [abs_of_nonneg (by linarith)]; exact q1)
  generalize hq : ρ (c ^ 2 - 1) = q at *
  have X1 : c ^ 2 * (1 - 3 * u) ≤ ρ (1 + q) := by nlinarith
  have X2 : ρ (1 + q) ≤ c ^ 2 * (1 + 3 * u) := by nlinarith
  obtain ⟨R, r, hR, r2, r3, N', hN'⟩ := sqrt_pos hr hsum (hr.double _) (by nlinarith)
  obtain ⟨N, hN⟩ := hg
  refine ⟨R, r, hR, ⟨max N N', fun fuel hf => ?_⟩, ?_⟩
  · have e : sinh ρ fuel A () = .ok S () := hN fuel (le_trans (le_max_left _ _) hf)
    have e' : sqrt ρ fuel _ () = .ok R () := hN' fuel (le_trans (le_max_right _ _) hf)
    simp only [cosh, M.bind_apply, e]
    exact e'
  · have key := (Fp.sinh_cosh_close hx0 (abs_nonneg θ) h1 (by linarith)).2
    rw [Real.cosh_abs, Real.cosh_abs, ← hc] at key
    have rc := Fp.near_of_sq r2 (by linarith) (by norm_num; linarith : 3 * u ≤ 1 / 10 ^ 9) r3 X1 X2
    have h3 := abs_sub_le r c (Real.cosh x)
    have hcx := Real.cosh_pos x
    have hm : 0 ≤ |x| * Real.cosh x := by positivity
    have key2 := (abs_le.mp key).2
    have hxl : |x| * Real.cosh x ≤ 356 * Real.cosh x := mul_le_mul_of_nonneg_right hx hcx.le
    norm_num
    clear_value c s
    clear r3 X1 X2 e1 e1' e2 hch h1 ss
    linarith

end Cest.Ieee
