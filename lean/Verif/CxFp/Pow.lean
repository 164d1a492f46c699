import Verif.CxFp.Proofs

/-! Error analysis of the integer powers in binary64. -/
namespace Cest.CxFp
open Cest Cest.Complex Cest.Cmath Cest.Fp

variable {ρ : ℝ → ℝ}

attribute [local irreducible] η

/-- `a` approximates `c` with relative error `A`. -/
def Near (a : Cx (Flt ρ)) (c : ℂ) (A : ℝ) : Prop := ‖cval a - c‖ ≤ A * ‖c‖

variable {a b : Cx (Flt ρ)} {c d : ℂ} {A B : ℝ}

theorem mul_rel (hr : RoundsToNearest ρ) (h1 : 1 / 2 ^ 1000 ≤ ‖cval a‖ * ‖cval b‖)
    (h2 : ‖cval a‖ * ‖cval b‖ ≤ 2 ^ 1000) :
    ‖cval (mulV a b) - cval a * cval b‖ ≤ 3 * u * (‖cval a‖ * ‖cval b‖) := by
  have e := mul_err hr (h2.trans up_1000)
  have := η_small (down_1000.trans h1)
  have := η_pos
  linarith

theorem Near.upper (h : Near a c A) : ‖cval a‖ ≤ (1 + A) * ‖c‖ := by
  have h3 := norm_add_le c (cval a - c)
  rw [add_sub_cancel] at h3
  have : ‖cval a - c‖ ≤ A * ‖c‖ := h
  linarith

theorem Near.lower (h : Near a c A) : (1 - A) * ‖c‖ ≤ ‖cval a‖ := by
  have h3 := norm_sub_norm_le c (cval a)
  rw [norm_sub_rev] at h3
  have : ‖cval a - c‖ ≤ A * ‖c‖ := h
  linarith

/-- The product of two approximations. -/
theorem mul_near (hr : RoundsToNearest ρ) (ha : Near a c A) (hb : Near b d B) (a0 : 0 ≤ A) (b0 : 0 ≤ B)
    (a1 : A ≤ 1 / 4) (b1 : B ≤ 1 / 4) (h1 : 1 / 2 ^ 990 ≤ ‖c * d‖) (h2 : ‖c * d‖ ≤ 2 ^ 990) :
    Near (mulV a b) (c * d) ((1 + A) * (1 + B) * (1 + 3 * u) - 1) := by
  have hu := u_pos
  have ua := ha.upper
  have ub := hb.upper
  have la := ha.lower
  have lb := hb.lower
  rw [norm_mul] at h1 h2
  have c0 := norm_nonneg c
  have d0 := norm_nonneg d
  have cd0 : 0 ≤ ‖c‖ * ‖d‖ := by positivity
  have up : ‖cval a‖ * ‖cval b‖ ≤ (1 + A) * (1 + B) * (‖c‖ * ‖d‖) := by
    have := mul_le_mul ua ub (norm_nonneg _) (by positivity)
    linarith
  have lo : (1 - A) * (1 - B) * (‖c‖ * ‖d‖) ≤ ‖cval a‖ * ‖cval b‖ := by
    have := mul_le_mul la lb (mul_nonneg (by linarith) d0) (norm_nonneg _)
    linarith
  have up2 : ‖cval a‖ * ‖cval b‖ ≤ 2 * (‖c‖ * ‖d‖) := by
    refine up.trans (mul_le_mul_of_nonneg_right ?_ cd0)
    nlinarith
  have lo2 : 1 / 2 * (‖c‖ * ‖d‖) ≤ ‖cval a‖ * ‖cval b‖ := by
    refine le_trans (mul_le_mul_of_nonneg_right ?_ cd0) lo
    nlinarith
  have key := mul_rel hr (a := a) (b := b)
    (by
      refine le_trans ?_ lo2
      have h3 : (1 : ℝ) / 2 ^ 1000 ≤ 1 / 2 * (1 / 2 ^ 990) := by
        rw [div_mul_div_comm, one_mul, ← pow_succ']
        exact one_div_le_one_div_of_le (by positivity) (pow_le_pow_right₀ (by norm_num) (by norm_num))
      exact h3.trans (mul_le_mul_of_nonneg_left h1 (by norm_num)))
    (by
      refine up2.trans ?_
      have h3 : (2 : ℝ) * 2 ^ 990 ≤ 2 ^ 1000 := by
        rw [← pow_succ']; exact pow_le_pow_right₀ (by norm_num) (by norm_num)
      exact (mul_le_mul_of_nonneg_left h2 (by norm_num)).trans h3)
  clear h1 h2
  have e1 : ‖cval a * cval b - c * d‖ ≤ ((1 + A) * (1 + B) - 1) * (‖c‖ * ‖d‖) := by
    have e : cval a * cval b - c * d = (cval a - c) * cval b + c * (cval b - d) := by ring
    rw [e]
    refine (norm_add_le _ _).trans ?_
    rw [norm_mul, norm_mul]
    have h3 := mul_le_mul ha ub (norm_nonneg _) (by positivity)
    have h4 := mul_le_mul_of_nonneg_left hb c0
    linarith
  unfold Near
  rw [norm_mul]
  have h5 := norm_add_le (cval (mulV a b) - cval a * cval b) (cval a * cval b - c * d)
  rw [sub_add_sub_cancel] at h5
  have h6 := mul_le_mul_of_nonneg_left up (by positivity : 0 ≤ 3 * u)
  linarith

/-- Growth of the error over at most `2^32` multiplications. -/
theorem growth {e : ℕ} (he : e < 2 ^ 32) : 1 ≤ (1 + 3 * u) ^ e ∧ (1 + 3 * u) ^ e - 1 ≤ 4 * e * u ∧ 4 * e * u ≤ 1 / 8 := by
  have hu := u_pos
  have h1 : (1 : ℝ) ≤ (1 + 3 * u) ^ e := one_le_pow₀ (by linarith)
  have e0 : (0 : ℝ) ≤ e := by positivity
  have es : (e : ℝ) * u ≤ 1 / 2 ^ 21 := by
    have h : (e : ℝ) ≤ 2 ^ 32 := by exact_mod_cast he.le
    have := mul_le_mul_of_nonneg_right h hu.le
    refine this.trans ?_
    unfold u; norm_num
  have b := one_add_mul_le_pow (a := -(3 * u)) (by unfold u; norm_num) e
  have p : (1 + 3 * u) ^ e * (1 + -(3 * u)) ^ e ≤ 1 := by
    rw [← mul_pow]
    refine pow_le_one₀ ?_ ?_
    · unfold u; norm_num
    · nlinarith
  have q : (1 + 3 * u) ^ e * (1 + e * -(3 * u)) ≤ 1 :=
    (mul_le_mul_of_nonneg_left b (by linarith)).trans p
  refine ⟨h1, ?_, by linarith⟩
  have s0 : 0 ≤ (e : ℝ) * u := by positivity
  rw [show 1 + (e : ℝ) * -(3 * u) = 1 - 3 * (e * u) by ring] at q
  rw [show 4 * (e : ℝ) * u = 4 * (e * u) by ring]
  clear p b
  generalize (e : ℝ) * u = s at *
  generalize (1 + 3 * u) ^ e = P at *
  by_contra hc
  have hc' : 1 + 4 * s < P := by linarith
  have : (1 + 4 * s) * (1 - 3 * s) < 1 := lt_of_lt_of_le (mul_lt_mul_of_pos_right hc' (by linarith)) q
  nlinarith

variable {st : CSt (Flt ρ)} {x y z : Nat}

theorem powLoop_fp (hr : RoundsToNearest ρ) (hne : x ≠ y) {T : ℕ} (hT : T < 2 ^ 32)
    (h1 : ∀ k ≤ T, 1 / 2 ^ 990 ≤ ‖c ^ k‖) (h2 : ∀ k ≤ T, ‖c ^ k‖ ≤ 2 ^ 990) (fuel : ℕ) :
    ∀ (n : UInt32) (p q : Cx (Flt ρ)) (m j : ℕ), n.toNat < 2 ^ fuel → fuel ≠ 0 →
      Near p (c ^ (m + 1)) ((1 + 3 * u) ^ m - 1) → Near q (c ^ j) ((1 + 3 * u) ^ j - 1) →
      j + (m + 1) * (2 * (n.toNat / 2)) = T →
      ∃ p' q', powLoop x y fuel n (set (set st x p) y q) = .ok () (set (set st x p') y q') ∧
        Near q' (c ^ T) ((1 + 3 * u) ^ T - 1) := by
  induction fuel with
  | zero => intro _ _ _ _ _ _ h; exact absurd rfl h
  | succ fuel ih =>
    intro n p q m j hn _ hp hq hj
    unfold powLoop
    by_cases h0 : n >>> 1 = 0
    · have : n.toNat / 2 = 0 := by rw [← half_toNat, h0]; rfl
      rw [this] at hj
      simp at hj
      subst hj
      exact ⟨p, q, by simp [h0], hq⟩
    · have hpos : n.toNat / 2 ≠ 0 := by
        rw [← half_toNat]
        intro h
        exact h0 (UInt32.toNat_inj.mp h)
      simp only [h0, if_false, M.bind_apply]
      have hx : (set (set st x p) y q).objs x = some p := by rw [set_other hne, set_same]
      rw [mulAssign_fp hx hx]
      simp only []
      have e1 : set (set (set st x p) y q) x (mulV p p) = set (set st x (mulV p p)) y q := by
        rw [set_comm st hne p q, set_set, ← set_comm st hne]
      rw [e1]
      have hlt : (n >>> 1).toNat < 2 ^ fuel := by
        rw [half_toNat]; rw [pow_succ] at hn; omega
      have hf' : fuel ≠ 0 := by
        rintro rfl
        rw [half_toNat] at hlt
        simp at hlt; omega
      have hm2 : 2 * (m + 1) ≤ T := by
        have : (m + 1) * 2 ≤ (m + 1) * (2 * (n.toNat / 2)) := Nat.mul_le_mul_left _ (by omega)
        omega
      obtain ⟨g1, g2, g3⟩ := growth (e := m) (by omega)
      obtain ⟨k1, k2, k3⟩ := growth (e := j) (by omega)
      have hpp : Near (mulV p p) (c ^ (2 * m + 1 + 1)) ((1 + 3 * u) ^ (2 * m + 1) - 1) := by
        have e : c ^ (2 * m + 1 + 1) = c ^ (m + 1) * c ^ (m + 1) := by rw [← pow_add]; congr 1; ring
        have := mul_near hr hp hp (by linarith) (by linarith) (by linarith) (by linarith)
          (by rw [← e]; exact h1 _ (by omega)) (by rw [← e]; exact h2 _ (by omega))
        rw [e]
        convert this using 2
        ring
      by_cases ho : (n >>> 1) % 2 ≠ 0
      · have ho' := (odd_toNat _).mp ho
        rw [half_toNat] at ho'
        simp only [ho, ne_eq, not_false_eq_true, if_true, M.bind_apply]
        have hx' : (set (set st x (mulV p p)) y q).objs x = some (mulV p p) := by rw [set_other hne, set_same]
        rw [mulAssign_fp (set_same _ _ _) hx']
        simp only [set_set]
        have ej : j + 2 * (m + 1) + (2 * m + 1 + 1) * (2 * (n.toNat / 2 / 2)) = T := by
          have : 2 * (n.toNat / 2) = 2 * (2 * (n.toNat / 2 / 2)) + 2 := by omega
          rw [this] at hj
          rw [← hj]; ring
        obtain ⟨l1, l2, l3⟩ := growth (e := 2 * m + 1) (by omega)
        have hqp : Near (mulV q (mulV p p)) (c ^ (j + 2 * (m + 1))) ((1 + 3 * u) ^ (j + 2 * (m + 1)) - 1) := by
          have e : c ^ (j + 2 * (m + 1)) = c ^ j * c ^ (2 * m + 1 + 1) := by rw [← pow_add]; congr 1
          have := mul_near hr hq hpp (by linarith) (by linarith) (by linarith) (by linarith)
            (by rw [← e]; exact h1 _ (by omega)) (by rw [← e]; exact h2 _ (by omega))
          rw [e]
          convert this using 2
          ring
        exact ih (n >>> 1) (mulV p p) (mulV q (mulV p p)) (2 * m + 1) (j + 2 * (m + 1)) hlt hf' hpp hqp
          (by rw [half_toNat]; exact ej)
      · have ho' : (n >>> 1).toNat % 2 = 0 := by
          have := mt (odd_toNat (n >>> 1)).mpr ho
          omega
        rw [half_toNat] at ho'
        simp only [ho, if_false]
        refine ih (n >>> 1) (mulV p p) q (2 * m + 1) j hlt hf' hpp hq ?_
        rw [half_toNat, ← hj]
        have : 2 * (n.toNat / 2) = 2 * (2 * (n.toNat / 2 / 2)) := by omega
        rw [this]; ring

theorem near_self (a : Cx (Flt ρ)) : Near a (cval a) 0 := by simp [Near]

/-- Powers between the extremes stay between the extremes. -/
theorem pow_range {T : ℕ} (h1 : 1 / 2 ^ 990 ≤ ‖c‖ ^ T) (h2 : ‖c‖ ^ T ≤ 2 ^ 990) :
    (∀ k ≤ T, 1 / 2 ^ 990 ≤ ‖c ^ k‖) ∧ (∀ k ≤ T, ‖c ^ k‖ ≤ 2 ^ 990) := by
  have c0 := norm_nonneg c
  have l1 : (1 : ℝ) / 2 ^ 990 ≤ 1 := div_le_one_of_le₀ (one_le_pow₀ (by norm_num)) (by positivity)
  have l2 : (1 : ℝ) ≤ 2 ^ 990 := one_le_pow₀ (by norm_num)
  constructor
  · intro k hk
    rw [norm_pow]
    rcases le_total ‖c‖ 1 with h | h
    · exact h1.trans (pow_le_pow_of_le_one c0 h hk)
    · exact l1.trans (one_le_pow₀ h)
  · intro k hk
    rw [norm_pow]
    rcases le_total ‖c‖ 1 with h | h
    · exact (pow_le_one₀ c0 h).trans l2
    · exact (pow_le_pow_right₀ h hk).trans h2

theorem powUnsigned_fp (hr : RoundsToNearest ρ) (hne : x ≠ y) (hx : st.objs x = none) (hy : st.objs y = none)
    (hz : st.objs z = some a) (n : UInt32) (h1 : 1 / 2 ^ 990 ≤ ‖cval a‖ ^ n.toNat)
    (h2 : ‖cval a‖ ^ n.toNat ≤ 2 ^ 990) :
    ∃ v, powUnsigned x y z n st = .ok v st ∧ Near v (cval a ^ n.toNat) (4 * n.toNat * u) := by
  have hu := u_pos
  have hT : n.toNat < 2 ^ 32 := n.toNat_lt
  have hn : n.toNat < 2 ^ 33 := by omega
  obtain ⟨r1, r2⟩ := pow_range h1 h2
  have hy' : ∀ v, (set st x v).objs y = none := by intro v; rw [set_other (Ne.symm hne), hy]
  have fin : ∀ v : Cx (Flt ρ), Near v (cval a ^ n.toNat) ((1 + 3 * u) ^ n.toNat - 1) →
      Near v (cval a ^ n.toNat) (4 * n.toNat * u) := fun v hv =>
    le_trans hv (mul_le_mul_of_nonneg_right (growth hT).2.1 (norm_nonneg _))
  unfold powUnsigned
  simp only [M.bind_apply, copy_ok hx hz]
  by_cases ho : n % 2 ≠ 0
  · have ho' := (odd_toNat n).mp ho
    simp only [ho, ne_eq, not_false_eq_true, if_true, M.bind_apply, copy_ok (hy' _) (set_same _ _ _)]
    obtain ⟨p', q', e, hq⟩ := powLoop_fp (st := st) (c := cval a) hr hne hT r1 r2 33 n a a 0 1 hn (by omega)
      (by simpa using near_self a)
      (by
        have := near_self a
        simp only [Near, pow_one] at *
        refine this.trans (mul_le_mul_of_nonneg_right ?_ (norm_nonneg _))
        linarith) (by omega)
    rw [e]
    simp only [ret_ok (hy' _), del_ok hx, M.pure_apply]
    exact ⟨q', rfl, fin _ hq⟩
  · have ho' : n.toNat % 2 = 0 := by
      have := mt (odd_toNat n).mpr ho
      omega
    have hc : ctor y (1 : Flt ρ) 0 (set st x a) = .ok () (set (set st x a) y ⟨1, 0⟩) := new_ok (hy' _)
    simp only [ho, if_false, M.bind_apply, hc]
    obtain ⟨p', q', e, hq⟩ := powLoop_fp (st := st) (c := cval a) hr hne hT r1 r2 33 n a ⟨1, 0⟩ 0 0 hn (by omega)
      (by simpa using near_self a)
      (by
        have : cval (⟨1, 0⟩ : Cx (Flt ρ)) = 1 := by apply Complex.ext <;> simp [cval]
        simp [Near, this]) (by omega)
    rw [e]
    simp only [ret_ok (hy' _), del_ok hx, M.pure_apply]
    exact ⟨q', rfl, fin _ hq⟩

/-- The reciprocal of an approximation. -/
theorem recip_near (hr : RoundsToNearest ρ) {w : Cx (Flt ρ)} {p : ℂ} {k : ℕ} (hw : Near w p (4 * k * u))
    (hk : 4 * (k : ℝ) * u ≤ 1 / 8) (h1 : 1 / 2 ^ 490 ≤ ‖p‖) (h2 : ‖p‖ ≤ 2 ^ 490) :
    normV w ≠ 0 ∧ ‖cval (divV ⟨1, 0⟩ w) - 1 / p‖ ≤ (5 * k + 8) * u * (1 / ‖p‖) := by
  have hu := u_pos
  have up := hw.upper
  have lo := hw.lower
  have p0 : 0 < ‖p‖ := lt_of_lt_of_le (by positivity) h1
  have k0 : (0 : ℝ) ≤ k := by positivity
  have A0 : 0 ≤ 4 * (k : ℝ) * u := by positivity
  have lo2 : 7 / 8 * ‖p‖ ≤ ‖cval w‖ := by nlinarith
  have up2 : ‖cval w‖ ≤ 2 * ‖p‖ := by nlinarith
  have w0 : 0 < ‖cval w‖ := by linarith
  have one : cval (⟨1, 0⟩ : Cx (Flt ρ)) = 1 := by apply Complex.ext <;> simp [cval]
  have wl : 1 / 2 ^ 491 ≤ ‖cval w‖ := by
    have h3 : (1 : ℝ) / 2 ^ 491 = 1 / 2 * (1 / 2 ^ 490) := by rw [div_mul_div_comm, one_mul, ← pow_succ']
    rw [h3]; linarith
  have wu : ‖cval w‖ ≤ 2 ^ 491 := by
    have h3 : (2 : ℝ) ^ 491 = 2 * 2 ^ 490 := by rw [← pow_succ']
    rw [h3]; linarith
  have one_le : (1 : ℝ) ≤ 2 ^ 1000 := one_le_pow₀ (by norm_num)
  have wu' : ‖cval w‖ ≤ 2 ^ 1000 := wu.trans (pow_le_pow_right₀ (by norm_num) (by norm_num))
  have wl' : 1 / 2 ^ 1000 ≤ ‖cval w‖ :=
    le_trans (one_div_le_one_div_of_le (by positivity) (pow_le_pow_right₀ (by norm_num) (by norm_num))) wl
  have iw : 1 / ‖cval w‖ ≤ 2 ^ 1000 := by
    rw [div_le_iff₀ w0]
    have := mul_le_mul_of_nonneg_left wl' (by positivity : (0 : ℝ) ≤ 2 ^ 1000)
    rwa [mul_one_div_cancel (by positivity)] at this
  have iw' : 1 / 2 ^ 1000 ≤ 1 / ‖cval w‖ := one_div_le_one_div_of_le w0 wu'
  obtain ⟨hn, e⟩ := div_err hr (a := ⟨1, 0⟩) (b := w) (by rw [one, norm_one, one_mul]; exact wu'.trans up_1000)
    (by
      refine le_trans ?_ (pow_le_pow_left₀ (by positivity) wl 2)
      rw [div_pow, one_pow, ← pow_mul]
      exact one_div_le_one_div_of_le (by positivity) (pow_le_pow_right₀ (by norm_num) (by norm_num)))
    (by
      refine (pow_le_pow_left₀ (norm_nonneg _) wu 2).trans ?_
      rw [← pow_mul]
      exact pow_le_pow_right₀ (by norm_num) (by norm_num))
    (by rw [one, norm_one]; exact iw.trans up_1000)
  refine ⟨hn, ?_⟩
  rw [one, norm_one] at e
  have t1 := η_small (down_1000.trans wl')
  have t2 := η_small (down_1000.trans iw')
  have hη := η_pos
  have t3 : 6 * η / ‖cval w‖ ^ 2 ≤ 1 / 2 * u * (1 / ‖cval w‖) := by
    rw [div_le_iff₀ (by positivity), pow_two]
    have : 1 / 2 * u * (1 / ‖cval w‖) * (‖cval w‖ * ‖cval w‖) = 1 / 2 * (u * ‖cval w‖) := by field_simp
    rw [this]; linarith
  have e1 : ‖cval (divV ⟨1, 0⟩ w) - 1 / cval w‖ ≤ 7 * u * (1 / ‖cval w‖) := by
    clear h1 h2 wl wu wu' wl' iw iw'
    linarith
  have e2 : ‖1 / cval w - 1 / p‖ ≤ 4 * k * u * (1 / ‖cval w‖) := by
    have hp : p ≠ 0 := norm_pos_iff.mp p0
    have hw0 : cval w ≠ 0 := norm_pos_iff.mp w0
    have e3 : 1 / cval w - 1 / p = -(cval w - p) / (p * cval w) := by field_simp; ring
    rw [e3, norm_div, norm_neg, norm_mul, div_le_iff₀ (by positivity)]
    have : 4 * (k : ℝ) * u * (1 / ‖cval w‖) * (‖p‖ * ‖cval w‖) = 4 * k * u * ‖p‖ := by field_simp
    rw [this]; exact hw
  have e4 := norm_add_le (cval (divV ⟨1, 0⟩ w) - 1 / cval w) (1 / cval w - 1 / p)
  rw [sub_add_sub_cancel] at e4
  have e5 : 1 / ‖cval w‖ ≤ 8 / 7 * (1 / ‖p‖) := by
    rw [div_le_iff₀ w0]
    have : 8 / 7 * (1 / ‖p‖) * (7 / 8 * ‖p‖) = 1 := by field_simp
    have h3 := mul_le_mul_of_nonneg_left lo2 (by positivity : 0 ≤ 8 / 7 * (1 / ‖p‖))
    linarith
  have e6 := mul_le_mul_of_nonneg_left e5 (by positivity : 0 ≤ 7 * u + 4 * k * u)
  have i0 : 0 < 1 / ‖p‖ := by positivity
  clear h1 h2 wl wu wu' wl' iw iw'
  generalize 1 / ‖p‖ = P at *
  have e7 : (7 * u + 4 * k * u) * (8 / 7 * P) ≤ (5 * k + 8) * u * P := by
    have : 0 ≤ u * P := by positivity
    nlinarith [mul_nonneg k0 this]
  linarith

end Cest.CxFp
