import Verif.CxFp.Pow

/-!
Property theorems for `cest::complex<double>` in binary64 arithmetic (C119, C120).

`ρ` is any rounding to a nearest binary64 number; `u = 2^-53` is the unit roundoff.  The absolute terms are what
gradual underflow can cost.
-/
namespace Cest.CxFp.Props
open Cest Cest.Complex Cest.Cmath Cest.Fp Cest.CxFp

attribute [local irreducible] η

variable {ρ : ℝ → ℝ} {st : CSt (Flt ρ)} {r x y z : Nat} {a b : Cx (Flt ρ)}

/-- C119: sums and differences have relative error at most `u` in the plane, and no underflow error; `op=` stores
what `op` returns, also when both operands are the same variable. -/
theorem C119_add_sub (hr : RoundsToNearest ρ) (hs : st.objs r = none) (hx : st.objs x = some a)
    (hy : st.objs y = some b) (ha : IsDbl a) (hb : IsDbl b) :
    (‖cval a + cval b‖ ≤ 2 ^ 1023 → ∃ p, add r x y st = .ok p st ∧ addAssign x y st = .ok () (set st x p) ∧
      IsDbl p ∧ ‖cval p - (cval a + cval b)‖ ≤ 1 / 2 ^ 53 * ‖cval a + cval b‖) ∧
    (‖cval a - cval b‖ ≤ 2 ^ 1023 → ∃ p, sub r x y st = .ok p st ∧ subAssign x y st = .ok () (set st x p) ∧
      IsDbl p ∧ ‖cval p - (cval a - cval b)‖ ≤ 1 / 2 ^ 53 * ‖cval a - cval b‖) := by
  have main : ∀ s t w : ℂ, |s.re - w.re| ≤ u * |w.re| → |s.im - w.im| ≤ u * |w.im| → ‖s - w‖ ≤ 1 / 2 ^ 53 * ‖w‖ := by
    intro s _ w h1 h2
    refine (norm_mk_mono h1 h2).trans (norm_mk_le (by positivity) ?_)
    have h3 : ‖w‖ ^ 2 = w.re ^ 2 + w.im ^ 2 := norm_mk_sq w.re w.im
    rw [mul_pow, mul_pow, mul_pow, sq_abs, sq_abs, h3]
    apply le_of_eq; unfold u; ring
  refine ⟨fun h => ⟨_, add_fp hs hx hy, addAssign_fp hx hy, ⟨hr.double _, hr.double _⟩, ?_⟩,
    fun h => ⟨_, sub_fp hs hx hy, subAssign_fp hx hy, ⟨hr.double _, hr.double _⟩, ?_⟩⟩
  · exact main _ 0 _ (sum_err hr ha.1 hb.1 ((Complex.abs_re_le_norm (cval a + cval b)).trans h))
      (sum_err hr ha.2 hb.2 ((Complex.abs_im_le_norm (cval a + cval b)).trans h))
  · exact main _ 0 _ (sub_err hr ha.1 hb.1 ((Complex.abs_re_le_norm (cval a - cval b)).trans h))
      (sub_err hr ha.2 hb.2 ((Complex.abs_im_le_norm (cval a - cval b)).trans h))

/-- C119: products, also of a variable with itself. -/
theorem C119_mul (hr : RoundsToNearest ρ) (hs : st.objs r = none) (hx : st.objs x = some a)
    (hy : st.objs y = some b) (h : ‖cval a‖ * ‖cval b‖ ≤ 2 ^ 1019) :
    ∃ p, mul r x y st = .ok p st ∧ mulAssign x y st = .ok () (set st x p) ∧ IsDbl p ∧
      ‖cval p - cval a * cval b‖ ≤ 5 / 2 * (1 / 2 ^ 53) * ‖cval a * cval b‖ + 1 / 2 ^ 1073 := by
  refine ⟨_, mul_fp hs hx hy, mulAssign_fp hx hy, isDbl_mulV hr _ _, ?_⟩
  rw [norm_mul]
  refine (mul_err hr h).trans (le_of_eq ?_)
  unfold u η
  rw [show (1075 : ℕ) = 1073 + 2 by norm_num, pow_add]
  congr 1
  field_simp
  norm_num

/-- C119: `norm`. -/
theorem C119_norm (hr : RoundsToNearest ρ) (hx : st.objs x = some a) (h : ‖cval a‖ ^ 2 ≤ 2 ^ 1019) :
    ∃ n, Complex.norm x st = .ok n st ∧ IsDouble n.val ∧
      |n.val - ‖cval a‖ ^ 2| ≤ 21 / 10 * (1 / 2 ^ 53) * ‖cval a‖ ^ 2 + 1 / 2 ^ 1073 := by
  refine ⟨_, norm_fp hx, hr.double _, ?_⟩
  refine (normV_err hr (by rwa [← pow_two])).trans ?_
  have h1 : (1 : ℝ) / 2 ^ 1073 = 4 * η := by
    unfold η
    rw [show (1075 : ℕ) = 1073 + 2 by norm_num, pow_add]
    field_simp
    norm_num
  have := η_pos
  rw [h1]
  unfold u
  linarith

/-- C119: quotients, when the norm of the divisor neither underflows nor overflows. -/
theorem C119_div_partial (hr : RoundsToNearest ρ) (hs : st.objs r = none) (hx : st.objs x = some a)
    (hy : st.objs y = some b) (h : ‖cval a‖ * ‖cval b‖ ≤ 2 ^ 1019) (h1 : 1 / 2 ^ 1012 ≤ ‖cval b‖ ^ 2)
    (h2 : ‖cval b‖ ^ 2 ≤ 2 ^ 1019) (hq : ‖cval a / cval b‖ ≤ 2 ^ 1019) :
    ∃ p, div r x y st = .ok p st ∧ divAssign x y st = .ok () (set st x p) ∧ IsDbl p ∧
      ‖cval p - cval a / cval b‖ ≤
        6 * (1 / 2 ^ 53) * ‖cval a / cval b‖ + 1 / 2 ^ 1072 * (1 + 1 / ‖cval b‖ ^ 2) := by
  rw [norm_div] at hq
  obtain ⟨hn, e⟩ := div_err hr h h1 h2 hq
  refine ⟨_, div_fp hs hx hy hn, divAssign_fp hx hy hn, isDbl_divV hr _ _, e.trans ?_⟩
  rw [norm_div]
  have h3 : (1 : ℝ) / 2 ^ 1072 = 8 * η := by
    unfold η
    rw [show (1075 : ℕ) = 1072 + 3 by norm_num, pow_add]
    field_simp
    norm_num
  have := η_pos
  have h4 : 0 < 1 / ‖cval b‖ ^ 2 := one_div_pos.mpr (lt_of_lt_of_le (by positivity) h1)
  have h5 : 6 * η / ‖cval b‖ ^ 2 = 6 * (η * (1 / ‖cval b‖ ^ 2)) := by ring
  have h6 : 0 < η * (1 / ‖cval b‖ ^ 2) := by positivity
  rw [h3, h5]
  unfold u
  nlinarith

/-- C119: a divisor both of whose parts are at most `2^-538` in magnitude is divided by as if it were zero, whatever
the dividend: its norm underflows. -/
theorem C119_div_underflow (hr : RoundsToNearest ρ) (hs : st.objs r = none) (hx : st.objs x = some a)
    (hy : st.objs y = some b) (h1 : |b.re.val| ≤ 1 / 2 ^ 538) (h2 : |b.im.val| ≤ 1 / 2 ^ 538) :
    div r x y st = .ub .precond ∧ divAssign x y st = .ub .precond := by
  have tiny : ∀ t : ℝ, |t| ≤ 1 / 2 ^ 538 → ρ (t * t) = 0 := by
    intro t ht
    apply round_tiny hr
    rw [abs_mul]
    refine lt_of_le_of_lt (mul_le_mul ht ht (abs_nonneg _) (by positivity)) ?_
    unfold η
    rw [div_mul_div_comm, ← pow_add, one_mul]
    exact one_div_lt_one_div_of_lt (by positivity) (pow_lt_pow_right₀ (by norm_num) (by norm_num))
  have hn : normV b = 0 := by
    apply Flt.ext
    simp only [normV, val_add, val_mul, tiny _ h1, tiny _ h2, add_zero, val_zero]
    exact hr.exact isDouble_zero
  exact ⟨div_fp_ub hs hx hy hn, divAssign_fp_ub hx hy hn⟩

/-- C119 does not hold for all divisors: there are binary64 numbers `a` and `b ≠ 0` whose quotient is 1, and the
program divides by zero. -/
theorem C119_div_refuted (hr : RoundsToNearest ρ) : ∃ a b : Cx (Flt ρ), IsDbl a ∧ IsDbl b ∧ cval b ≠ 0 ∧
    cval a / cval b = 1 ∧ ∀ (st : CSt (Flt ρ)) (r x y : Nat), st.objs r = none → st.objs x = some a →
      st.objs y = some b → div r x y st = .ub .precond ∧ divAssign x y st = .ub .precond := by
  have hd : IsDouble ((1 : ℝ) / 2 ^ 600) :=
    ⟨1, -600, by rw [zpow_neg]; norm_num, by norm_num, by norm_num, by norm_num⟩
  have hne : cval (⟨⟨1 / 2 ^ 600⟩, 0⟩ : Cx (Flt ρ)) ≠ 0 := by
    intro h
    have := congrArg Complex.re h
    have h' : (1 : ℝ) / 2 ^ 600 = 0 := this
    have : (0 : ℝ) < 1 / 2 ^ 600 := by positivity
    linarith
  refine ⟨⟨⟨1 / 2 ^ 600⟩, 0⟩, ⟨⟨1 / 2 ^ 600⟩, 0⟩, ⟨hd, isDouble_zero⟩, ⟨hd, isDouble_zero⟩, hne, div_self hne, ?_⟩
  intro st r x y hs hx hy
  refine C119_div_underflow hr hs hx hy ?_ ?_
  · rw [abs_of_pos (by positivity)]
    exact one_div_le_one_div_of_le (by positivity) (pow_le_pow_right₀ (by norm_num) (by norm_num))
  · simp

/-- C119: the algebraic laws that survive rounding: `+` and `*` are commutative, `x - x` is zero, one and zero are
neutral, and `x / x` is one whenever the computed norm is not zero. -/
theorem C119_laws (hr : RoundsToNearest ρ) (hs : st.objs r = none) (hx : st.objs x = some a)
    (hy : st.objs y = some b) (ha : IsDbl a) :
    add r x y st = add r y x st ∧ mul r x y st = mul r y x st ∧
    sub r x x st = .ok ⟨0, 0⟩ st ∧
    (b = ⟨0, 0⟩ → add r x y st = .ok a st) ∧ (b = ⟨1, 0⟩ → mul r x y st = .ok a st ∧ div r x y st = .ok a st) ∧
    (∀ n, Complex.norm x st = .ok n st → n ≠ 0 → div r x x st = .ok ⟨1, 0⟩ st) := by
  have h0 : ρ 0 = 0 := hr.exact isDouble_zero
  have h1 : ρ 1 = 1 := hr.exact (by simpa using isDouble_int (K := ℝ) (k := 1) (by norm_num))
  have ha1 := hr.exact ha.1
  have ha2 := hr.exact ha.2
  refine ⟨?_, ?_, ?_, ?_, ?_, ?_⟩
  · rw [add_fp hs hx hy, add_fp hs hy hx]
    congr 2 <;> ext <;> simp [add_comm]
  · rw [mul_fp hs hx hy, mul_fp hs hy hx]
    congr 1
    apply Cx.ext <;> ext <;> simp [mulV, mul_comm, add_comm]
  · rw [sub_fp hs hx hx]
    congr 2 <;> ext <;> simp [h0]
  · rintro rfl
    rw [add_fp hs hx hy]
    congr 1
    apply Cx.ext <;> ext <;> simp [ha1, ha2]
  · rintro rfl
    have hn : (normV (⟨1, 0⟩ : Cx (Flt ρ))) = 1 := by ext; simp [normV, h0, h1]
    constructor
    · rw [mul_fp hs hx hy]
      congr 1
      apply Cx.ext <;> ext <;> simp [mulV, ha1, ha2, h0]
    · rw [div_fp hs hx hy (by rw [hn]; intro h; have := congrArg Flt.val h; simp at this)]
      congr 1
      apply Cx.ext <;> ext <;> simp [divV, hn, ha1, ha2, h0]
  · intro n hn hne
    rw [norm_fp hx] at hn
    obtain rfl : normV a = n := by injection hn
    rw [div_fp hs hx hx hne]
    have hv : (normV a).val ≠ 0 := by
      intro h; exact hne (Flt.ext h)
    congr 1
    apply Cx.ext
    · ext
      have : (a.re * a.re + a.im * a.im) = normV a := rfl
      simp only [divV, this, val_div, div_self hv, h1, val_one]
    · ext
      simp [divV, mul_comm, h0]

/-! ### Powers -/

/-- C120: `__complex_pow_unsigned` for every 32-bit exponent for which the power neither underflows nor overflows:
the relative error is at most `4 n u`. -/
theorem C120_pow_unsigned (hr : RoundsToNearest ρ) (hf : Unused st [x, y]) (hz : st.objs z = some a) (n : UInt32)
    (h1 : 1 / 2 ^ 990 ≤ ‖cval a ^ n.toNat‖) (h2 : ‖cval a ^ n.toNat‖ ≤ 2 ^ 990) :
    ∃ v, powUnsigned x y z n st = .ok v st ∧
      ‖cval v - cval a ^ n.toNat‖ ≤ 4 * n.toNat * (1 / 2 ^ 53) * ‖cval a ^ n.toNat‖ := by
  obtain ⟨hd, hn⟩ := hf
  simp at hd hn
  rw [norm_pow] at h1 h2
  exact powUnsigned_fp hr hd hn.1 hn.2 hz n h1 h2

/-- C120: `pow(z, n)` for every `int n` for which the power stays clear of underflow and overflow: relative error at
most `4 n u` for `n ≥ 0` and `(5 |n| + 8) u` for `n < 0`. -/
theorem C120_pow (hr : RoundsToNearest ρ) {s t : Nat} (hf : Unused st [x, y, s, t]) (hz : st.objs z = some a)
    (n : Int32) :
    (0 ≤ n.toInt → 1 / 2 ^ 990 ≤ ‖cval a ^ n.toInt‖ → ‖cval a ^ n.toInt‖ ≤ 2 ^ 990 →
      ∃ v, pow x y s t z n st = .ok v st ∧
        ‖cval v - cval a ^ n.toInt‖ ≤ 4 * n.toInt.natAbs * (1 / 2 ^ 53) * ‖cval a ^ n.toInt‖) ∧
    (n.toInt < 0 → 1 / 2 ^ 490 ≤ ‖cval a ^ n.toInt‖ → ‖cval a ^ n.toInt‖ ≤ 2 ^ 490 →
      ∃ v, pow x y s t z n st = .ok v st ∧
        ‖cval v - cval a ^ n.toInt‖ ≤ (5 * n.toInt.natAbs + 8) * (1 / 2 ^ 53) * ‖cval a ^ n.toInt‖) := by
  obtain ⟨hd, hn0⟩ := hf
  simp at hd hn0
  obtain ⟨⟨hxy, hxs, hxt⟩, ⟨hys, hyt⟩, hst⟩ := hd
  obtain ⟨hx, hy, hs, ht⟩ := hn0
  have h0 : n < 0 ↔ n.toInt < 0 := by rw [Int32.lt_iff_toInt_lt]; rfl
  constructor
  · intro hn h1 h2
    have hn' : ¬ n < 0 := by rw [h0]; omega
    have e := nonneg_toNat hn'
    have e' : n.toInt.natAbs = n.toUInt32.toNat := by omega
    rw [← e, zpow_natCast] at h1 h2 ⊢
    obtain ⟨v, hv, he⟩ := powUnsigned_fp hr hxy hx hy hz n.toUInt32 (by rwa [← norm_pow]) (by rwa [← norm_pow])
    refine ⟨v, by simp only [Complex.pow, hn', if_false, hv], ?_⟩
    rw [Int.natAbs_natCast]
    exact he
  · intro hn h1 h2
    have hn' : n < 0 := h0.mpr hn
    have e := neg_toNat hn'
    set k := (-n.toUInt32).toNat with hk
    have e' : n.toInt.natAbs = k := by omega
    have e'' : n.toInt = -(k : ℤ) := by omega
    rw [e'', zpow_neg, zpow_natCast, norm_inv] at h1 h2
    rw [e', e'', zpow_neg, zpow_natCast, norm_inv]
    set p := cval a ^ k with hp
    have p0 : 0 < ‖p‖ := by
      rcases (norm_nonneg p).lt_or_eq with h | h
      · exact h
      · rw [← h, inv_zero] at h1
        exact absurd (lt_of_lt_of_le (by positivity) h1) (lt_irrefl (0 : ℝ))
    have p1 : 1 / 2 ^ 490 ≤ ‖p‖ := by
      rw [one_div]; exact inv_le_of_inv_le₀ p0 h2
    have p2 : ‖p‖ ≤ 2 ^ 490 := by
      rw [one_div] at h1; exact (inv_le_inv₀ (by positivity) p0).mp h1
    have hs1 : ∀ v, (set st s v).objs x = none := by intro v; rw [set_other hxs, hx]
    have hs2 : ∀ v, (set st s v).objs y = none := by intro v; rw [set_other hys, hy]
    have hs3 : ∀ v, (set st s v).objs t = none := by intro v; rw [set_other (Ne.symm hst), ht]
    have r1 : (1 : ℝ) / 2 ^ 990 ≤ 1 / 2 ^ 490 :=
      one_div_le_one_div_of_le (by positivity) (pow_le_pow_right₀ (by norm_num) (by norm_num))
    have r2 : (2 : ℝ) ^ 490 ≤ 2 ^ 990 := pow_le_pow_right₀ (by norm_num) (by norm_num)
    obtain ⟨w, hw, he⟩ := powUnsigned_fp (st := set st s ⟨1, 0⟩) (a := a) hr hxy (hs1 _) (hs2 _) (set_fresh hs hz)
      (-n.toUInt32) (by rw [← hk, ← norm_pow]; exact r1.trans p1) (by rw [← hk, ← norm_pow]; exact p2.trans r2)
    rw [← hk, ← hp] at he
    obtain ⟨hnw, hq⟩ := recip_near hr he (growth (e := k) (-n.toUInt32).toNat_lt).2.2 p1 p2
    have hc : ctor s (1 : Flt ρ) 0 st = .ok () (set st s ⟨1, 0⟩) := new_ok hs
    refine ⟨divV ⟨1, 0⟩ w, ?_, ?_⟩
    · simp only [Complex.pow, hn', if_true, M.bind_apply, hc, hw, new_ok (hs3 _)]
      rw [div_fp (a := ⟨1, 0⟩) (b := w) (by rw [set_other hxt, hs1]) (by rw [set_other hst, set_same]) (set_same _ _ _) hnw]
      simp only [del_ok (hs3 _), del_ok hs, M.pure_apply]
    · rw [one_div, one_div] at hq
      unfold u at hq
      exact hq

/-! ### The hypotheses are met -/

/-- Two variables: 0 holds `3 + 4i`, 1 holds `-2 + 5i`. -/
noncomputable def exSt (ρ : ℝ → ℝ) : CSt (Flt ρ) :=
  ⟨fun k => if k = 0 then some ⟨⟨3⟩, ⟨4⟩⟩ else if k = 1 then some ⟨⟨-2⟩, ⟨5⟩⟩ else none, fun _ => none, 0, none⟩

theorem ex_norm : ‖cval (⟨⟨3⟩, ⟨4⟩⟩ : Cx (Flt ρ))‖ = 5 := by
  have h := cval_sq (⟨⟨3⟩, ⟨4⟩⟩ : Cx (Flt ρ))
  have h0 := norm_nonneg (cval (⟨⟨3⟩, ⟨4⟩⟩ : Cx (Flt ρ)))
  norm_num at h
  nlinarith

example : IsDbl (⟨⟨3⟩, ⟨4⟩⟩ : Cx (Flt ρ)) ∧ IsDbl (⟨⟨-2⟩, ⟨5⟩⟩ : Cx (Flt ρ)) ∧ (exSt ρ).objs 0 = some ⟨⟨3⟩, ⟨4⟩⟩ ∧
    (exSt ρ).objs 1 = some ⟨⟨-2⟩, ⟨5⟩⟩ ∧ Unused (exSt ρ) [2, 3, 4, 5] := by
  have d : ∀ k : ℤ, |k| < 2 ^ 53 → IsDouble (k : ℝ) := fun k hk => isDouble_int hk
  refine ⟨⟨by simpa using d 3 (by norm_num), by simpa using d 4 (by norm_num)⟩,
    ⟨by simpa using d (-2) (by norm_num), by simpa using d 5 (by norm_num)⟩, rfl, rfl,
    by decide, by intro k hk; simp at hk; rcases hk with rfl | rfl | rfl | rfl <;> rfl⟩

/-- `(3 + 4i)^2` and `(3 + 4i)^-2` are within the ranges of C120. -/
example : 1 / 2 ^ 490 ≤ ‖cval (⟨⟨3⟩, ⟨4⟩⟩ : Cx (Flt ρ)) ^ (2 : ℤ)‖ ∧ ‖cval (⟨⟨3⟩, ⟨4⟩⟩ : Cx (Flt ρ)) ^ (2 : ℤ)‖ ≤ 2 ^ 490 ∧
    1 / 2 ^ 490 ≤ ‖cval (⟨⟨3⟩, ⟨4⟩⟩ : Cx (Flt ρ)) ^ (-2 : ℤ)‖ ∧ ‖cval (⟨⟨3⟩, ⟨4⟩⟩ : Cx (Flt ρ)) ^ (-2 : ℤ)‖ ≤ 2 ^ 490 := by
  have h6 : (32 : ℝ) ≤ 2 ^ 490 :=
    le_trans (by norm_num : (32 : ℝ) ≤ 2 ^ 5) (pow_le_pow_right₀ (by norm_num) (by norm_num))
  have h7 : (1 : ℝ) / 2 ^ 490 ≤ 1 / 32 := one_div_le_one_div_of_le (by norm_num) h6
  rw [norm_zpow, norm_zpow, ex_norm]
  have e1 : (5 : ℝ) ^ (2 : ℤ) = 25 := by norm_num
  have e2 : (5 : ℝ) ^ (-2 : ℤ) = 1 / 25 := by norm_num
  rw [e1, e2]
  generalize (2 : ℝ) ^ 490 = G at *
  refine ⟨by linarith, by linarith, by linarith, by linarith⟩

end Cest.CxFp.Props
