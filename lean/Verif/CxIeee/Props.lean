import Verif.CxIeee.Proofs

/-!
Property theorems for `cest::complex<double>` on all doubles (C155, C156).

C155 is about finite operands.  Products and quotients are accurate as long as nothing overflows or underflows on the
way, and the parts of a product are NaN exactly where stated.  Violated by division: `w / w` is NaN for all `w` with a
part from 2⁵¹² on, and for all `w` with both parts up to 2⁻⁵³⁸.

C156 is about infinities, NaN and zeros: a product with an infinity should be infinite, a quotient of a finite number and
an infinity zero and a nonzero number over zero infinite (C11, annex G).  All three are violated.
-/
namespace Cest.CxIeee.Props
open Cest Cest.Complex Cest.Ieee Cest.Ieee.D Cest.CxIeee
open Cest.Cmath (IsDouble RoundsToNearest)

attribute [local irreducible] CxFp.η

variable {ρ : ℝ → ℝ} {st : CSt (Dbl ρ)} {r x y : Nat} {a b : Cx (Dbl ρ)} {c e : ℂ}

/-- C155: products. -/
theorem C155_mul (hr : RoundsToNearest ρ) (hs : st.objs r = none) (hx : st.objs x = some a) (hy : st.objs y = some b)
    (ha : IsC a c) (hb : IsC b e) (h : ‖c‖ * ‖e‖ ≤ 2 ^ 1019) :
    ∃ p v, Complex.mul r x y st = .ok p st ∧ mulAssign x y st = .ok () (set st x p) ∧ IsC p v ∧
      ‖v - c * e‖ ≤ 5 / 2 * (1 / 2 ^ 53) * ‖c * e‖ + 1 / 2 ^ 1073 := by
  refine ⟨_, _, mul_run hs hx hy, mulAssign_run hx hy, mulV_is hr ha hb h, ?_⟩
  rw [norm_mul]
  refine (CxFp.mul_err hr (a := lower ρ c) (b := lower ρ e) h).trans (le_of_eq ?_)
  unfold Fp.u CxFp.η
  rw [show (1075 : ℕ) = 1073 + 2 by norm_num, pow_add, cval_lower, cval_lower]
  congr 1
  field_simp
  norm_num

/-- C155: for finite operands the parts of the product are NaN exactly when the two products in it overflow and cancel. -/
theorem C155_mul_nan (hs : st.objs r = none) (hx : st.objs x = some a) (hy : st.objs y = some b)
    (ha : IsC a c) (hb : IsC b e) :
    ∃ p, Complex.mul r x y st = .ok p st ∧
      (p.re.d = nan ↔ lim ≤ |c.re * e.re| ∧ lim ≤ |c.im * e.im| ∧ 0 < (c.re * e.re) * (c.im * e.im)) ∧
      (p.im.d = nan ↔ lim ≤ |c.re * e.im| ∧ lim ≤ |c.im * e.re| ∧ (c.re * e.im) * (c.im * e.re) < 0) :=
  ⟨_, mul_run hs hx hy, diff_nan ha.re hb.re ha.im hb.im, sum_nan ha.re hb.im ha.im hb.re⟩

/-- C155: quotients, when the norm of the divisor neither underflows nor overflows. -/
theorem C155_div_partial (hr : RoundsToNearest ρ) (hs : st.objs r = none) (hx : st.objs x = some a) (hy : st.objs y = some b)
    (ha : IsC a c) (hb : IsC b e) (h : ‖c‖ * ‖e‖ ≤ 2 ^ 1019) (h1 : 1 / 2 ^ 1012 ≤ ‖e‖ ^ 2) (h2 : ‖e‖ ^ 2 ≤ 2 ^ 1019)
    (hq : ‖c / e‖ ≤ 2 ^ 1019) :
    ∃ p v, CxIeee.div r x y st = .ok p st ∧ divAssign x y st = .ok () (set st x p) ∧ IsC p v ∧
      ‖v - c / e‖ ≤ 6 * (1 / 2 ^ 53) * ‖c / e‖ + 1 / 2 ^ 1072 * (1 + 1 / ‖e‖ ^ 2) := by
  rw [norm_div] at hq ⊢
  refine ⟨_, _, div_run hs hx hy, divAssign_run hx hy, divV_is hr ha hb h h1 h2 hq, ?_⟩
  obtain ⟨-, k⟩ := CxFp.div_err hr (a := lower ρ c) (b := lower ρ e) h h1 h2 hq
  rw [cval_lower, cval_lower] at k
  refine k.trans ?_
  have h3 : (1 : ℝ) / 2 ^ 1072 = 8 * CxFp.η := by
    unfold CxFp.η
    rw [show (1075 : ℕ) = 1072 + 3 by norm_num, pow_add]
    field_simp
    norm_num
  have h4 := CxFp.η_pos
  have h5 : 0 < ‖e‖ ^ 2 := lt_of_lt_of_le (by positivity) h1
  have h6 : 0 ≤ CxFp.η / ‖e‖ ^ 2 := by positivity
  rw [h3, show 8 * CxFp.η * (1 + 1 / ‖e‖ ^ 2) = 8 * CxFp.η + 8 * (CxFp.η / ‖e‖ ^ 2) by ring, mul_div_assoc 6 CxFp.η]
  unfold Fp.u
  linarith only [h4, h6]

/-- C155: a divisor with a part of absolute value 2⁵¹² or more.  Whatever the dividend, each part of the quotient is zero
or NaN; the real part of `w / w` is NaN. -/
theorem C155_div_overflow (hs : st.objs r = none) (hx : st.objs x = some a) (hy : st.objs y = some b)
    (hb : IsC b e) (h : 2 ^ 512 ≤ |e.re| ∨ 2 ^ 512 ≤ |e.im|) :
    (∃ p, CxIeee.div r x y st = .ok p st ∧ (p.re.d = nan ∨ Is p.re.d 0) ∧ (p.im.d = nan ∨ Is p.im.d 0)) ∧
    ∃ p, CxIeee.div r y y st = .ok p st ∧ p.re.d = nan :=
  ⟨⟨_, div_run hs hx hy, divV_over hb h⟩, _, div_run hs hy hy, divV_over_self hb h⟩

/-- C155: a divisor with both parts up to 2⁻⁵³⁸.  Whatever the dividend, each part of the quotient is infinite or NaN;
both parts of `w / w` are NaN. -/
theorem C155_div_underflow (hr : RoundsToNearest ρ) (hs : st.objs r = none) (hx : st.objs x = some a) (hy : st.objs y = some b)
    (hb : IsC b e) (h1 : |e.re| ≤ 1 / 2 ^ 538) (h2 : |e.im| ≤ 1 / 2 ^ 538) :
    (∃ p, CxIeee.div r x y st = .ok p st ∧ (p.re.d = nan ∨ ∃ s, p.re.d = inf s) ∧ (p.im.d = nan ∨ ∃ s, p.im.d = inf s)) ∧
    CxIeee.div r y y st = .ok bothNan st :=
  ⟨⟨_, div_run hs hx hy, divV_tiny hr hb h1 h2⟩, by rw [div_run hs hy hy, divV_tiny_self hr hb h1 h2]⟩

/-- C155 is false: `w / w` is not 1 for the binary64 number 2⁶⁰⁰. -/
theorem C155_div_refuted : ∃ b : Cx (Dbl ρ), IsC b (2 ^ 600 : ℝ) ∧ IsDouble (2 ^ 600 : ℝ) ∧
    ∀ (st : CSt (Dbl ρ)) (r y : Nat), st.objs r = none → st.objs y = some b →
      ∃ p, CxIeee.div r y y st = .ok p st ∧ p.re.d = nan := by
  have hb : IsC (⟨⟨fin (2 ^ 600)⟩, ⟨fin 0⟩⟩ : Cx (Dbl ρ)) (2 ^ 600 : ℝ) :=
    isC_mk (by rw [Complex.ofReal_re]; exact is_fin _) (by rw [Complex.ofReal_im]; exact is_fin _)
  refine ⟨_, hb, ⟨1, 600, by rw [Int.cast_one, one_mul]; exact (zpow_natCast 2 600).symm, by norm_num, by norm_num, by norm_num⟩, ?_⟩
  intro st r y hs hy
  refine (C155_div_overflow hs hy hy hb (Or.inl ?_)).2
  rw [Complex.ofReal_re, abs_of_pos (by positivity)]
  exact pow_le_pow_right₀ (by norm_num) (by norm_num)

/-- The square of `2⁶⁰⁰ + 2⁶⁰⁰ i` has real part NaN; exactly it is zero. -/
example (hs : st.objs r = none)
    (hx : st.objs x = some ⟨⟨fin (2 ^ 600)⟩, ⟨fin (2 ^ 600)⟩⟩) : ∃ p, Complex.mul r x x st = .ok p st ∧ p.re.d = nan := by
  have hc : IsC (⟨⟨fin (2 ^ 600)⟩, ⟨fin (2 ^ 600)⟩⟩ : Cx (Dbl ρ)) ⟨2 ^ 600, 2 ^ 600⟩ := isC_mk (is_fin _) (is_fin _)
  obtain ⟨p, h1, h2, -⟩ := C155_mul_nan hs hx hx hc hc
  have h3 : lim ≤ |(2 : ℝ) ^ 600 * 2 ^ 600| := by
    rw [← pow_add, abs_of_pos (by positivity)]
    refine le_trans (sub_le_self _ (by positivity)) (pow_le_pow_right₀ (by norm_num) (by norm_num) : (2 : ℝ) ^ 1024 ≤ _)
  exact ⟨p, h1, h2.mpr ⟨h3, h3, by positivity⟩⟩

/-- The bounds can be met: `(3 + 4i) / (1 + i)`. -/
example (hr : RoundsToNearest ρ) (hs : st.objs r = none) (hx : st.objs x = some ⟨⟨fin 3⟩, ⟨fin 4⟩⟩)
    (hy : st.objs y = some ⟨⟨fin 1⟩, ⟨fin 1⟩⟩) : ∃ p v, CxIeee.div r x y st = .ok p st ∧ IsC p v ∧
      ‖v - ⟨7 / 2, 1 / 2⟩‖ ≤ 6 * (1 / 2 ^ 53) * ‖(⟨7 / 2, 1 / 2⟩ : ℂ)‖ + 1 / 2 ^ 1072 * (1 + 1 / 2) := by
  have h1 : ‖(⟨1, 1⟩ : ℂ)‖ ^ 2 = 2 := by rw [← Complex.normSq_eq_norm_sq, Complex.normSq_mk]; norm_num
  have h3 : ‖(⟨3, 4⟩ : ℂ)‖ = 5 := by
    rw [Complex.norm_def, Complex.normSq_mk, show (3 * 3 + 4 * 4 : ℝ) = 5 ^ 2 by norm_num, Real.sqrt_sq (by norm_num)]
  have h4 : (⟨3, 4⟩ / ⟨1, 1⟩ : ℂ) = ⟨7 / 2, 1 / 2⟩ := by
    rw [div_eq_iff (by intro h; have := congrArg Complex.re h; norm_num at this)]
    apply Complex.ext <;> simp <;> norm_num
  have h5 : ‖(⟨1, 1⟩ : ℂ)‖ ≤ 2 := by nlinarith [norm_nonneg (⟨1, 1⟩ : ℂ)]
  have h6 : (1 : ℝ) ≤ ‖(⟨1, 1⟩ : ℂ)‖ := by nlinarith [norm_nonneg (⟨1, 1⟩ : ℂ)]
  have big : (2 : ℝ) ^ 10 ≤ 2 ^ 1019 := pow_le_pow_right₀ (by norm_num) (by norm_num)
  obtain ⟨p, v, k1, -, k2, k3⟩ := C155_div_partial hr hs hx hy (c := ⟨3, 4⟩) (e := ⟨1, 1⟩) (isC_mk (is_fin _) (is_fin _))
    (isC_mk (is_fin _) (is_fin _)) (le_trans (by rw [h3]; norm_num; linarith) big)
    (by rw [h1]; exact (div_le_one_of_le₀ (one_le_pow₀ (by norm_num)) (by positivity)).trans (by norm_num))
    (le_trans (by rw [h1]; norm_num) big)
    (le_trans (by rw [norm_div, h3]; exact (div_le_self (by norm_num) h6).trans (by norm_num)) big)
  rw [h1, h4] at k3
  exact ⟨p, v, k1, k2, k3⟩

/-- C156: sum and product are commutative on all values, and NaN in a part of an operand makes both parts of a product
or quotient NaN. -/
theorem C156_comm_nan (hs : st.objs r = none) (hx : st.objs x = some a) (hy : st.objs y = some b) :
    Complex.add r x y st = Complex.add r y x st ∧ Complex.mul r x y st = Complex.mul r y x st ∧
    (SomeNan a ∨ SomeNan b → Complex.mul r x y st = .ok bothNan st ∧ CxIeee.div r x y st = .ok bothNan st) := by
  refine ⟨?_, ?_, fun h => ⟨?_, ?_⟩⟩
  · rw [add_run hs hx hy, add_run hs hy hx]
    have : (⟨a.re + b.re, a.im + b.im⟩ : Cx (Dbl ρ)) = ⟨b.re + a.re, b.im + a.im⟩ := cx_eq (add_comm' _ _) (add_comm' _ _)
    rw [this]
  · rw [mul_run hs hx hy, mul_run hs hy hx, mulV_comm]
  · rw [mul_run hs hx hy, mulV_nan h]
  · rw [div_run hs hx hy, divV_nan h]

/-- C156: the product of an infinity with one infinite part and a finite nonzero number is infinite if the finite part does
not make anything overflow. -/
theorem C156_mul_inf_partial (hs : st.objs r = none) (hx : st.objs x = some a) (hy : st.objs y = some b) (hb : IsC b e)
    (he : e ≠ 0) {s : Bool} {t : ℝ} (h : (a.re.d = inf s ∧ Is a.im.d t) ∨ (Is a.re.d t ∧ a.im.d = inf s))
    (h1 : |t * e.re| < lim) (h2 : |t * e.im| < lim) : ∃ p, Complex.mul r x y st = .ok p st ∧ Infinite p := by
  refine ⟨_, mul_run hs hx hy, ?_⟩
  rcases h with ⟨h3, h4⟩ | ⟨h3, h4⟩
  · exact mulV_infinite h3 h4 hb he h1 h2
  · exact mulV_infinite' h3 h4 hb he h1 h2

/-- C156 is false for products: an infinity with two infinite parts times any real number is NaN in both parts. -/
theorem C156_mul_inf_refuted (hs : st.objs r = none) {s t : Bool} (hx : st.objs x = some ⟨⟨inf s⟩, ⟨inf t⟩⟩)
    (hy : st.objs y = some b) (hb : Is b.im.d 0) : Complex.mul r x y st = .ok bothNan st := by
  rw [mul_run hs hx hy, mulV_inf_real rfl hb]

/-- C156 is false for quotients: anything divided by an infinity is NaN in both parts. -/
theorem C156_div_inf_refuted (hs : st.objs r = none) (hx : st.objs x = some a) (hy : st.objs y = some b)
    (hb : Infinite b) : CxIeee.div r x y st = .ok bothNan st := by
  rw [div_run hs hx hy, divV_inf hb]

/-- C156 is false for division by zero: anything divided by zero, with any signs of its parts, is NaN in both parts. -/
theorem C156_div_zero_refuted (hr : RoundsToNearest ρ) (hs : st.objs r = none) (hx : st.objs x = some a)
    (hy : st.objs y = some b) (hb : IsC b 0) : CxIeee.div r x y st = .ok bothNan st := by
  rw [div_run hs hx hy, divV_zero hr hb]

/-- C156: dividing by a real number instead does what annex G asks: a finite number over an infinity is zero, and a nonzero
finite number over zero is infinite. -/
theorem C156_div_real (hs : st.objs r = none) (hx : st.objs x = some a) (ha : IsC a c) :
    (∀ s, ∃ p, CxIeee.divCS r x ⟨inf s⟩ st = .ok p st ∧ IsC p 0) ∧
    (c ≠ 0 → ∀ t : Dbl ρ, Is t.d 0 → ∃ p, CxIeee.divCS r x t st = .ok p st ∧ Infinite p) := by
  have hz : ∀ {A : D} {v : ℝ} (s : Bool), Is A v → Is (D.div ρ A (inf s)) 0 := by
    intro A v s hA
    rcases hA.cases with ⟨rfl, -⟩ | rfl <;> exact is_zero _
  have hi : ∀ {A B : D} {v : ℝ}, Is A v → v ≠ 0 → Is B 0 → ∃ s, D.div ρ A B = inf s := by
    intro A B v hA hv hB
    exact ⟨_, by rw [div_fin hA.1 hB.1, if_pos hB.2, if_neg (by rw [hA.2]; exact hv)]⟩
  refine ⟨fun s => ⟨_, divCS_run hs hx _, isC_mk (hz s ha.re) (hz s ha.im)⟩, fun hc t ht => ⟨_, divCS_run hs hx t, ?_⟩⟩
  by_cases h : c.re = 0
  · exact Or.inr (hi ha.im (fun h' => hc (Complex.ext h h')) ht)
  · exact Or.inl (hi ha.re h ht)

/-- `1 / (∞ + 2i)`, `1 / 0` and `(∞ + 5i) (2 + 0i)`. -/
example (hs : st.objs r = none) (hx : st.objs x = some ⟨⟨fin 1⟩, ⟨fin 0⟩⟩) (hy : st.objs y = some ⟨⟨inf false⟩, ⟨fin 2⟩⟩) :
    CxIeee.div r x y st = .ok bothNan st := C156_div_inf_refuted hs hx hy (Or.inl ⟨false, rfl⟩)

example (hr : RoundsToNearest ρ) (hs : st.objs r = none) (hx : st.objs x = some ⟨⟨fin 1⟩, ⟨fin 0⟩⟩)
    (hy : st.objs y = some ⟨⟨fin 0⟩, ⟨nzero⟩⟩) : CxIeee.div r x y st = .ok bothNan st :=
  C156_div_zero_refuted hr hs hx hy (isC_mk (is_fin 0) is_nzero)

example (hs : st.objs r = none) (hx : st.objs x = some ⟨⟨inf false⟩, ⟨fin 5⟩⟩) (hy : st.objs y = some ⟨⟨fin 2⟩, ⟨fin 0⟩⟩) :
    ∃ p, Complex.mul r x y st = .ok p st ∧ Infinite p :=
  C156_mul_inf_partial hs hx hy (e := ⟨2, 0⟩) (isC_mk (is_fin 2) (is_fin 0))
    (by intro h; have := congrArg Complex.re h; norm_num at this) (t := 5) (Or.inl ⟨rfl, is_fin 5⟩)
    (lt_trans (by norm_num) lim_big) (by simpa using lim_pos)

end Cest.CxIeee.Props
