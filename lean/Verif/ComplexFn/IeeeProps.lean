import Verif.ComplexFn.IeeeProofs

/-! The complex transcendental functions over all values of type `double` (C157): for which arguments they return.
`ρ` is any rounding to a nearest double, ties either way. -/
namespace Cest.ComplexFn.Ieee.Props
open Cest Cest.Ieee Cest.Ieee.D Cest.ComplexFn.Ieee
open Cest.Cmath (FM Gives IsDouble RoundsToNearest RoundsTiesEven)
open Classical

variable {ρ : ℝ → ℝ}

/-! ### C157: which arguments the complex functions return for

Full statement: each function returns a value for every argument.  It is false for all of them (`C157_refuted`); the
theorems say where it holds.  `C157_sqrt_partial` leaves a gap: numbers whose absolute value is between
0.999·2^1022 and 1.01·2^1022, or whose real part is below that though their absolute value is not. -/

theorem C157_arg (hr : RoundsToNearest ρ) {X Y : D} :
    (Returns (fun fuel => complexArg ρ fuel X Y) ↔ ¬ ((lt (fin 0) X ∧ Y = nan) ∨ ((∃ s, X = inf s) ∧ ∃ s, Y = inf s))) ∧
    (Never (fun fuel => complexArg ρ fuel X Y) ↔ ((lt (fin 0) X ∧ Y = nan) ∨ ((∃ s, X = inf s) ∧ ∃ s, Y = inf s))) := by
  have := Cest.Ieee.Props.C135_atan2 hr (Y := Y) (X := X)
  rw [not_not] at this
  exact this

/-- The modulus may be anything, the angle must be finite. -/
theorem C157_polar (hr : RoundsToNearest ρ) {R T : D} (vT : Valid T) :
    (Returns (fun fuel => polar ρ fuel R T) ↔ T.Finite) ∧ (Never (fun fuel => polar ρ fuel R T) ↔ ¬ T.Finite) := by
  refine returns_iff (fun h => ?_) (fun h => never_bind fun fuel => cos_diverges h fuel)
  obtain ⟨C, hC⟩ := cos_gives hr h.is vT
  obtain ⟨S, hS⟩ := sin_gives hr h.is vT
  exact ⟨_, gives_bind hC (gives_bind hS gives_pure)⟩

/-- Undefined where the real `exp` is, whatever the imaginary part; otherwise the imaginary part must be finite. -/
theorem C157_exp (hr : RoundsToNearest ρ) {X Y : D} (vX : Valid X) (vY : Valid Y) :
    ((¬ ∃ x, Is X x ∧ -2147483648 < x ∧ x ≤ 2147483647 + 1 / 2) →
      ∀ fuel, complexExp ρ fuel X Y () = .ub .precond) ∧
    ((∃ x, Is X x ∧ -2147483648 < x ∧ x ≤ 2147483647 + 1 / 2) →
      (Returns (fun fuel => complexExp ρ fuel X Y) ↔ Y.Finite) ∧ (Never (fun fuel => complexExp ρ fuel X Y) ↔ ¬ Y.Finite)) := by
  obtain ⟨h1, h2⟩ := Cest.Ieee.Props.C135_exp hr vX
  constructor
  · intro h fuel
    simp only [complexExp, M.bind_apply, h2.mpr h]
  · intro h
    obtain ⟨E, hE⟩ := h1.mpr h
    have e : ∀ fuel, complexExp ρ fuel X Y () = polar ρ fuel E Y () := fun fuel => by
      simp only [complexExp, M.bind_apply, hE]
    have := C157_polar hr (R := E) vY
    simpa only [Returns, Never, Gives, e] using this

/-- The circular functions return where the real `cosh` of the imaginary part does, the hyperbolic ones where that of
the real part does: up to 355 and something. -/
theorem C157_trig (hr : RoundsToNearest ρ) : ∃ c : ℝ, 355 ≤ c ∧ c < 356 ∧ ∀ X Y : D, Valid X → Valid Y →
    ((Returns (fun fuel => complexCos ρ fuel X Y) ↔ X.Finite ∧ ∃ y, Is Y y ∧ |y| ≤ c) ∧
      (Never (fun fuel => complexCos ρ fuel X Y) ↔ ¬ (X.Finite ∧ ∃ y, Is Y y ∧ |y| ≤ c))) ∧
    ((Returns (fun fuel => complexSin ρ fuel X Y) ↔ X.Finite ∧ ∃ y, Is Y y ∧ |y| ≤ c) ∧
      (Never (fun fuel => complexSin ρ fuel X Y) ↔ ¬ (X.Finite ∧ ∃ y, Is Y y ∧ |y| ≤ c))) ∧
    ((Returns (fun fuel => complexCosh ρ fuel X Y) ↔ Y.Finite ∧ ∃ x, Is X x ∧ |x| ≤ c) ∧
      (Never (fun fuel => complexCosh ρ fuel X Y) ↔ ¬ (Y.Finite ∧ ∃ x, Is X x ∧ |x| ≤ c))) ∧
    ((Returns (fun fuel => complexSinh ρ fuel X Y) ↔ Y.Finite ∧ ∃ x, Is X x ∧ |x| ≤ c) ∧
      (Never (fun fuel => complexSinh ρ fuel X Y) ↔ ¬ (Y.Finite ∧ ∃ x, Is X x ∧ |x| ≤ c))) := by
  obtain ⟨c, c1, c2, h⟩ := Cest.Ieee.Props.C135_cosh hr
  refine ⟨c, c1, c2, fun X Y vX vY => ?_⟩
  have yes : ∀ {A B : D}, Valid A → Valid B → (A.Finite ∧ ∃ y, Is B y ∧ |y| ≤ c) →
      Returns (fun fuel => complexCos ρ fuel A B) ∧ Returns (fun fuel => complexSin ρ fuel A B) ∧
      Returns (fun fuel => complexCosh ρ fuel B A) ∧ Returns (fun fuel => complexSinh ρ fuel B A) :=
    fun vA vB hp => trig_returns hr vA vB hp.1 ((h _ vB).1.mpr hp.2) hp.2.choose_spec.1.1
  have no : ∀ {A B : D}, Valid A → Valid B → ¬ (A.Finite ∧ ∃ y, Is B y ∧ |y| ≤ c) →
      Never (fun fuel => complexCos ρ fuel A B) ∧ Never (fun fuel => complexSin ρ fuel A B) ∧
      Never (fun fuel => complexCosh ρ fuel B A) ∧ Never (fun fuel => complexSinh ρ fuel B A) := by
    intro A B vA vB hp
    by_cases hA : A.Finite
    · exact trig_never (Or.inr ((h _ vB).2.mpr fun hB => hp ⟨hA, hB⟩))
    · exact trig_never (Or.inl hA)
  exact ⟨returns_iff (fun hp => (yes vX vY hp).1) (fun hp => (no vX vY hp).1),
    returns_iff (fun hp => (yes vX vY hp).2.1) (fun hp => (no vX vY hp).2.1),
    returns_iff (fun hp => (yes vY vX hp).2.2.1) (fun hp => (no vY vX hp).2.2.1),
    returns_iff (fun hp => (yes vY vX hp).2.2.2) (fun hp => (no vY vX hp).2.2.2)⟩

/-- `log`: both parts finite and the absolute value not overflowing, or a zero with a NaN beside it. -/
theorem C157_log (hr : RoundsToNearest ρ) {X Y : D} (vX : Valid X) (vY : Valid Y) :
    (Returns (fun fuel => complexLog ρ fuel X Y) ↔
      (X.Finite ∧ Y.Finite ∧ ¬ Gives (fun fuel => complexAbs ρ fuel X Y) (inf false)) ∨ (Is X 0 ∧ Y = nan)) ∧
    (Never (fun fuel => complexLog ρ fuel X Y) ↔
      ¬ ((X.Finite ∧ Y.Finite ∧ ¬ Gives (fun fuel => complexAbs ρ fuel X Y) (inf false)) ∨ (Is X 0 ∧ Y = nan))) := by
  refine returns_iff ?_ ?_
  · rintro (⟨h1, h2, h3⟩ | ⟨h1, rfl⟩)
    · exact log_returns hr vX vY h1 h2 h3
    · exact ⟨_, 0, fun fuel _ => log_zero_nan h1 fuel⟩
  · intro h
    by_cases hf : X.Finite ∧ Y.Finite
    · by_cases g : Gives (fun fuel => complexAbs ρ fuel X Y) (inf false)
      · exact log_over hr g
      · exact absurd (Or.inl ⟨hf.1, hf.2, g⟩) h
    · exact never_bind fun fuel => complexAbs_diverges hf (fun hc => h (Or.inr hc)) fuel

/-- In terms of the number itself: finite numbers up to 0.99948 times the overflow threshold; not beyond 1.00053
times the threshold. -/
theorem C157_log_finite (hr : RoundsToNearest ρ) {X Y : D} {x y : ℝ} (hX : Is X x) (hY : Is Y y) (vX : Valid X) (vY : Valid Y) :
    (‖(⟨x, y⟩ : ℂ)‖ < (1 - 52 / 100000) * lim → Returns (fun fuel => complexLog ρ fuel X Y)) ∧
    ((1 + 53 / 100000) * lim ≤ ‖(⟨x, y⟩ : ℂ)‖ → Never (fun fuel => complexLog ρ fuel X Y)) := by
  constructor
  · intro h
    refine log_returns hr vX vY hX.1 hY.1 fun g => ?_
    obtain ⟨V, v, hV, ⟨N, hN⟩, -⟩ := abs_within hr hX hY h
    have := abs_unique (hN N le_rfl) g
    subst this
    rcases hV.1 with e | ⟨_, e⟩ <;> cases e
  · exact fun h => log_over hr (abs_over hr hX hY vX vY h)

/-- `sqrt`: never for numbers that are not finite; for imaginary numbers unless half of the number rounds to zero;
for the others up to 0.999·2^1022, but not from a real part of 1.01·2^1022 on. -/
theorem C157_sqrt_partial (hr : RoundsToNearest ρ) {X Y : D} (vX : Valid X) (vY : Valid Y) :
    (¬ (X.Finite ∧ Y.Finite) → Never (fun fuel => complexSqrt ρ fuel X Y)) ∧
    ∀ x y, Is X x → Is Y y →
      (x = 0 → (Returns (fun fuel => complexSqrt ρ fuel X Y) ↔ 0 < ρ (|y| / 2)) ∧
        (Never (fun fuel => complexSqrt ρ fuel X Y) ↔ ¬ 0 < ρ (|y| / 2))) ∧
      (x ≠ 0 → ‖(⟨x, y⟩ : ℂ)‖ ≤ 999 / 1000 * 2 ^ 1022 → Returns (fun fuel => complexSqrt ρ fuel X Y)) ∧
      (101 / 100 * 2 ^ 1022 ≤ |x| → Never (fun fuel => complexSqrt ρ fuel X Y)) :=
  ⟨sqrt_not_finite, fun _ _ hX hY => ⟨fun h0 => sqrt_imag_iff hr (h0 ▸ hX) hY vY, fun h0 h => sqrt_within hr hX hY vX vY h0 h,
    fun h => sqrt_over hr hX hY h⟩⟩

/-- No complex function returns for every finite number: the square root of zero and of 2^1023, the logarithm of the
largest numbers, `cos(400 i)` and its companions never come back, and `exp(-3·10⁹)`, which is zero, is undefined. -/
theorem C157_refuted (hr : RoundsToNearest ρ) :
    Never (fun fuel => complexSqrt ρ fuel (fin 0) (fin 0)) ∧ Never (fun fuel => complexSqrt ρ fuel (fin (2 ^ 1023)) (fin 0)) ∧
    Never (fun fuel => complexLog ρ fuel (fin (3 / 2 * 2 ^ 1023)) (fin (3 / 2 * 2 ^ 1023))) ∧
    Never (fun fuel => complexCos ρ fuel (fin 0) (fin 400)) ∧ Never (fun fuel => complexSin ρ fuel (fin 0) (fin 400)) ∧
    Never (fun fuel => complexCosh ρ fuel (fin 400) (fin 0)) ∧ Never (fun fuel => complexSinh ρ fuel (fin 400) (fin 0)) ∧
    (∀ fuel, complexExp ρ fuel (fin (-3 * 10 ^ 9)) (fin 0) () = .ub .precond) := by
  have d0 : IsDouble (0 : ℝ) := Fp.isDouble_zero
  have d400 : IsDouble (400 : ℝ) := by simpa using Cmath.isDouble_int (K := ℝ) (k := 400) (by norm_num)
  have d1023 : IsDouble ((2 : ℝ) ^ 1023) := isDouble_pow2 (by norm_num)
  have d15 : IsDouble ((3 : ℝ) / 2 * 2 ^ 1023) := by
    refine ⟨3 * 2 ^ 51, 971, ?_, by norm_num, by norm_num, by norm_num⟩
    rw [show (971 : ℤ) = ((971 : ℕ) : ℤ) by rfl, zpow_natCast]
    rw [show ((3 * 2 ^ 51 : ℤ) : ℝ) = 3 * 2 ^ 51 by push_cast; ring, show (2 : ℝ) ^ 1023 = 2 * 2 ^ 51 * 2 ^ 971 by
      rw [← pow_succ', ← pow_add]]
    ring
  obtain ⟨c, c1, c2, h⟩ := C157_trig hr
  have no : ∀ A : D, ¬ (A.Finite ∧ ∃ y, Is (fin 400) y ∧ |y| ≤ c) := by
    rintro A ⟨-, y, hy, hc⟩
    rw [← (is_fin 400).unique hy, abs_of_pos (by norm_num)] at hc
    linarith
  obtain ⟨h1, h2, -, -⟩ := h (fin 0) (fin 400) (valid_fin d0) (valid_fin d400)
  obtain ⟨-, -, h3, h4⟩ := h (fin 400) (fin 0) (valid_fin d400) (valid_fin d0)
  refine ⟨?_, ?_, ?_, h1.2.mpr (no _), h2.2.mpr (no _), h3.2.mpr (no _), h4.2.mpr (no _), ?_⟩
  · refine (sqrt_imag_iff hr (is_fin 0) (is_fin 0) (valid_fin d0)).2.mpr ?_
    rw [abs_zero, zero_div, hr.exact d0]
    exact lt_irrefl _
  · refine sqrt_over hr (is_fin _) (is_fin 0) ?_
    rw [abs_of_pos (by positivity), show (2 : ℝ) ^ 1023 = 2 ^ 1022 * 2 from pow_succ _ _]
    have : (0 : ℝ) < 2 ^ 1022 := by positivity
    generalize (2 : ℝ) ^ 1022 = B at *
    linarith
  · refine (C157_log_finite hr (is_fin _) (is_fin _) (valid_fin d15) (valid_fin d15)).2 ?_
    rw [norm_eq]
    apply Real.le_sqrt_of_sq_le
    have hl : lim ≤ 2 * 2 ^ 1023 := by
      rw [lim, ← pow_succ']
      exact sub_le_self _ (by positivity)
    have l0 : 0 < lim := lt_trans (by norm_num) lim_big
    generalize (2 : ℝ) ^ 1023 = B at *
    nlinarith
  · refine (C157_exp hr (valid_fin ?_) (valid_fin d0)).1 ?_
    · have := Cmath.isDouble_int (K := ℝ) (k := -3 * 10 ^ 9) (by norm_num)
      push_cast at this
      convert this using 1
      norm_num
    · rintro ⟨x, hx, hx1, -⟩
      rw [← (is_fin _).unique hx] at hx1
      norm_num at hx1

/-- The functions do return for ordinary numbers. -/
example (hr : RoundsToNearest ρ) : Returns (fun fuel => complexSqrt ρ fuel (fin (-3)) (fin 4)) ∧
    Returns (fun fuel => complexLog ρ fuel (fin (-3)) (fin 4)) ∧ Returns (fun fuel => complexCos ρ fuel (fin (-3)) (fin 4)) ∧
    Returns (fun fuel => complexExp ρ fuel (fin (-3)) (fin 4)) := by
  have d3 : IsDouble (-3 : ℝ) := by simpa using Cmath.isDouble_int (K := ℝ) (k := -3) (by norm_num)
  have d4 : IsDouble (4 : ℝ) := by simpa using Cmath.isDouble_int (K := ℝ) (k := 4) (by norm_num)
  have n : ‖(⟨-3, 4⟩ : ℂ)‖ ≤ 5 := by
    rw [norm_eq]
    exact Real.sqrt_le_iff.mpr ⟨by norm_num, by norm_num⟩
  have hl := lim_big
  norm_num at hl
  obtain ⟨c, c1, -, h⟩ := C157_trig hr
  refine ⟨?_, ?_, ?_, ?_⟩
  · refine ((C157_sqrt_partial hr (valid_fin d3) (valid_fin d4)).2 _ _ (is_fin _) (is_fin _)).2.1 (by norm_num) (n.trans ?_)
    have : (2 : ℝ) ^ 4 ≤ 2 ^ 1022 := pow_le_pow_right₀ (by norm_num) (by norm_num)
    generalize (2 : ℝ) ^ 1022 = B at *
    norm_num at this
    linarith
  · exact (C157_log_finite hr (is_fin _) (is_fin _) (valid_fin d3) (valid_fin d4)).1 (by linarith)
  · exact (h _ _ (valid_fin d3) (valid_fin d4)).1.1.mpr ⟨(is_fin _).1, 4, is_fin _, by rw [abs_of_pos (by norm_num)]; linarith⟩
  · exact ((C157_exp hr (valid_fin d3) (valid_fin d4)).2 ⟨-3, is_fin _, by norm_num, by norm_num⟩).1.mpr (is_fin _).1

end Cest.ComplexFn.Ieee.Props
