import Verif.Cmath.Double
import Verif.Cmath.Atan
import Mathlib.Analysis.SpecialFunctions.Complex.Arg

/-! The properties of `cmath.hpp` (C66-C73, C87-C93). -/

namespace Cest.Cmath.Props

section
set_option linter.unusedSectionVars false
variable {K : Type} [Field K] [LinearOrder K] [IsStrictOrderedRing K] [FloorRing K] {ρ : K → K}

/-! ### C66: floor and ceil

Full statement: for every binary64 `v` whose floor fits in `int`, `floor(v)` is the greatest integer not above
`v` (and dually for `ceil`).  It fails for some negative `v` (positive for `ceil`), because `v - 1` is rounded:
see the refutations; `C66_floor_iff` and `C66_ceil_iff` say exactly where. -/

/-- Missing from the full statement: negative `v` with `v - 1` not representable. -/
theorem C66_floor_partial (hr : RoundsToNearest ρ) {v : K} (h1 : (intMin : K) ≤ v) (h2 : v < (intMax : K) + 1)
    (h : 0 ≤ v ∨ IsDouble (v - 1)) :
    ∃ n : ℤ, floor ρ v () = .ok n () ∧ (n : K) ≤ v ∧ ∀ m : ℤ, (m : K) ≤ v → m ≤ n := by
  have b1 : intMin ≤ ⌊v⌋ := Int.le_floor.mpr h1
  have b2 : ⌊v⌋ ≤ intMax := by
    have : ⌊v⌋ < intMax + 1 := Int.floor_lt.mpr (by push_cast; exact h2)
    omega
  refine ⟨⌊v⌋, ?_, Int.floor_le v, fun m hm => Int.le_floor.mpr hm⟩
  rw [floor_eq hr b1 b2, if_neg]
  rintro ⟨hv, hne, he⟩
  rcases h with h | h
  · exact absurd hv (not_lt.mpr h)
  · rw [hr.exact h] at he
    push_cast at he
    exact hne (by linarith)

theorem C66_ceil_partial (hr : RoundsToNearest ρ) {v : K} (h1 : (intMin : K) - 1 < v) (h2 : v ≤ (intMax : K))
    (h : v ≤ 0 ∨ IsDouble (v + 1)) :
    ∃ n : ℤ, ceil ρ v () = .ok n () ∧ v ≤ (n : K) ∧ ∀ m : ℤ, v ≤ (m : K) → n ≤ m := by
  have b1 : intMin ≤ ⌈v⌉ := by
    have : intMin - 1 < ⌈v⌉ := Int.lt_ceil.mpr (by push_cast; exact h1)
    omega
  have b2 : ⌈v⌉ ≤ intMax := Int.ceil_le.mpr h2
  refine ⟨⌈v⌉, ?_, Int.le_ceil v, fun m hm => Int.ceil_le.mpr hm⟩
  rw [ceil_eq hr b1 b2, if_neg]
  rintro ⟨hv, hne, he⟩
  rcases h with h | h
  · exact absurd hv (not_lt.mpr h)
  · rw [hr.exact h] at he
    push_cast at he
    exact hne (by linarith)

/-- Exactly when `floor` is right. -/
theorem C66_floor_iff (hr : RoundsToNearest ρ) {v : K} (h1 : (intMin : K) ≤ v) (h2 : v < (intMax : K) + 1) :
    floor ρ v () = .ok ⌊v⌋ () ↔ ¬ (v < 0 ∧ (⌊v⌋ : K) ≠ v ∧ ρ (v - 1) = (⌊v⌋ : K) - 1) := by
  have b1 : intMin ≤ ⌊v⌋ := Int.le_floor.mpr h1
  have b2 : ⌊v⌋ ≤ intMax := by
    have : ⌊v⌋ < intMax + 1 := Int.floor_lt.mpr (by push_cast; exact h2)
    omega
  rw [floor_eq hr b1 b2]
  push_cast
  split
  · next h =>
    refine ⟨fun e => ?_, fun e => absurd h e⟩
    rw [← Int.cast_one, ← Int.cast_sub, toInt] at e
    split at e
    · simp only [trunc_int, M.pure_apply, Res.ok.injEq] at e; omega
    · simp at e
  · next h => exact ⟨fun _ => h, fun _ => rfl⟩

theorem C66_ceil_iff (hr : RoundsToNearest ρ) {v : K} (h1 : (intMin : K) - 1 < v) (h2 : v ≤ (intMax : K)) :
    ceil ρ v () = .ok ⌈v⌉ () ↔ ¬ (0 < v ∧ (⌈v⌉ : K) ≠ v ∧ ρ (v + 1) = (⌈v⌉ : K) + 1) := by
  have b1 : intMin ≤ ⌈v⌉ := by
    have : intMin - 1 < ⌈v⌉ := Int.lt_ceil.mpr (by push_cast; exact h1)
    omega
  have b2 : ⌈v⌉ ≤ intMax := Int.ceil_le.mpr h2
  rw [ceil_eq hr b1 b2]
  push_cast
  split
  · next h =>
    refine ⟨fun e => ?_, fun e => absurd h e⟩
    rw [← Int.cast_one, ← Int.cast_add, toInt] at e
    split at e
    · simp only [trunc_int, M.pure_apply, Res.ok.injEq] at e; omega
    · simp at e
  · next h => exact ⟨fun _ => h, fun _ => rfl⟩

/-- The full statement is false: `floor(-(1 - 2^-53))` is -2. -/
theorem C66_floor_refuted (hr : RoundsTiesEven ρ) :
    ∃ v : K, IsDouble v ∧ -1 < v ∧ v < 0 ∧ floor ρ v () = .ok (-2) () := by
  have hd : IsDouble (-(1 - 2 ^ (-53 : ℤ)) : K) :=
    ⟨-(2 ^ 53 - 1), -53, by norm_num, by norm_num, by norm_num, by norm_num⟩
  refine ⟨-(1 - 2 ^ (-53 : ℤ)), hd, by norm_num, by norm_num, ?_⟩
  have hf : ⌊(-(1 - 2 ^ (-53 : ℤ)) : K)⌋ = -1 := by
    rw [Int.floor_eq_iff]; norm_num
  have he : ρ (-(1 - 2 ^ (-53 : ℤ)) - 1) = -2 := by
    rw [show (-(1 - 2 ^ (-53 : ℤ)) - 1 : K) = -(2 - 2 ^ (-53 : ℤ)) by ring]
    exact round_half_neg_two hr
  rw [floor_eq hr.toRoundsToNearest (by rw [hf]; simp [intMin]) (by rw [hf]; simp [intMax]), if_pos, hf]
  · rw [show (-1 - 1 : ℤ) = -2 by norm_num, toInt_ok (by rw [trunc_int]; simp [intMin]) (by rw [trunc_int]; simp [intMax]),
      trunc_int]
  · rw [hf, he]; norm_num

/-- The full statement is false: `ceil(1 - 2^-53)` is 2. -/
theorem C66_ceil_refuted (hr : RoundsTiesEven ρ) :
    ∃ v : K, IsDouble v ∧ 0 < v ∧ v < 1 ∧ ceil ρ v () = .ok 2 () := by
  have hd : IsDouble (1 - 2 ^ (-53 : ℤ) : K) :=
    ⟨2 ^ 53 - 1, -53, by norm_num, by norm_num, by norm_num, by norm_num⟩
  refine ⟨1 - 2 ^ (-53 : ℤ), hd, by norm_num, by norm_num, ?_⟩
  have hf : ⌈(1 - 2 ^ (-53 : ℤ) : K)⌉ = 1 := by
    rw [Int.ceil_eq_iff]; norm_num
  have he : ρ (1 - 2 ^ (-53 : ℤ) + 1) = 2 := by
    rw [show (1 - 2 ^ (-53 : ℤ) + 1 : K) = 2 - 2 ^ (-53 : ℤ) by ring]
    exact round_half_two hr
  rw [ceil_eq hr.toRoundsToNearest (by rw [hf]; simp [intMin]) (by rw [hf]; simp [intMax]), if_pos, hf]
  · rw [show (1 + 1 : ℤ) = 2 by norm_num, toInt_ok (by rw [trunc_int]; simp [intMin]) (by rw [trunc_int]; simp [intMax]),
      trunc_int]
  · rw [hf, he]; norm_num

/-- With exact arithmetic `floor` and `ceil` are right everywhere. -/
theorem C66_exact_arithmetic {v : K} (h1 : (intMin : K) ≤ v) (h2 : v ≤ (intMax : K)) :
    floor id v () = .ok ⌊v⌋ () ∧ ceil id v () = .ok ⌈v⌉ () := by
  have b1 : intMin ≤ ⌊v⌋ := Int.le_floor.mpr h1
  have b2 : ⌈v⌉ ≤ intMax := Int.ceil_le.mpr h2
  have b3 : ⌊v⌋ ≤ ⌈v⌉ := Int.floor_le_ceil v
  rcases le_total 0 v with hv | hv
  · have ht := trunc_of_nonneg hv
    have ok := toInt_ok (x := v) (by omega) (by omega)
    have ok1 : (⌊v⌋ : K) ≠ v → toInt (v + 1) () = .ok ⌈v⌉ () := by
      intro hne
      have e : trunc (v + 1) = ⌈v⌉ := by
        rw [trunc_of_nonneg (by linarith), Int.floor_add_one, ceil_of_not_int hne]
      rw [toInt_ok (by omega) (by omega), e]
    constructor
    · simp [floor, M.bind_apply, ok, not_lt.mpr hv, ht]
    · by_cases hne : (⌊v⌋ : K) = v
      · have : ⌈v⌉ = ⌊v⌋ := by rw [← hne]; simp
        simp [ceil, M.bind_apply, ok, ht, hne, this]
      · have hpos : 0 < v := lt_of_le_of_ne hv (by rintro rfl; simp at hne)
        simp [ceil, M.bind_apply, ok, ht, hne, hpos, fadd, ok1 hne]
  · have ht := trunc_of_nonpos hv
    have ok := toInt_ok (x := v) (by omega) (by omega)
    have hiff : (⌈v⌉ : K) = v ↔ (⌊v⌋ : K) = v := by
      constructor
      · intro h; rw [← h]; simp
      · intro h; rw [← h]; simp
    have ok1 : (⌊v⌋ : K) ≠ v → toInt (v - 1) () = .ok ⌊v⌋ () := by
      intro hne
      have e : trunc (v - 1) = ⌊v⌋ := by
        rw [trunc_of_nonpos (by linarith), Int.ceil_sub_one, ceil_of_not_int hne]; ring
      rw [toInt_ok (by omega) (by omega), e]
    constructor
    · by_cases hne : (⌊v⌋ : K) = v
      · have : ⌈v⌉ = ⌊v⌋ := by rw [← hne]; simp
        simp [floor, M.bind_apply, ok, ht, hne, this]
      · have hneg : v < 0 := lt_of_le_of_ne hv (by rintro rfl; simp at hne)
        simp [floor, M.bind_apply, ok, ht, hiff, hne, hneg, fsub, ok1 hne]
    · simp [ceil, M.bind_apply, ok, not_lt.mpr hv, ht]

/-- IEEE rounding exists, so the theorems about it are not vacuous. -/
example : ∃ ρ : ℚ → ℚ, RoundsTiesEven ρ := exists_roundsTiesEven
/-- A negative number covered by the partial theorem, and the value it pins down. -/
example : IsDouble ((-5 / 2 : ℚ) - 1) := ⟨-7, -1, by norm_num, by norm_num, by norm_num, by norm_num⟩
example (hr : RoundsToNearest (K := ℚ) (ρ := ρ')) : floor ρ' (-5 / 2 : ℚ) () = .ok (-3) () := by
  obtain ⟨n, h, h1, h2⟩ := C66_floor_partial hr (v := (-5 / 2 : ℚ)) (by norm_num [intMin]) (by norm_num [intMax])
    (Or.inr ⟨-7, -1, by norm_num, by norm_num, by norm_num, by norm_num⟩)
  have : n = -3 := by
    have a := h2 (-3) (by norm_num)
    have b : (n : ℚ) < -2 := by linarith
    have : n < -2 := by exact_mod_cast b
    omega
  rw [h, this]

/-! ### C67: integer power

Full statement: `pow(b, n)` is `b^n` up to rounding for every `int n`.  It fails for `n = INT_MIN`, whose
negation overflows. -/

theorem C67_pow_partial (b : K) {n : ℤ} (h1 : intMin < n) (h2 : n ≤ intMax) (hb : n < 0 → b ≠ 0) :
    pow id b n () = .ok (b ^ n) () := pow_zpow b h1 h2 hb

/-- With rounding: the error of `n - 1` roundings for `n ≥ 1` (none for `n ≤ 1`). -/
theorem C67_pow_rounded_partial {u : K} (h : RelErr u ρ) (hu : u < 1) (b : K) (n : ℕ) :
    ∃ θ, pow ρ b n () = .ok (b ^ n * θ) () ∧ (1 - u) ^ (n - 1) ≤ θ ∧ θ ≤ (1 + u) ^ (n - 1) := by
  obtain ⟨θ, e, a1, a2⟩ := powNN_relErr h hu b n
  refine ⟨θ, ?_, a1, a2⟩
  rw [pow, if_neg (by omega)]
  simp [e]

/-- With rounding and a negative exponent. -/
theorem C67_pow_neg_rounded_partial {u : K} (h : RelErr u ρ) (hu : u < 1) {b : K} (hb : b ≠ 0) {n : ℕ}
    (h0 : 0 < n) (hn : (n : ℤ) ≤ intMax) :
    ∃ θ, pow ρ b (-n) () = .ok (b ^ (-n : ℤ) * θ) () ∧
      (1 - u) / (1 + u) ^ (n - 1) ≤ θ ∧ θ ≤ (1 + u) / (1 - u) ^ (n - 1) := by
  have hu0 := relErr_nonneg h
  obtain ⟨θ, e, a1, a2⟩ := powNN_relErr h hu b n
  have p1 : 0 < (1 - u) ^ (n - 1) := pow_pos (by linarith) _
  have p2 : 0 < (1 + u) ^ (n - 1) := pow_pos (by linarith) _
  have hθ : 0 < θ := p1.trans_le a1
  obtain ⟨δ, e2, d1, d2⟩ := relErr_factor h (1 / (b ^ n * θ))
  have hne : b ^ n * θ ≠ 0 := mul_ne_zero (pow_ne_zero _ hb) hθ.ne'
  have hlt : (-(n : ℤ)) < 0 := by omega
  have hi : intMin ≤ (n : ℤ) ∧ (n : ℤ) ≤ intMax := ⟨by simp only [intMin]; omega, hn⟩
  refine ⟨δ / θ, ?_, ?_, ?_⟩
  · rw [pow, if_pos hlt]
    simp only [M.bind_apply, int, neg_neg, hi, and_self, if_true, M.pure_apply, Int.toNat_natCast, e, fdiv_ok hne, e2]
    congr 1
    rw [zpow_neg, zpow_natCast]
    have := pow_ne_zero n hb
    field_simp
  · exact div_le_div₀ (by linarith) d1 hθ a2
  · exact div_le_div₀ (by linarith) d2 p1 a1

/-- The full statement is false: for `INT_MIN` the behaviour is undefined. -/
theorem C67_pow_refuted (b : K) : pow ρ b intMin () = .ub .precond := by
  rw [pow, if_pos (by simp [intMin])]
  simp [M.bind_apply, int, intMin, intMax]

example : RelErr (1 / 10) (fun x : ℚ => x * (21 / 20)) := by
  intro x
  show |x * (21 / 20) - x| ≤ 1 / 10 * |x|
  rw [show x * (21 / 20) - x = 1 / 20 * x by ring, abs_mul]
  have := abs_nonneg x
  rw [abs_of_pos (by norm_num : (0 : ℚ) < 1 / 20)]
  linarith
example : pow id (-2 : ℚ) (-3) () = .ok (-1 / 8) () := by
  rw [C67_pow_partial (-2 : ℚ) (by simp [intMin]) (by simp [intMax]) (by norm_num)]; norm_num

/-! ### C68, C69: sqrt -/

theorem C68_sqrt {x : K} (hx : 0 < x) :
    ∃ g, 0 < g ∧ |g ^ 2 - x| < 1 / 1000 * g ^ 2 ∧ Gives (fun fuel => sqrt id fuel x) g := by
  obtain ⟨r, h1, h2, N, h3⟩ := sqrtHelper_terminates hx one_pos
  refine ⟨r, h1, ?_, N, h3⟩
  have e : r ^ 2 - x = r * (r - x / r) := by field_simp
  rw [e, abs_mul, abs_of_pos h1]
  nlinarith

/-- C69 is false: for `x ≤ 0`, zero included, `sqrt` returns for no number of recursive calls, neither with exact
arithmetic nor with IEEE rounding. -/
theorem C69_sqrt_refuted {x : K} (hx : x ≤ 0) :
    (∀ fuel v, sqrt id fuel x () ≠ .ok v ()) ∧
    (RoundsToNearest ρ → ∀ fuel v, sqrt ρ fuel x () ≠ .ok v ()) :=
  ⟨fun fuel v => sqrtHelper_never Rounding.exact hx fuel 1 v trivial,
   fun hr fuel v => sqrtHelper_never hr.rounding hx fuel 1 v hr.rounding.one⟩

/-- `sqrt(0)` runs for ever. -/
theorem C69_sqrt_zero (fuel : ℕ) : sqrt id fuel (0 : K) () = .timeout :=
  sqrtHelper_zero_diverges fuel 1 one_pos

example : Gives (fun fuel => sqrt id fuel (3 : ℝ)) (97 / 56) :=
  ⟨4, fun fuel hf => by obtain ⟨k, rfl⟩ : ∃ k, fuel = k + 4 := ⟨fuel - 4, by omega⟩; exact sqrt_three k⟩

/-! ### C70: absolute value -/

theorem C70_abs {A : Type} [AddCommGroup A] [LinearOrder A] [IsOrderedAddMonoid A] (x : A) :
    0 ≤ abs x ∧ (abs x = x ∨ abs x = -x) ∧ abs (-x) = abs x ∧ fabs x = abs x ∧ x ≤ abs x ∧ -x ≤ abs x := by
  have e : ∀ x : A, abs x = |x| := by
    intro x
    unfold abs
    split
    · next h => exact (abs_of_neg h).symm
    · next h => exact (abs_of_nonneg (not_lt.mp h)).symm
  rw [fabs, e, e]
  exact ⟨abs_nonneg x, abs_choice x, abs_neg x, rfl, le_abs_self x, neg_le_abs x⟩

example : abs (-7 / 2 : ℚ) = 7 / 2 := by norm_num [abs]

/-! ### C71: argument reduction of exp

Full statement: for every `x` whose truncation fits in `int`.  It fails at both ends of the range: see the
refutations. -/

theorem C71_reduction_partial {x : K} (h1 : (intMin : K) - 1 < x) (h2 : x ≤ (intMax : K) + 1 / 2) :
    ∃ n : ℤ, ∃ r : K, nearest id x () = .ok (n : K) () ∧ fraction id x () = .ok r () ∧ (n : K) + r = x ∧
      |r| < 1 ∧ (0 ≤ x → |r| ≤ 1 / 2) ∧
      (n ≠ intMin →
        exp id x () = .ok (mE id ^ n * ∑ k ∈ Finset.range 8, r ^ k / (Nat.factorial k : K)) ()) := by
  have t : intMin ≤ trunc x := by
    rcases le_total 0 x with h | h
    · rw [trunc_of_nonneg h]
      have := Int.floor_nonneg.mpr h
      simp only [intMin]; omega
    · rw [trunc_of_nonpos h]
      have : intMin - 1 < ⌈x⌉ := Int.lt_ceil.mpr (by push_cast; exact h1)
      omega
  obtain ⟨n, a1, a2, a3, a4, a5, a6⟩ := nearest_fraction t h2
  obtain ⟨n', b1, b2, b3, -, b5⟩ := exp_val t h2
  have : n' = n := by
    rw [a3] at b3
    simp only [Res.ok.injEq, Int.cast_inj, and_true] at b3
    exact b3.symm
  subst this
  exact ⟨n', x - n', a3, a4, by ring, a5, a6, b5⟩

/-- Above `INT_MAX + 1/2` the truncation still fits in `int`, but the conversion of `x + 0.5` does not. -/
theorem C71_reduction_high_refuted {x : K} (h1 : (intMax : K) + 1 / 2 < x) (h2 : x < (intMax : K) + 1) :
    trunc x = intMax ∧ nearest id x () = .ub .precond ∧ exp id x () = .ub .precond := by
  have hx : 0 ≤ x := by simp only [intMax] at h1; push_cast at h1; linarith
  have ht : trunc x = intMax := by
    rw [trunc_of_nonneg hx, Int.floor_eq_iff]; exact ⟨by linarith, h2⟩
  have hn := nearest_ub h1
  exact ⟨ht, hn, by simp only [exp, M.bind_apply, hn]⟩

/-- At the low end the reduction is right but the power overflows. -/
theorem C71_reduction_low_refuted {x : K} (h1 : (intMin : K) - 1 < x) (h2 : x ≤ (intMin : K)) :
    trunc x = intMin ∧ exp id x () = .ub .precond := by
  have hx : x ≤ 0 := by simp only [intMin] at h2; push_cast at h2; linarith
  have ht : trunc x = intMin := by
    rw [trunc_of_nonpos hx, Int.ceil_eq_iff]; exact ⟨h1, h2⟩
  refine ⟨ht, ?_⟩
  have ok := toInt_ok (x := x) (by omega) (by rw [ht]; simp [intMin, intMax])
  have ok2 := toInt_ok (x := ((trunc x : ℤ) : K)) (by rw [trunc_int]; omega)
    (by rw [trunc_int, ht]; simp [intMin, intMax])
  have hn : ¬ (trunc x : K) < x - 1 / 2 := by rw [ht]; linarith
  have hnear : nearest id x () = .ok (trunc x : K) () := by
    simp only [nearest, M.bind_apply, ok, fsub, id, gt_iff_lt, hn, if_false, M.pure_apply]
  simp only [exp, M.bind_apply, hnear, ok2, trunc_int]
  rw [ht, C67_pow_refuted]

/-- Both edges exist as numbers. -/
example : (intMax : ℚ) + 1 / 2 < intMax + 3 / 4 ∧ (intMax : ℚ) + 3 / 4 < intMax + 1 := by
  constructor <;> linarith
example : ∃ r, fraction id (8 / 3 : ℚ) () = .ok r () ∧ |r| ≤ 1 / 2 := by
  obtain ⟨n, r, -, h, -, -, h', -⟩ := C71_reduction_partial (x := (8 / 3 : ℚ)) (by norm_num [intMin]) (by norm_num [intMax])
  exact ⟨r, h, h' (by norm_num)⟩

/-! ### C72: symmetries -/

/-- `atan` is odd, with any rounding, at every nonzero argument. -/
theorem C72_atan_odd (ρ : K → K) (fuel : ℕ) {x : K} (hx : x ≠ 0) (v : K) :
    atan ρ fuel (-x) () = .ok (-v) () ↔ atan ρ fuel x () = .ok v () := by
  have key : ∀ (f : FM K) (v : K), (do return -(← f) : FM K) () = .ok (-v) () ↔ f () = .ok v () := by
    intro f v
    simp only [M.bind_apply, M.pure_apply]
    cases f () <;> simp
  rcases lt_or_gt_of_ne hx with h | h
  · rw [atan, if_pos (by linarith), atan, if_neg (not_le.mpr h)]
    have := key (atanCmplmntry ρ fuel (-x)) (-v)
    rw [neg_neg] at this
    exact this.symm
  · rw [atan, if_neg (by linarith), atan, if_pos h.le, neg_neg]
    exact key _ v

/-- `sinh` of the opposite argument is computed as the opposite of `sinh`. -/
theorem sinh_neg (ρ : K → K) (ht : 0 < tol ρ) (fuel : ℕ) (x : K) :
    sinh ρ fuel (-x) () = (do return -(← sinh ρ fuel x) : FM K) () := by
  rcases lt_trichotomy x 0 with h | rfl | h
  · rw [sinh, if_neg (by linarith), sinh, if_pos h]
    simp only [M.bind_apply, M.pure_apply]
    cases sinhHelper ρ fuel (-x) () <;> simp
  · simp only [neg_zero]
    rw [sinh, if_neg (lt_irrefl _)]
    cases fuel with
    | zero => simp [sinhHelper, M.bind_apply]
    | succ n => simp [sinhHelper, M.bind_apply, ht]
  · rw [sinh, if_pos (by linarith), neg_neg]
    simp only [M.bind_apply]
    rw [sinh, if_neg (by linarith)]

theorem C72_sinh_odd (ρ : K → K) (ht : 0 < tol ρ) (fuel : ℕ) (x v : K) :
    sinh ρ fuel (-x) () = .ok (-v) () ↔ sinh ρ fuel x () = .ok v () := by
  rw [sinh_neg ρ ht]
  simp only [M.bind_apply, M.pure_apply]
  cases sinh ρ fuel x () <;> simp

/-- `cosh` is even, with any rounding. -/
theorem C72_cosh_even (ρ : K → K) (ht : 0 < tol ρ) (fuel : ℕ) (x : K) :
    cosh ρ fuel (-x) () = cosh ρ fuel x () := by
  simp only [cosh, M.bind_apply, sinh_neg ρ ht, M.pure_apply]
  cases sinh ρ fuel x () <;> simp [square, fmul]

end

/-- `atan` is zero at zero. -/
theorem C72_atan_zero : Gives (fun fuel => atan id fuel (0 : ℝ)) 0 := by
  refine ⟨4, fun fuel hf => ?_⟩
  obtain ⟨k, rfl⟩ : ∃ k, fuel = k + 4 := ⟨fuel - 4, by omega⟩
  obtain ⟨v, h, -, -, -, hv⟩ := atan_near 0
  show atan id (k + 4) 0 () = _
  rw [h k, hv rfl]

/-- The quadrants of `atan2` (exact arithmetic): it terminates, and the signs of its arguments determine the
interval of the result.  `mPi` and `mPi2` are the constants of the code. -/
theorem C72_atan2_quadrant (y x : ℝ) : ∃ v, Gives (fun fuel => atan2 id fuel y x) v ∧
    (0 < x → 0 < y → 0 < v ∧ v < mPi2 id) ∧
    (0 < x → y < 0 → -mPi2 id < v ∧ v < 0) ∧
    (x < 0 → 0 < y → mPi id - mPi2 id < v ∧ v < mPi id) ∧
    (x < 0 → y < 0 → -mPi id < v ∧ v < -mPi id + mPi2 id) ∧
    (0 < x → y = 0 → v = 0) ∧ (x < 0 → y = 0 → v = mPi id) ∧
    (x = 0 → 0 < y → v = mPi2 id) ∧ (x = 0 → y < 0 → v = -mPi2 id) ∧ (x = 0 → y = 0 → v = 0) := by
  have fuel4 : ∀ fuel, 4 ≤ fuel → ∃ k, fuel = k + 4 := fun fuel h => ⟨fuel - 4, by omega⟩
  rcases lt_trichotomy x 0 with hx | rfl | hx
  · obtain ⟨v, hv, -, b1, b2, b3⟩ := atan_near (y / x)
    rcases lt_trichotomy y 0 with hy | rfl | hy
    · obtain ⟨c1, c2⟩ := b1 (div_pos_of_neg_of_neg hy hx)
      refine ⟨v - mPi id, ⟨4, fun fuel hf => ?_⟩, ?_⟩
      · obtain ⟨k, rfl⟩ := fuel4 fuel hf
        simp only [atan2, if_neg (not_lt.mpr hx.le), if_neg (by simp [hy] : ¬ (0 ≤ y ∧ x < 0)), if_pos (And.intro hy hx),
          M.bind_apply, fdiv_ok hx.ne, id, hv, M.pure_apply, fsub]
      · refine ⟨?_, ?_, ?_, ?_, ?_, ?_, ?_, ?_, ?_⟩ <;> intro h1 h2 <;> first | linarith | (constructor <;> linarith)
    · have c := b3 (by simp)
      refine ⟨v + mPi id, ⟨4, fun fuel hf => ?_⟩, ?_⟩
      · obtain ⟨k, rfl⟩ := fuel4 fuel hf
        simp only [atan2, if_neg (not_lt.mpr hx.le), if_pos (And.intro (le_refl (0 : ℝ)) hx),
          M.bind_apply, fdiv_ok hx.ne, id, hv, M.pure_apply, fadd]
      · refine ⟨?_, ?_, ?_, ?_, ?_, ?_, ?_, ?_, ?_⟩ <;> intro h1 h2 <;> linarith
    · obtain ⟨c1, c2⟩ := b2 (div_neg_of_pos_of_neg hy hx)
      refine ⟨v + mPi id, ⟨4, fun fuel hf => ?_⟩, ?_⟩
      · obtain ⟨k, rfl⟩ := fuel4 fuel hf
        simp only [atan2, if_neg (not_lt.mpr hx.le), if_pos (And.intro hy.le hx),
          M.bind_apply, fdiv_ok hx.ne, id, hv, M.pure_apply, fadd]
      · refine ⟨?_, ?_, ?_, ?_, ?_, ?_, ?_, ?_, ?_⟩ <;> intro h1 h2 <;> first | linarith | (constructor <;> linarith)
  · rcases lt_trichotomy y 0 with hy | rfl | hy
    · refine ⟨-mPi2 id, ⟨0, fun fuel _ => by simp [atan2, hy, not_lt.mpr hy.le]⟩, ?_⟩
      refine ⟨?_, ?_, ?_, ?_, ?_, ?_, ?_, ?_, ?_⟩ <;> intro h1 h2 <;> first | rfl | linarith
    · refine ⟨0, ⟨0, fun fuel _ => by simp [atan2]⟩, ?_⟩
      refine ⟨?_, ?_, ?_, ?_, ?_, ?_, ?_, ?_, ?_⟩ <;> intro h1 h2 <;> first | rfl | linarith
    · refine ⟨mPi2 id, ⟨0, fun fuel _ => by simp [atan2, hy, hy.le]⟩, ?_⟩
      refine ⟨?_, ?_, ?_, ?_, ?_, ?_, ?_, ?_, ?_⟩ <;> intro h1 h2 <;> first | rfl | linarith
  · obtain ⟨v, hv, -, b1, b2, b3⟩ := atan_near (y / x)
    refine ⟨v, ⟨4, fun fuel hf => ?_⟩, ?_⟩
    · obtain ⟨k, rfl⟩ := fuel4 fuel hf
      simp only [atan2, if_pos hx, M.bind_apply, fdiv_ok hx.ne', id, hv]
    · refine ⟨fun _ hy => b1 (div_pos hy hx), fun _ hy => b2 (div_neg_of_neg_of_pos hy hx), ?_, ?_,
        fun _ hy => b3 (by simp [hy]), ?_, ?_, ?_, ?_⟩ <;> intro h1 h2 <;> linarith

/-- Every branch of the statement is inhabited: three of the quadrants. -/
example : ∃ v, Gives (fun fuel => atan2 id fuel (5 : ℝ) (-2)) v ∧ 3 / 2 < v ∧ v < 4 := by
  obtain ⟨v, h, -, -, h2, -⟩ := C72_atan2_quadrant 5 (-2)
  have := h2 (by norm_num) (by norm_num)
  refine ⟨v, h, ?_, ?_⟩ <;> simp only [mPi, mPi2, id] at this <;> linarith [this.1, this.2]
example : (0 : ℚ) < tol id := by norm_num [tol]

/-! ### C73: decimal decomposition -/

theorem C73_decimal {K : Type} [Field K] [LinearOrder K] [IsStrictOrderedRing K] [FloorRing K] {x : K} (hx : 0 < x) :
    ∃ (e : ℤ) (m : K), 1 ≤ m ∧ m < 10 ∧ x = m * 10 ^ e ∧
      Gives (fun fuel => mantissa id fuel x) m ∧ Gives (fun fuel => exponent id fuel x) e := decimal hx

/-- Zero and negative numbers, on which `mantissa` would not terminate, never reach it. -/
theorem C73_log_guard {K : Type} [Field K] [LinearOrder K] [IsStrictOrderedRing K] [FloorRing K] (ρ : K → K)
    (fuel : ℕ) (x : K) :
    (x ≤ 0 → mantissa id fuel x () = .timeout) ∧
    (x = 0 → log ρ fuel x () = .ok .negInf ()) ∧ (x < 0 → log ρ fuel x () = .ok .nan ()) :=
  ⟨fun h => decimal_diverges h fuel, fun h => by simp [log, h], fun h => by simp [log, h.ne, h]⟩

example : ∃ (e : ℤ) (m : ℚ), 1 ≤ m ∧ m < 10 ∧ (3 / 7000 : ℚ) = m * 10 ^ e ∧
    Gives (fun fuel => exponent id fuel (3 / 7000 : ℚ)) e := by
  obtain ⟨e, m, h1, h2, h3, -, h5⟩ := C73_decimal (x := (3 / 7000 : ℚ)) (by norm_num)
  exact ⟨e, m, h1, h2, h3, h5⟩

/-! ### C87: sin and cos -/

theorem C87_sin (x : ℝ) :
    ∃ v, Gives (fun fuel => sin id fuel x) v ∧ |v - Real.sin x| ≤ (|x| + 4) / 1000000 := by
  obtain ⟨p1, -⟩ := mPi_near
  by_cases hx : x < 0
  · have hpi : 3 < mPi (id : ℝ → ℝ) ∧ mPi (id : ℝ → ℝ) < 32 / 10 := by simp only [mPi, id]; norm_num
    obtain ⟨n, hn⟩ := lt_tol_pow (-x + mPi id)
    obtain ⟨θ, a1, a2, a3⟩ := sinHelper_val n (-x + mPi id) (by linarith) hn
    refine ⟨Real.sin θ, ⟨n + 1, fun fuel hf => ?_⟩, ?_⟩
    · simp only [sin, hx, if_true, fadd, id]; exact a3 fuel hf
    · have e : Real.sin x = Real.sin (Real.pi - x) := (Real.sin_pi_sub x).symm
      rw [e]
      refine (Real.abs_sin_sub_sin_le _ _).trans ?_
      rw [abs_of_neg hx]
      rw [abs_le] at *
      constructor <;> linarith
  · have hx0 : 0 ≤ x := not_lt.mp hx
    obtain ⟨n, hn⟩ := lt_tol_pow x
    obtain ⟨θ, a1, a2, a3⟩ := sinHelper_val n x hx0 hn
    refine ⟨Real.sin θ, ⟨n + 1, fun fuel hf => ?_⟩, ?_⟩
    · simp only [sin, hx, if_false]; exact a3 fuel hf
    · refine (Real.abs_sin_sub_sin_le _ _).trans ?_
      rw [abs_of_nonneg hx0, abs_of_nonneg (by linarith)]
      linarith

theorem C87_cos (x : ℝ) :
    ∃ v, Gives (fun fuel => cos id fuel x) v ∧ |v - Real.cos x| ≤ (|x| + 6) / 1000000 := by
  obtain ⟨-, p2⟩ := mPi_near
  obtain ⟨v, hv, he⟩ := C87_sin (mPi2 id - x)
  refine ⟨v, hv, ?_⟩
  have hpi : 0 < mPi2 (id : ℝ → ℝ) ∧ mPi2 (id : ℝ → ℝ) < 16 / 10 := by simp only [mPi2, id]; norm_num
  have e : Real.cos x = Real.sin (Real.pi / 2 - x) := (Real.sin_pi_div_two_sub x).symm
  have h1 := Real.abs_sin_sub_sin_le (mPi2 id - x) (Real.pi / 2 - x)
  rw [show mPi2 id - x - (Real.pi / 2 - x) = mPi2 id - Real.pi / 2 by ring] at h1
  have h2 : |mPi2 id - x| ≤ 16 / 10 + |x| := (abs_sub _ _).trans (by rw [abs_of_pos hpi.1]; linarith)
  rw [e]
  have h3 := abs_sub_le v (Real.sin (mPi2 id - x)) (Real.sin (Real.pi / 2 - x))
  linarith

/-! ### C88: sinh and cosh -/

theorem C88_sinh (x : ℝ) :
    ∃ v, Gives (fun fuel => sinh id fuel x) v ∧
      |v - Real.sinh x| ≤ 2 / 1000000 * |x| * Real.cosh x ∧
      ∃ θ, |θ| ≤ |x| ∧ |x| * (1 - 1 / 1000000) ≤ |θ| ∧ v = Real.sinh θ := by
  obtain ⟨n, hn⟩ := lt_tol_pow |x|
  obtain ⟨θ, a1, a2, a3⟩ := sinhHelper_val n |x| (abs_nonneg x) hn
  have hθ : 0 ≤ θ := le_trans (by have := abs_nonneg x; nlinarith) a1
  have hc : 0 < Real.cosh x := Real.cosh_pos x
  have key := (sinh_cosh_near hθ a2).1
  rw [Real.cosh_abs] at key
  have bound : 2 * (|x| - θ) * Real.cosh x ≤ 2 / 1000000 * |x| * Real.cosh x := by
    apply mul_le_mul_of_nonneg_right _ hc.le
    linarith
  by_cases hx : x < 0
  · rw [abs_of_neg hx] at *
    refine ⟨-Real.sinh θ, ⟨n + 1, fun fuel hf => ?_⟩, ?_, -θ, ?_, ?_, ?_⟩
    · simp only [sinh, hx, if_true, M.bind_apply, a3 fuel hf, M.pure_apply]
    · rw [Real.sinh_neg] at key
      rw [show -Real.sinh θ - Real.sinh x = -(Real.sinh θ - -Real.sinh x) by ring, abs_neg]
      exact key.trans bound
    · rw [abs_neg, abs_of_nonneg hθ]; exact a2
    · rw [abs_neg, abs_of_nonneg hθ]; exact a1
    · rw [Real.sinh_neg]
  · have hx0 : 0 ≤ x := not_lt.mp hx
    rw [abs_of_nonneg hx0] at *
    refine ⟨Real.sinh θ, ⟨n + 1, fun fuel hf => ?_⟩, key.trans bound, θ, ?_, ?_, rfl⟩
    · simp only [sinh, hx, if_false]; exact a3 fuel hf
    · rw [abs_of_nonneg hθ]; exact a2
    · rw [abs_of_nonneg hθ]; exact a1

theorem C88_cosh (x : ℝ) :
    ∃ v, Gives (fun fuel => cosh id fuel x) v ∧
      |v - Real.cosh x| ≤ (51 / 100000 + 2 / 1000000 * |x|) * Real.cosh x := by
  obtain ⟨s, ⟨N, hs⟩, -, θ, h1, h2, rfl⟩ := C88_sinh x
  have hpos : 0 < 1 + Real.sinh θ * Real.sinh θ := by nlinarith [mul_self_nonneg (Real.sinh θ)]
  obtain ⟨r, r0, -, r2, N', hr⟩ := sqrt_val hpos
  have hsq : Real.sqrt (1 + Real.sinh θ * Real.sinh θ) = Real.cosh θ := by
    rw [show 1 + Real.sinh θ * Real.sinh θ = Real.cosh θ ^ 2 by rw [Real.cosh_sq]; ring]
    exact Real.sqrt_sq (Real.cosh_pos θ).le
  rw [hsq] at r2
  refine ⟨r, ⟨max N N', fun fuel hf => ?_⟩, ?_⟩
  · have e := hs fuel (le_trans (le_max_left _ _) hf)
    simp only [cosh, M.bind_apply, e, square, fmul, fadd, id]
    exact hr fuel (le_trans (le_max_right _ _) hf)
  · have key := (sinh_cosh_near (abs_nonneg θ) h1).2
    rw [Real.cosh_abs, Real.cosh_abs] at key
    have hc : 0 < Real.cosh x := Real.cosh_pos x
    have hle : Real.cosh θ ≤ Real.cosh x := Real.cosh_le_cosh.mpr h1
    have b : 2 * (|x| - |θ|) * Real.cosh x ≤ 2 / 1000000 * |x| * Real.cosh x := by
      apply mul_le_mul_of_nonneg_right _ hc.le
      linarith
    have h3 := abs_sub_le r (Real.cosh θ) (Real.cosh x)
    nlinarith

/-! ### C89, C90: exp and log -/

theorem C89_exp {x : ℝ} (hx : |x| ≤ 1000000) :
    ∃ v, exp id x () = .ok v () ∧ |v - Real.exp x| ≤ 1 / 10000 * Real.exp x := exp_near hx

theorem C90_log {x : ℝ} (hx : 0 < x) :
    ∃ v, Gives (fun fuel => log id fuel x) (LogRes.val v) ∧
      |v - Real.log x| ≤ 12 / 10000 + |Real.log x| / 100000000 := log_near hx

/-! ### C91: atan and atan2 -/

theorem C91_atan (x : ℝ) :
    ∃ v, Gives (fun fuel => atan id fuel x) v ∧ |v - Real.arctan x| ≤ 1 / 20000 := by
  obtain ⟨v, h1, h2, -⟩ := atan_near x
  refine ⟨v, ⟨4, fun fuel hf => ?_⟩, h2⟩
  obtain ⟨k, rfl⟩ : ∃ k, fuel = k + 4 := ⟨fuel - 4, by omega⟩
  exact h1 k

/-- `atan2` is the polar angle of the point: the angle `θ` in `(-π, π]` with `x = r cos θ`, `y = r sin θ`. -/
theorem C91_atan2 (y x : ℝ) (h : ¬ (x = 0 ∧ y = 0)) :
    ∃ v θ, Gives (fun fuel => atan2 id fuel y x) v ∧ |v - θ| ≤ 1 / 19000 ∧ -Real.pi < θ ∧ θ ≤ Real.pi ∧
      x = Real.sqrt (x ^ 2 + y ^ 2) * Real.cos θ ∧ y = Real.sqrt (x ^ 2 + y ^ 2) * Real.sin θ := by
  obtain ⟨p1, p2⟩ := mPi_near
  have hpi := Real.pi_pos
  rw [abs_le] at p1 p2
  rcases lt_trichotomy x 0 with hx | rfl | hx
  · obtain ⟨v, ⟨N, hv⟩, he⟩ := C91_atan (y / x)
    obtain ⟨c, s⟩ := polar_of_arctan (y := y) hx.ne
    rw [abs_of_neg hx] at c s
    have l1 := Real.neg_pi_div_two_lt_arctan (y / x)
    have l2 := Real.arctan_lt_pi_div_two (y / x)
    rw [abs_le] at he
    have s' : y = Real.sqrt (x ^ 2 + y ^ 2) * -Real.sin (Real.arctan (y / x)) := by
      have : -x * (y / x) = -y := by rw [neg_mul, mul_div_cancel₀ _ hx.ne]
      linarith
    by_cases hy : 0 ≤ y
    · refine ⟨v + mPi id, Real.arctan (y / x) + Real.pi, ⟨N, fun fuel hf => ?_⟩, ?_, by linarith, ?_, ?_, ?_⟩
      · have := hv fuel hf
        simp only [atan2, if_neg (not_lt.mpr hx.le), if_pos (And.intro hy hx),
          M.bind_apply, fdiv_ok hx.ne, id, this, M.pure_apply, fadd]
      · rw [abs_le]; constructor <;> linarith
      · have : Real.arctan (y / x) ≤ 0 := by
          rw [← Real.arctan_zero]
          exact Real.arctan_strictMono.monotone (div_nonpos_of_nonneg_of_nonpos hy hx.le)
        linarith
      · rw [Real.cos_add_pi]; linarith
      · rw [Real.sin_add_pi]; exact s'
    · have hy' : y < 0 := not_le.mp hy
      refine ⟨v - mPi id, Real.arctan (y / x) - Real.pi, ⟨N, fun fuel hf => ?_⟩, ?_, ?_, by linarith, ?_, ?_⟩
      · have := hv fuel hf
        simp only [atan2, if_neg (not_lt.mpr hx.le), if_neg (by simp [hy'] : ¬ (0 ≤ y ∧ x < 0)),
          if_pos (And.intro hy' hx), M.bind_apply, fdiv_ok hx.ne, id, this, M.pure_apply, fsub]
      · rw [abs_le]; constructor <;> linarith
      · have : 0 < Real.arctan (y / x) := by
          rw [← Real.arctan_zero]
          exact Real.arctan_strictMono (div_pos_of_neg_of_neg hy' hx)
        linarith
      · rw [Real.cos_sub_pi]; linarith
      · rw [Real.sin_sub_pi]; exact s'
  · have hy : y ≠ 0 := fun e => h ⟨rfl, e⟩
    have hr : Real.sqrt ((0 : ℝ) ^ 2 + y ^ 2) = |y| := by
      rw [show (0 : ℝ) ^ 2 + y ^ 2 = y ^ 2 by ring, Real.sqrt_sq_eq_abs]
    rw [hr]
    rcases lt_or_gt_of_ne hy with hy | hy
    · refine ⟨-mPi2 id, -(Real.pi / 2), ⟨0, fun fuel _ => by simp [atan2, hy, not_lt.mpr hy.le]⟩, ?_, by linarith,
        by linarith, ?_, ?_⟩
      · rw [abs_le]; constructor <;> linarith
      · rw [Real.cos_neg, Real.cos_pi_div_two, mul_zero]
      · rw [Real.sin_neg, Real.sin_pi_div_two, abs_of_neg hy]; ring
    · refine ⟨mPi2 id, Real.pi / 2, ⟨0, fun fuel _ => by simp [atan2, hy, hy.le]⟩, ?_, by linarith,
        by linarith, ?_, ?_⟩
      · rw [abs_le]; constructor <;> linarith
      · rw [Real.cos_pi_div_two, mul_zero]
      · rw [Real.sin_pi_div_two, abs_of_pos hy, mul_one]
  · obtain ⟨v, ⟨N, hv⟩, he⟩ := C91_atan (y / x)
    obtain ⟨c, s⟩ := polar_of_arctan (y := y) hx.ne'
    rw [abs_of_pos hx] at c s
    have l1 := Real.neg_pi_div_two_lt_arctan (y / x)
    have l2 := Real.arctan_lt_pi_div_two (y / x)
    refine ⟨v, Real.arctan (y / x), ⟨N, fun fuel hf => ?_⟩, by linarith, by linarith, by linarith, c, ?_⟩
    · have := hv fuel hf
      simp only [atan2, if_pos hx, M.bind_apply, fdiv_ok hx.ne', id, this]
    · rw [← s]; field_simp

/-! ### C92, C93: absolute value, argument and exponential of a complex number -/

theorem C92_complex_abs (x y : ℝ) :
    ∃ v, Gives (fun fuel => complexAbs id fuel x y) v ∧
      |v - Real.sqrt (x ^ 2 + y ^ 2)| ≤ 51 / 100000 * Real.sqrt (x ^ 2 + y ^ 2) := by
  by_cases h0 : max |x| |y| = 0
  · have hx : x = 0 := by
      have := le_max_left |x| |y|
      rw [h0] at this; exact abs_nonpos_iff.mp this
    have hy : y = 0 := by
      have := le_max_right |x| |y|
      rw [h0] at this; exact abs_nonpos_iff.mp this
    subst hx hy
    exact ⟨0, ⟨0, fun fuel _ => by simp [complexAbs, abs]⟩, by simp⟩
  · set s := max |x| |y| with hs
    have s0 : 0 < s := lt_of_le_of_ne ((abs_nonneg x).trans (le_max_left _ _)) (Ne.symm h0)
    have hq : 0 < x / s * (x / s) + y / s * (y / s) := by
      have : x ≠ 0 ∨ y ≠ 0 := by
        by_contra hc
        push Not at hc
        rw [hc.1, hc.2] at hs
        simp at hs
        exact h0 hs
      rcases this with h | h
      · have : 0 < x / s * (x / s) := mul_self_pos.mpr (div_ne_zero h h0)
        nlinarith [mul_self_nonneg (y / s)]
      · have : 0 < y / s * (y / s) := mul_self_pos.mpr (div_ne_zero h h0)
        nlinarith [mul_self_nonneg (x / s)]
    obtain ⟨r, r0, -, r2, N, hr⟩ := sqrt_val hq
    have hsq : Real.sqrt (x ^ 2 + y ^ 2) = s * Real.sqrt (x / s * (x / s) + y / s * (y / s)) := by
      rw [show x ^ 2 + y ^ 2 = s ^ 2 * (x / s * (x / s) + y / s * (y / s)) by field_simp,
        Real.sqrt_mul (sq_nonneg s), Real.sqrt_sq s0.le]
    refine ⟨s * r, ⟨N, fun fuel hf => ?_⟩, ?_⟩
    · have := hr fuel hf
      simp only [complexAbs, abs_eq, ← hs, if_neg h0, M.bind_apply, fdiv_ok h0, id, fadd, fmul, this, M.pure_apply]
    · rw [hsq, ← mul_sub, abs_mul, abs_of_pos s0]
      nlinarith

/-- The argument: an angle of the point, as for `atan2`. -/
theorem C92_complex_arg (x y : ℝ) (h : ¬ (x = 0 ∧ y = 0)) :
    ∃ v, Gives (fun fuel => complexArg id fuel x y) v ∧ |v - Complex.arg ⟨x, y⟩| ≤ 1 / 19000 := by
  obtain ⟨v, θ, h1, h2, h3, h4, h5, h6⟩ := C91_atan2 y x h
  refine ⟨v, h1, ?_⟩
  have hr : 0 < Real.sqrt (x ^ 2 + y ^ 2) := by
    apply Real.sqrt_pos.mpr
    by_contra hc
    exact h ⟨by nlinarith [sq_nonneg x, sq_nonneg y], by nlinarith [sq_nonneg x, sq_nonneg y]⟩
  have e : (⟨x, y⟩ : ℂ) = (Real.sqrt (x ^ 2 + y ^ 2) : ℝ) * (Complex.cos θ + Complex.sin θ * Complex.I) := by
    apply Complex.ext
    · simp [Complex.cos_ofReal_re, Complex.sin_ofReal_re, Complex.sin_ofReal_im]; exact h5
    · simp [Complex.cos_ofReal_im, Complex.sin_ofReal_re]; exact h6
  rw [e, Complex.arg_mul_cos_add_sin_mul_I hr ⟨h3, h4⟩]
  exact h2

/-- The exponential: each component within `(2|im| + 200) / 10^6` of the true one, relative to `e^re`. -/
theorem C93_complex_exp {x : ℝ} (hx : |x| ≤ 1000000) (y : ℝ) :
    ∃ a b, Gives (fun fuel => complexExp id fuel x y) (a, b) ∧
      |a - (Complex.exp ⟨x, y⟩).re| ≤ (2 * |y| + 200) / 1000000 * Real.exp x ∧
      |b - (Complex.exp ⟨x, y⟩).im| ≤ (2 * |y| + 200) / 1000000 * Real.exp x := by
  obtain ⟨e, he, hb⟩ := C89_exp hx
  obtain ⟨c, ⟨N1, hc⟩, cb⟩ := C87_cos y
  obtain ⟨s, ⟨N2, hs⟩, sb⟩ := C87_sin y
  have hE := Real.exp_pos x
  have hy := abs_nonneg y
  have hc1 := Real.abs_cos_le_one y
  have hs1 := Real.abs_sin_le_one y
  have bound : ∀ t T : ℝ, |T| ≤ 1 → |t - T| ≤ (|y| + 6) / 1000000 →
      |e * t - Real.exp x * T| ≤ (2 * |y| + 200) / 1000000 * Real.exp x := by
    intro t T hT ht
    have e1 : e * t - Real.exp x * T = e * (t - T) + (e - Real.exp x) * T := by ring
    have e2 : |e| ≤ 2 * Real.exp x := by
      have := abs_sub_abs_le_abs_sub e (Real.exp x)
      rw [abs_of_pos hE] at this
      linarith
    rw [e1]
    refine (abs_add_le _ _).trans ?_
    rw [abs_mul, abs_mul]
    have f1 : |e| * |t - T| ≤ 2 * Real.exp x * ((|y| + 6) / 1000000) := by
      apply mul_le_mul e2 ht (abs_nonneg _) (by positivity)
    have f2 : |e - Real.exp x| * |T| ≤ 1 / 10000 * Real.exp x * 1 := by
      apply mul_le_mul hb hT (abs_nonneg _) (by positivity)
    nlinarith
  refine ⟨e * c, e * s, ⟨max N1 N2, fun fuel hf => ?_⟩, ?_, ?_⟩
  · have g1 := hc fuel (le_trans (le_max_left _ _) hf)
    have g2 := hs fuel (le_trans (le_max_right _ _) hf)
    simp only [complexExp, polar, M.bind_apply, he, g1, g2, M.pure_apply, fmul, id]
  · rw [Complex.exp_re]
    exact bound c _ hc1 cb
  · rw [Complex.exp_im]
    exact bound s _ hs1 (by linarith)

/-- The accuracy theorems apply to particular arguments: a bound on the computed value of `cos 2`. -/
example : ∃ v, Gives (fun fuel => cos id fuel 2) v ∧ |v - Real.cos 2| ≤ 1 / 100000 := by
  obtain ⟨v, h1, h2⟩ := C87_cos 2
  refine ⟨v, h1, h2.trans ?_⟩
  rw [abs_of_pos (by norm_num)]; norm_num
example : ¬ ((3 : ℝ) = 0 ∧ (-4 : ℝ) = 0) := by norm_num
example : ∃ v, exp id (-70 : ℝ) () = .ok v () ∧ |v - Real.exp (-70)| ≤ 1 / 10000 * Real.exp (-70) :=
  C89_exp (by rw [abs_of_neg] <;> norm_num)

end Cest.Cmath.Props
