import Verif.ComplexFn.IeeeModel
import Verif.Ieee.Props
import Verif.Ieee.SinProps

/-! Lemmas for C157 and C158: the complex functions over all doubles. -/
namespace Cest.ComplexFn.Ieee
open Cest Cest.Ieee Cest.Ieee.D Cest.Ieee.Props
open Cest.Cmath (FM Gives IsDouble RoundsToNearest RoundsTiesEven)
open Cest.Fp (u u_pos u_lt)
open Classical

variable {ρ : ℝ → ℝ}

/-! ### composing calls -/

/-- A call that comes back, followed by something. -/
theorem gives_bind {α β : Type} {f : ℕ → FM α} {g : ℕ → α → FM β} {a : α} {b : β} (h : Gives f a)
    (h' : Gives (fun fuel => g fuel a) b) : Gives (fun fuel => f fuel >>= g fuel) b := by
  obtain ⟨N, hN⟩ := h
  obtain ⟨N', hN'⟩ := h'
  refine ⟨max N N', fun fuel hf => ?_⟩
  have h1 := hN fuel ((le_max_left _ _).trans hf)
  have h2 := hN' fuel ((le_max_right _ _).trans hf)
  simp only [M.bind_apply, h1]
  exact h2

theorem gives_pure {α : Type} {a : α} : Gives (fun _ => (pure a : FM α)) a := ⟨0, fun _ _ => rfl⟩

/-- A call that never comes back. -/
theorem never_bind {α β : Type} {f : ℕ → FM α} {g : ℕ → α → FM β} (h : Never f) : Never (fun fuel => f fuel >>= g fuel) := by
  intro fuel
  simp only [M.bind_apply, h fuel]

/-- Something, followed by a call that never comes back whatever it is called with; the something returns or does
not. -/
def Calm {α : Type} (f : ℕ → FM α) : Prop := ∀ fuel, (∃ a, f fuel () = .ok a ()) ∨ f fuel () = .timeout

theorem never_then {α β : Type} {f : ℕ → FM α} {g : ℕ → α → FM β} (hc : Calm f) (h : ∀ a, Never (fun fuel => g fuel a)) :
    Never (fun fuel => f fuel >>= g fuel) := by
  intro fuel
  rcases hc fuel with ⟨a, ha⟩ | ht
  · simp only [M.bind_apply, ha]; exact h a fuel
  · simp only [M.bind_apply, ht]

theorem calm_bind {α β : Type} {f : ℕ → FM α} {g : ℕ → α → FM β} (hc : Calm f) (h : ∀ a, Calm (fun fuel => g fuel a)) :
    Calm (fun fuel => f fuel >>= g fuel) := by
  intro fuel
  rcases hc fuel with ⟨a, ha⟩ | ht
  · simp only [M.bind_apply, ha]; exact h a fuel
  · right; simp only [M.bind_apply, ht]

/-! ### which calls return or run out of fuel -/

theorem sinHelper_or (fuel : ℕ) : ∀ A : D, (∃ v, sinHelper ρ fuel A () = .ok v ()) ∨ sinHelper ρ fuel A () = .timeout := by
  induction fuel with
  | zero => intro A; exact Or.inr rfl
  | succ n ih =>
    intro A
    by_cases hc : lt A (tol ρ)
    · exact Or.inl ⟨A, sinHelper_stop hc n⟩
    · rcases ih (div ρ A (fin 3)) with ⟨v, h⟩ | h
      · exact Or.inl ⟨_, sinHelper_rec hc h⟩
      · right
        rw [sinHelper, if_neg hc]
        simp only [M.bind_apply, h]

theorem calm_sin (A : D) : Calm (fun fuel => sin ρ fuel A) := fun fuel => sinHelper_or fuel _
theorem calm_cos (A : D) : Calm (fun fuel => cos ρ fuel A) := fun fuel => sinHelper_or fuel _
theorem calm_sinh (A : D) : Calm (fun fuel => sinh ρ fuel A) := fun fuel => sinh_or fuel A
theorem calm_sqrt (A : D) : Calm (fun fuel => sqrt ρ fuel A) := fun fuel => sqrt_or fuel _ _
theorem calm_cosh (A : D) : Calm (fun fuel => cosh ρ fuel A) :=
  calm_bind (g := fun fuel a => sqrt ρ fuel (add ρ (fin 1) (square ρ a))) (calm_sinh A) fun _ => calm_sqrt _
theorem calm_abs (X Y : D) : Calm (fun fuel => complexAbs ρ fuel X Y) := by
  intro fuel
  simp only [complexAbs]
  split
  · exact Or.inl ⟨_, rfl⟩
  · exact calm_bind (calm_sqrt _) (fun a f => Or.inl ⟨_, rfl⟩) fuel

/-- More fuel does not change the result of `abs`. -/
theorem abs_mono {X Y V : D} {n m : ℕ} (h : complexAbs ρ n X Y () = .ok V ()) (hm : n ≤ m) :
    complexAbs ρ m X Y () = .ok V () := by
  simp only [complexAbs] at h ⊢
  split at h
  · rename_i c; rw [if_pos c]; exact h
  · rename_i c
    rw [if_neg c]
    rcases calm_sqrt (ρ := ρ) (add ρ (mul ρ (div ρ X (stdMax (abs X) (abs Y))) (div ρ X (stdMax (abs X) (abs Y))))
      (mul ρ (div ρ Y (stdMax (abs X) (abs Y))) (div ρ Y (stdMax (abs X) (abs Y))))) n with ⟨w, hw⟩ | ht
    · rw [M.bind_of_ok hw] at h
      rw [M.bind_of_ok (sqrt_mono hw hm)]
      exact h
    · simp [M.bind_apply, ht] at h

theorem abs_unique {X Y V W : D} {n : ℕ} (h : complexAbs ρ n X Y () = .ok V ()) (h' : Gives (fun fuel => complexAbs ρ fuel X Y) W) :
    V = W := by
  obtain ⟨N, hN⟩ := h'
  have h1 := hN (max n N) (le_max_right _ _)
  have h2 := abs_mono h (le_max_left n N)
  simp only [h2] at h1
  injection h1

/-- The result of `abs` is a double. -/
theorem abs_valid (hr : RoundsToNearest ρ) {X Y V : D} (hX : Valid X) (hY : Valid Y) {n : ℕ} (h : complexAbs ρ n X Y () = .ok V ()) : Valid V := by
  have va : ∀ {A : D}, Valid A → Valid (abs A) := by
    intro A hA
    unfold D.abs
    split
    · exact valid_neg hA
    · exact hA
  simp only [complexAbs] at h
  split at h
  · injection h with h
    rw [← h]
    unfold stdMax
    split
    · exact va hY
    · exact va hX
  · rcases calm_sqrt (ρ := ρ) (add ρ (mul ρ (div ρ X (stdMax (abs X) (abs Y))) (div ρ X (stdMax (abs X) (abs Y))))
      (mul ρ (div ρ Y (stdMax (abs X) (abs Y))) (div ρ Y (stdMax (abs X) (abs Y))))) n with ⟨w, hw⟩ | ht
    · rw [M.bind_of_ok hw] at h
      injection h with h
      rw [← h]
      exact valid_mul hr
    · simp [M.bind_apply, ht] at h

/-! ### the four circular and hyperbolic functions -/

theorem trig_returns (hr : RoundsToNearest ρ) {A B : D} (hA : Valid A) (hB : Valid B) (h1 : A.Finite)
    (h2 : Returns (fun fuel => cosh ρ fuel B)) (hf : B.Finite) :
    Returns (fun fuel => complexCos ρ fuel A B) ∧ Returns (fun fuel => complexSin ρ fuel A B) ∧
    Returns (fun fuel => complexCosh ρ fuel B A) ∧ Returns (fun fuel => complexSinh ρ fuel B A) := by
  obtain ⟨C, hC⟩ := cos_gives hr h1.is hA
  obtain ⟨S, hS⟩ := sin_gives hr h1.is hA
  obtain ⟨H, -, hH⟩ := sinh_gives hr hf.is hB
  obtain ⟨K, hK⟩ := h2
  exact ⟨⟨_, gives_bind hC (gives_bind hK (gives_bind hS (gives_bind hH gives_pure)))⟩,
    ⟨_, gives_bind hS (gives_bind hK (gives_bind hC (gives_bind hH gives_pure)))⟩,
    ⟨_, gives_bind hK (gives_bind hC (gives_bind hH (gives_bind hS gives_pure)))⟩,
    ⟨_, gives_bind hH (gives_bind hC (gives_bind hK (gives_bind hS gives_pure)))⟩⟩

theorem trig_never {A B : D} (h : ¬ A.Finite ∨ Never (fun fuel => cosh ρ fuel B)) :
    Never (fun fuel => complexCos ρ fuel A B) ∧ Never (fun fuel => complexSin ρ fuel A B) ∧
    Never (fun fuel => complexCosh ρ fuel B A) ∧ Never (fun fuel => complexSinh ρ fuel B A) := by
  rcases h with h | h
  · have hc : Never (fun fuel => cos ρ fuel A) := fun fuel => cos_diverges h fuel
    have hs : Never (fun fuel => sin ρ fuel A) := fun fuel => sin_diverges h fuel
    exact ⟨never_bind hc, never_bind hs, never_then (calm_cosh B) fun _ => never_bind hc,
      never_then (calm_sinh B) fun _ => never_bind hc⟩
  · exact ⟨never_then (calm_cos A) fun _ => never_bind h, never_then (calm_sin A) fun _ => never_bind h, never_bind h,
      never_then (calm_sinh B) fun _ => never_then (calm_cos A) fun _ => never_bind h⟩

/-! ### absolute value -/

theorem norm_eq (x y : ℝ) : ‖(⟨x, y⟩ : ℂ)‖ = Real.sqrt (x ^ 2 + y ^ 2) := by
  rw [Complex.norm_def, Complex.normSq_apply]
  congr 1; ring

theorem tiny_lt_lim : (1 : ℝ) / 2 ^ 1075 ≤ 1 / 10 ^ 6 * lim := by
  have hl := lim_big
  have : (1 : ℝ) / 2 ^ 1075 ≤ 1 := by rw [div_le_one (by positivity)]; exact one_le_pow₀ (by norm_num)
  generalize (1 : ℝ) / 2 ^ 1075 = g at *
  norm_num at hl ⊢
  linarith

/-- A number whose absolute value is beyond the range by more than the error: the result is infinite. -/
theorem abs_over (hr : RoundsToNearest ρ) {X Y : D} {x y : ℝ} (hX : Is X x) (hY : Is Y y) (vX : Valid X) (vY : Valid Y)
    (h : (1 + 53 / 100000) * lim ≤ ‖(⟨x, y⟩ : ℂ)‖) : Gives (fun fuel => complexAbs ρ fuel X Y) (inf false) := by
  rcases C136_complex_abs hr hX hY with ⟨V, v, hV, ⟨N, g⟩, hb⟩ | ⟨g, -⟩
  · exfalso
    have h1 := isDouble_lt_lim (hV.double (abs_valid hr vX vY (g N le_rfl)))
    have h2 := tiny_lt_lim
    have hl := lim_big
    norm_num at hl
    generalize (1 : ℝ) / 2 ^ 1075 = c at *
    have h3 := (abs_le.mp hb).1
    have h4 := (abs_lt.mp h1).2
    generalize lim = L at *
    linarith
  · exact g

/-- A number whose absolute value is within the range by more than the error: the result is finite. -/
theorem abs_within (hr : RoundsToNearest ρ) {X Y : D} {x y : ℝ} (hX : Is X x) (hY : Is Y y)
    (h : ‖(⟨x, y⟩ : ℂ)‖ < (1 - 52 / 100000) * lim) : ∃ V v, Is V v ∧ Gives (fun fuel => complexAbs ρ fuel X Y) V ∧
      |v - ‖(⟨x, y⟩ : ℂ)‖| ≤ 52 / 100000 * ‖(⟨x, y⟩ : ℂ)‖ + 1 / 2 ^ 1075 := by
  rcases C136_complex_abs hr hX hY with h1 | ⟨-, h1⟩
  · exact h1
  · exact absurd h (not_lt.mpr h1)

/-! ### logarithm -/

theorem log_returns (hr : RoundsToNearest ρ) {X Y : D} (vX : Valid X) (vY : Valid Y) (hX : X.Finite) (hY : Y.Finite)
    (h : ¬ Gives (fun fuel => complexAbs ρ fuel X Y) (inf false)) : Returns (fun fuel => complexLog ρ fuel X Y) := by
  rcases C136_complex_abs hr hX.is hY.is with ⟨V, v, hV, g, -⟩ | ⟨g, -⟩
  · obtain ⟨N, hN⟩ := id g
    have vV := abs_valid hr vX vY (hN N le_rfl)
    obtain ⟨l, hl⟩ := (C135_log hr vV).1.mpr ⟨hV.ne_nan, by rintro rfl; rcases hV.1 with e | ⟨_, e⟩ <;> cases e⟩
    obtain ⟨t, ht⟩ := (C135_atan2 hr (Y := Y) (X := X)).1.mpr (by
      rintro (⟨-, rfl⟩ | ⟨⟨s, rfl⟩, -⟩)
      · rcases hY with e | ⟨_, e⟩ <;> cases e
      · rcases hX with e | ⟨_, e⟩ <;> cases e)
    exact ⟨_, gives_bind g (gives_bind hl (gives_bind (f := fun fuel => complexArg ρ fuel X Y) ht gives_pure))⟩
  · exact absurd g h

theorem log_over (hr : RoundsToNearest ρ) {X Y : D} (h : Gives (fun fuel => complexAbs ρ fuel X Y) (inf false)) :
    Never (fun fuel => complexLog ρ fuel X Y) := by
  intro fuel
  simp only [complexLog]
  rcases calm_abs (ρ := ρ) X Y fuel with ⟨V, hV⟩ | ht
  · rw [M.bind_of_ok hV, abs_unique hV h]
    simp only [M.bind_apply, log_inf hr fuel]
  · simp only [M.bind_apply, ht]

theorem log_zero_nan {X : D} (h : Is X 0) (fuel : ℕ) : complexLog ρ fuel X nan () = .ok (inf true, fin 0) () := by
  obtain ⟨Z, hZ, e⟩ := complexAbs_zero_nan (ρ := ρ) h fuel
  simp only [complexLog]
  have h2 : complexArg ρ fuel X nan () = .ok (fin 0) () :=
    atan2_nan (Or.inr ⟨rfl, fun hc => absurd (((is_fin 0).lt h).mp hc) (lt_irrefl _)⟩) fuel
  rw [M.bind_of_ok e, M.bind_of_ok (log_zero fuel hZ), M.bind_of_ok h2]
  rfl

/-! ### square root -/

theorem re_le (x y : ℝ) : |x| ≤ ‖(⟨x, y⟩ : ℂ)‖ := Complex.abs_re_le_norm ⟨x, y⟩
theorem im_le (x y : ℝ) : |y| ≤ ‖(⟨x, y⟩ : ℂ)‖ := Complex.abs_im_le_norm ⟨x, y⟩

/-- The absolute value of a double other than zero. -/
theorem norm_ge {x y : ℝ} (hx : IsDouble x) (hy : IsDouble y) (h : ¬ (x = 0 ∧ y = 0)) : 1 / 2 ^ 1074 ≤ ‖(⟨x, y⟩ : ℂ)‖ := by
  have key : ∀ {d : ℝ}, IsDouble d → d ≠ 0 → 1 / 2 ^ 1074 ≤ |d| := fun {d} hd h0 =>
    Fp.isDouble_ge (by rcases abs_choice d with e | e <;> rw [e]; exacts [hd, hd.neg]) (abs_pos.mpr h0)
  by_cases h0 : x = 0
  · exact (key hy fun h1 => h ⟨h0, h1⟩).trans (im_le x y)
  · exact (key hx h0).trans (re_le x y)

/-- The computed absolute value is positive. -/
theorem abs_value_pos {x y v : ℝ} (hx : IsDouble x) (hy : IsDouble y) (h : ¬ (x = 0 ∧ y = 0))
    (hb : |v - ‖(⟨x, y⟩ : ℂ)‖| ≤ 52 / 100000 * ‖(⟨x, y⟩ : ℂ)‖ + 1 / 2 ^ 1075) : 0 < v := by
  have h1 := norm_ge hx hy h
  have h2 : (1 : ℝ) / 2 ^ 1074 = 2 * (1 / 2 ^ 1075) := by
    rw [show (2 : ℝ) ^ 1075 = 2 ^ 1074 * 2 from pow_succ _ _]; field_simp
  have h3 : (0 : ℝ) < 1 / 2 ^ 1075 := by positivity
  rw [h2] at h1
  generalize (1 : ℝ) / 2 ^ 1075 = g at *
  have := (abs_le.mp hb).1
  linarith

theorem half_is {Y : D} {y : ℝ} (hY : Is Y y) (vY : Valid Y) : Is (div ρ (abs Y) (fin 2)) (ρ (|y| / 2)) := by
  refine Is.div (ρ := ρ) hY.abs (is_fin 2) (by norm_num) ?_
  rw [abs_of_nonneg (by positivity)]
  have := isDouble_lt_lim (hY.double vY)
  have h0 := abs_nonneg y
  linarith

theorem sqrt_imag_iff (hr : RoundsToNearest ρ) {X Y : D} {y : ℝ} (hX : Is X 0) (hY : Is Y y) (vY : Valid Y) :
    (Returns (fun fuel => complexSqrt ρ fuel X Y) ↔ 0 < ρ (|y| / 2)) ∧
    (Never (fun fuel => complexSqrt ρ fuel X Y) ↔ ¬ 0 < ρ (|y| / 2)) := by
  have e : eq X (fin 0) := (hX.eq (is_fin 0)).mpr rfl
  have hh := half_is (ρ := ρ) hY vY
  refine returns_iff ?_ ?_
  · intro h
    obtain ⟨R, r, -, -, -, g⟩ := sqrt_pos hr hh (hr.double _) h
    refine ⟨(R, if lt Y (fin 0) then neg R else R), ?_⟩
    simp only [complexSqrt, if_pos e]
    exact gives_bind g gives_pure
  · intro h
    have : Never (fun fuel => sqrt ρ fuel (div ρ (abs Y) (fin 2))) := fun fuel => sqrt_nonpos hr hh (not_lt.mp h) fuel
    intro fuel
    simp only [complexSqrt, if_pos e]
    simp only [M.bind_apply, this fuel]

theorem sqrt_not_finite {X Y : D} (h : ¬ (X.Finite ∧ Y.Finite)) : Never (fun fuel => complexSqrt ρ fuel X Y) := by
  intro fuel
  by_cases e : eq X (fin 0)
  · simp only [complexSqrt, if_pos e]
    have hX : X.Finite := by
      rcases trichotomy X with rfl | rfl | rfl | ⟨x, hx⟩
      · simp at e
      · have := e.2.2; simp [D.ext] at this
      · have := e.2.2; simp [D.ext] at this
      · exact hx.1
    have hY : ¬ Y.Finite := fun hy => h ⟨hX, hy⟩
    have hs : sqrt ρ fuel (div ρ (abs Y) (fin 2)) () = .timeout := by
      rcases trichotomy Y with rfl | rfl | rfl | ⟨y, hy⟩
      · rw [abs_nan, nan_div]; exact sqrt_nan fuel
      · rw [abs_inf, inf_div (is_fin 2)]; exact sqrt_inf _ fuel
      · rw [abs_inf, inf_div (is_fin 2)]; exact sqrt_inf _ fuel
      · exact absurd hy.1 hY
    simp only [M.bind_apply, hs]
  · simp only [complexSqrt, if_neg e]
    have := complexAbs_diverges (ρ := ρ) h (fun hc => e ((hc.1.eq (is_fin 0)).mpr rfl)) fuel
    simp only [M.bind_apply, this]

/-- The number under the root: twice the sum of the absolute value and the size of the real part. -/
theorem radicand (hr : RoundsToNearest ρ) {V X : D} {v x : ℝ} (hV : Is V v) (hX : Is X x) (vX : Valid X) (x0 : x ≠ 0) (v0 : 0 < v)
    (h : |(v + |x|)| < lim) (h2 : |2 * ρ (v + |x|)| < lim) :
    Is (mul ρ (fin 2) (add ρ V (abs X))) (ρ (2 * ρ (v + |x|))) ∧ 0 < ρ (2 * ρ (v + |x|)) := by
  have h3 : Is (add ρ V (abs X)) (ρ (v + |x|)) := hV.add hr hX.abs h
  refine ⟨Is.mul (ρ := ρ) (is_fin 2) h3 h2, ?_⟩
  have p := abs_pos.mpr x0
  have d : IsDouble |x| := by
    have := hX.double vX
    rcases abs_choice x with e | e <;> rw [e]
    exacts [this, this.neg]
  have h4 : |x| ≤ ρ (v + |x|) := hr.ge_of_ge d (by linarith)
  have h5 : |x| ≤ ρ (2 * ρ (v + |x|)) := hr.ge_of_ge d (by linarith)
  linarith

/-- Up to 0.999·2^1022 the number under the root does not overflow. -/
theorem radicand_within (hr : RoundsToNearest ρ) {X Y : D} {x y : ℝ} (hX : Is X x) (hY : Is Y y) (vX : Valid X) (vY : Valid Y)
    (x0 : x ≠ 0) (h : ‖(⟨x, y⟩ : ℂ)‖ ≤ 999 / 1000 * 2 ^ 1022) :
    ∃ V v, Is V v ∧ Gives (fun fuel => complexAbs ρ fuel X Y) V ∧
      |v - ‖(⟨x, y⟩ : ℂ)‖| ≤ 52 / 100000 * ‖(⟨x, y⟩ : ℂ)‖ + 1 / 2 ^ 1075 ∧ 0 < v ∧
      |(v + |x|)| < lim ∧ |2 * ρ (v + |x|)| < lim := by
  have hl : lim = 4 * 2 ^ 1022 * (1 - 1 / 2 ^ 54) := by
    rw [lim, show (2 : ℝ) ^ 1024 = 2 ^ 1022 * 2 ^ 2 by rw [← pow_add], show (2 : ℝ) ^ 970 = 2 ^ 1022 * 2 ^ 2 / 2 ^ 54 by
      rw [← pow_add, eq_div_iff (by positivity), ← pow_add]]
    ring
  have tiny : (1 : ℝ) / 2 ^ 1075 ≤ 1 / 10 ^ 6 * 2 ^ 1022 := by
    have : (1 : ℝ) / 2 ^ 1075 ≤ 1 := by rw [div_le_one (by positivity)]; exact one_le_pow₀ (by norm_num)
    have k : (2 : ℝ) ^ 20 ≤ 2 ^ 1022 := pow_le_pow_right₀ (by norm_num) (by norm_num)
    generalize (2 : ℝ) ^ 1022 = B at *
    generalize (1 : ℝ) / 2 ^ 1075 = c at *
    norm_num at k ⊢
    linarith
  have d22 : IsDouble (2 * (2 : ℝ) ^ 1022) := by
    rw [← pow_succ']; exact isDouble_pow2 (by norm_num)
  obtain ⟨V, v, hV, g, hb⟩ := abs_within hr hX hY (by
    have k : (0 : ℝ) < 2 ^ 1022 := by positivity
    generalize (2 : ℝ) ^ 1022 = B at *
    norm_num at hl ⊢
    linarith)
  have v0 := abs_value_pos (hX.double vX) (hY.double vY) (fun hc => x0 hc.1) hb
  have hx := re_le x y
  have x1 := abs_nonneg x
  have s1 : v + |x| ≤ 19995 / 10000 * 2 ^ 1022 := by
    have := (abs_le.mp hb).2
    generalize (2 : ℝ) ^ 1022 = B at *
    generalize (1 : ℝ) / 2 ^ 1075 = c at *
    linarith
  have B0 : (0 : ℝ) < 2 ^ 1022 := by positivity
  have hu := u_pos
  have hu1 := u_lt
  norm_num at hu1
  have s2 : ρ (v + |x|) ≤ 1999501 / 1000000 * 2 ^ 1022 := by
    have n1 := norm_ge (hX.double vX) (hY.double vY) (fun hc => x0 hc.1)
    have r := round_err_lim hr (t := v + |x|) (by
      rw [abs_of_nonneg (by linarith)]
      generalize (2 : ℝ) ^ 1022 = B at *
      norm_num at hl
      linarith)
    rw [abs_of_nonneg (by linarith : 0 ≤ v + |x|)] at r
    have := (abs_le.mp r).2
    have hη : CxFp.η ≤ 1 / 10 ^ 7 * 2 ^ 1022 := by
      have : CxFp.η ≤ 1 := by
        rw [CxFp.η, div_le_one (by positivity)]; exact one_le_pow₀ (by norm_num)
      have k : (2 : ℝ) ^ 30 ≤ 2 ^ 1022 := pow_le_pow_right₀ (by norm_num) (by norm_num)
      generalize CxFp.η = η at *
      generalize (2 : ℝ) ^ 1022 = B at *
      norm_num at k ⊢
      linarith
    generalize CxFp.η = η at *
    generalize (2 : ℝ) ^ 1022 = B at *
    nlinarith
  have s3 : 0 ≤ ρ (v + |x|) := hr.ge_of_ge Fp.isDouble_zero (by linarith)
  refine ⟨V, v, hV, g, hb, v0, ?_, ?_⟩
  · rw [abs_of_nonneg (by linarith)]
    generalize (2 : ℝ) ^ 1022 = B at *
    norm_num at hl
    linarith
  · rw [abs_of_nonneg (by linarith)]
    generalize (2 : ℝ) ^ 1022 = B at *
    norm_num at hl
    linarith

theorem sqrt_within (hr : RoundsToNearest ρ) {X Y : D} {x y : ℝ} (hX : Is X x) (hY : Is Y y) (vX : Valid X) (vY : Valid Y)
    (x0 : x ≠ 0) (h : ‖(⟨x, y⟩ : ℂ)‖ ≤ 999 / 1000 * 2 ^ 1022) : Returns (fun fuel => complexSqrt ρ fuel X Y) := by
  have e : ¬ eq X (fin 0) := fun hc => x0 ((hX.eq (is_fin 0)).mp hc)
  obtain ⟨V, v, hV, g, hb, v0, l1, l2⟩ := radicand_within hr hX hY vX vY x0 h
  obtain ⟨q1, q2⟩ := radicand hr hV hX vX x0 v0 l1 l2
  obtain ⟨R, r, -, -, -, g2⟩ := sqrt_pos hr q1 (hr.double _) q2
  by_cases c : lt (fin 0) X
  · refine ⟨(div ρ R (fin 2), div ρ Y R), ?_⟩
    simp only [complexSqrt, if_neg e, if_pos c]
    exact gives_bind g (gives_bind g2 gives_pure)
  · refine ⟨(div ρ (abs Y) R, if lt Y (fin 0) then neg (div ρ R (fin 2)) else div ρ R (fin 2)), ?_⟩
    simp only [complexSqrt, if_neg e, if_neg c]
    exact gives_bind g (gives_bind g2 gives_pure)

/-- From about 2^1022 on the number under the root overflows. -/
theorem sqrt_over (hr : RoundsToNearest ρ) {X Y : D} {x y : ℝ} (hX : Is X x) (hY : Is Y y)
    (h : 101 / 100 * 2 ^ 1022 ≤ |x|) : Never (fun fuel => complexSqrt ρ fuel X Y) := by
  have B0 : (0 : ℝ) < 2 ^ 1022 := by positivity
  have hl : lim ≤ 4 * 2 ^ 1022 := by
    rw [lim, show (2 : ℝ) ^ 1024 = 2 ^ 1022 * 2 ^ 2 by rw [← pow_add]]
    have : (0 : ℝ) ≤ 2 ^ 970 := by positivity
    generalize (2 : ℝ) ^ 1022 = B at *
    generalize (2 : ℝ) ^ 970 = c at *
    linarith
  have x0 : x ≠ 0 := by
    rintro rfl
    rw [abs_zero] at h
    generalize (2 : ℝ) ^ 1022 = B at *
    linarith
  have e : ¬ eq X (fin 0) := fun hc => x0 ((hX.eq (is_fin 0)).mp hc)
  -- whatever `abs` returns, the root does not return
  have key : ∀ V, Gives (fun fuel => complexAbs ρ fuel X Y) V → ∀ fuel, sqrt ρ fuel (mul ρ (fin 2) (add ρ V (abs X))) () = .timeout := by
    intro V g fuel
    have two : mul ρ (fin 2) (inf false) = inf false := by
      simp [D.mul, D.val, D.sign]
    rcases C136_complex_abs hr hX hY with ⟨V', v, hV, g', hb⟩ | ⟨g', -⟩
    · obtain ⟨N, hN⟩ := g
      have ev := abs_unique (hN N le_rfl) g'
      subst ev
      have tiny : (1 : ℝ) / 2 ^ 1075 ≤ 1 / 10 ^ 6 * 2 ^ 1022 := by
        have : (1 : ℝ) / 2 ^ 1075 ≤ 1 := by rw [div_le_one (by positivity)]; exact one_le_pow₀ (by norm_num)
        have k : (2 : ℝ) ^ 20 ≤ 2 ^ 1022 := pow_le_pow_right₀ (by norm_num) (by norm_num)
        generalize (2 : ℝ) ^ 1022 = B at *
        generalize (1 : ℝ) / 2 ^ 1075 = c at *
        norm_num at k ⊢
        linarith
      have hx := re_le x y
      have v1 : 1009 / 1000 * 2 ^ 1022 ≤ v := by
        have := (abs_le.mp hb).1
        generalize (2 : ℝ) ^ 1022 = B at *
        generalize (1 : ℝ) / 2 ^ 1075 = c at *
        linarith
      have v0 : 0 < v := by
        generalize (2 : ℝ) ^ 1022 = B at *
        linarith
      rcases lt_or_ge |(v + |x|)| lim with c | c
      · have h3 : Is (add ρ V (abs X)) (ρ (v + |x|)) := hV.add hr hX.abs c
        have d23 : IsDouble ((2 : ℝ) * 2 ^ 1022) := by rw [← pow_succ']; exact isDouble_pow2 (by norm_num)
        have h4 : 2 * 2 ^ 1022 ≤ ρ (v + |x|) := hr.ge_of_ge d23 (by
          generalize (2 : ℝ) ^ 1022 = B at *
          linarith)
        have h5 : lim ≤ |2 * ρ (v + |x|)| := by
          refine le_trans ?_ (le_abs_self _)
          generalize (2 : ℝ) ^ 1022 = B at *
          linarith
        have p : ¬ ρ (v + |x|) < 0 := by
          generalize (2 : ℝ) ^ 1022 = B at *
          linarith
        have : mul ρ (fin 2) (add ρ V (abs X)) = inf false := by
          rw [h3.eq_fin (by rintro h6; rw [h6] at h4; generalize (2 : ℝ) ^ 1022 = B at *; linarith), mul_fin (is_fin 2).1 (is_fin _).1]
          rw [show (fin 2).val = 2 from rfl, show (fin (ρ (v + |x|))).val = ρ (v + |x|) from rfl, pack_over h5]
          simp [D.sign, p]
        rw [this]
        exact sqrt_inf _ fuel
      · have : add ρ V (abs X) = inf false := by
          have pp : 0 < v + |x| := add_pos_of_pos_of_nonneg v0 (abs_nonneg x)
          have ne : v + |x| ≠ 0 := pp.ne'
          have np : ¬ v + |x| < 0 := not_lt.mpr pp.le
          rw [add_fin hV.1 hX.abs.1, addF, hV.2, hX.abs.2, if_neg ne, pack_over c]
          simp [np]
        rw [this, two]
        exact sqrt_inf _ fuel
    · obtain ⟨N, hN⟩ := g
      have ev := abs_unique (hN N le_rfl) g'
      subst ev
      have : add ρ (inf false) (abs X) = inf false := by
        rcases hX.abs.cases with ⟨e1, -⟩ | e1 <;> rw [e1] <;> rfl
      rw [this, two]
      exact sqrt_inf _ fuel
  obtain ⟨W, hW⟩ : Returns (fun fuel => complexAbs ρ fuel X Y) := (C135_complex_abs hr).1.mpr (Or.inl ⟨hX.1, hY.1⟩)
  intro fuel
  simp only [complexSqrt, if_neg e]
  rcases calm_abs (ρ := ρ) X Y fuel with ⟨V, hV⟩ | ht
  · have ev := abs_unique hV hW
    subst ev
    rw [M.bind_of_ok hV]
    simp only [M.bind_apply, key _ hW fuel]
  · simp only [M.bind_apply, ht]

end Cest.ComplexFn.Ieee
