import Verif.Ieee.Basic
import Verif.Fp.Sqrt

/-! `sqrt` over all values of `double`. -/
namespace Cest.Ieee
open Cest.Cmath (FM IsDouble RoundsToNearest)
open D Classical
open Cest.Fp (u u_pos u_lt)

variable {ρ : ℝ → ℝ}

/-! ### more about the operations -/

theorem pack_cases {s : Bool} {r : ℝ} : Is (pack ρ s r) (ρ r) ∨ pack ρ s r = inf s := by
  by_cases h : |r| < lim
  · exact Or.inl (is_pack h)
  · exact Or.inr (pack_over (not_lt.mp h))

theorem add_cases (hr : RoundsToNearest ρ) {a b : D} {x y : ℝ} (h : Is a x) (h' : Is b y) :
    Is (add ρ a b) (ρ (x + y)) ∨ ∃ s, add ρ a b = inf s := by
  by_cases hl : |x + y| < lim
  · exact Or.inl (h.add hr h' hl)
  · right
    rw [add_fin h.1 h'.1, addF, h.2, h'.2, if_neg]
    · exact ⟨_, pack_over (not_lt.mp hl)⟩
    · intro h0
      rw [h0, abs_zero] at hl
      exact hl (lt_lim (by positivity))

theorem sub_cases (hr : RoundsToNearest ρ) {a b : D} {x y : ℝ} (h : Is a x) (h' : Is b y) :
    Is (sub ρ a b) (ρ (x - y)) ∨ ∃ s, sub ρ a b = inf s := by
  rw [sub_eq_add_neg]; exact add_cases hr h h'.neg

theorem abs_inf {s : Bool} : D.abs (inf s) = inf false := by
  cases s
  · unfold D.abs; rw [if_neg not_pinf_lt]
  · unfold D.abs; rw [if_pos (ninf_lt (is_fin 0))]; rfl

theorem add_inf {a : D} {x : ℝ} (h : Is a x) (s : Bool) : D.add ρ a (inf s) = inf s := by
  rcases h.cases with ⟨rfl, -⟩ | rfl <;> rfl
theorem inf_add {a : D} {x : ℝ} (h : Is a x) (s : Bool) : D.add ρ (inf s) a = inf s := by
  rcases h.cases with ⟨rfl, -⟩ | rfl <;> rfl
theorem sub_inf {a : D} {x : ℝ} (h : Is a x) (s : Bool) : D.sub ρ a (inf s) = inf (!s) := add_inf h _
theorem inf_sub {a : D} {x : ℝ} (h : Is a x) (s : Bool) : D.sub ρ (inf s) a = inf s := inf_add h.neg _
theorem div_inf {a : D} {x : ℝ} (h : Is a x) (s : Bool) : Is (D.div ρ a (inf s)) 0 := by
  rcases h.cases with ⟨rfl, -⟩ | rfl <;> exact is_zero _
theorem inf_div {a : D} {x : ℝ} (h : Is a x) (s : Bool) : D.div ρ (inf s) a = inf (xor s a.sign) := by
  rcases h.cases with ⟨rfl, -⟩ | rfl <;> rfl
theorem mul_inf {a : D} {x : ℝ} (h : Is a x) (h0 : x ≠ 0) (s : Bool) : D.mul ρ a (inf s) = inf (xor a.sign s) := by
  rcases h.cases with ⟨rfl, rfl⟩ | rfl
  · exact absurd rfl h0
  · simp [D.mul, D.val, h0]
theorem inf_mul {a : D} {x : ℝ} (h : Is a x) (h0 : x ≠ 0) (s : Bool) : D.mul ρ (inf s) a = inf (xor s a.sign) := by
  rcases h.cases with ⟨rfl, rfl⟩ | rfl
  · exact absurd rfl h0
  · simp [D.mul, D.val, h0]

theorem sign_pos {a : D} {x : ℝ} (h : Is a x) (h0 : 0 < x) : a.sign = false := by
  rcases h.cases with ⟨rfl, rfl⟩ | rfl
  · exact absurd h0 (lt_irrefl 0)
  · simp [D.sign, h0.le]
theorem sign_neg {a : D} {x : ℝ} (h : Is a x) (h0 : x < 0) : a.sign = true := by
  rcases h.cases with ⟨rfl, rfl⟩ | rfl
  · exact absurd h0 (lt_irrefl 0)
  · simp [D.sign, h0]

/-- An absolute value is not less than a number that is not positive. -/
theorem not_abs_lt {a b : D} {y : ℝ} (h : Is b y) (h0 : y ≤ 0) : ¬ D.lt (D.abs a) b := by
  rcases trichotomy a with rfl | rfl | rfl | ⟨x, hx⟩
  · simp
  · rw [abs_inf]; exact not_pinf_lt
  · rw [abs_inf]; exact not_pinf_lt
  · rw [hx.abs.lt h]
    have := abs_nonneg x
    linarith

theorem isDouble_one : IsDouble (1 : ℝ) := by simpa using Cmath.isDouble_int (K := ℝ) (k := 1) (by norm_num)

theorem tol_pos (hr : RoundsToNearest ρ) : 0 < Cmath.tol ρ ∧ Cmath.tol ρ < 1 / 100 := by
  have h := Fp.tol_bounds hr
  have := u_lt
  have := u_pos
  constructor <;> nlinarith

/-- The relative error of a rounding that does not overflow. -/
theorem rel_err_lim (hr : RoundsToNearest ρ) {x : ℝ} (h1 : 1 / 2 ^ 1022 ≤ |x|) (h2 : |x| < lim) :
    |ρ x - x| ≤ u * |x| := by
  rcases le_total |x| (2 ^ 1023) with h | h
  · exact Fp.rel_err hr h1 h
  · -- the nearest multiple of 2^971
    have hs : (0 : ℝ) < 2 ^ (971 : ℤ) := by positivity
    have hm := abs_sub_round (x / 2 ^ (971 : ℤ))
    set m := round (x / 2 ^ (971 : ℤ)) with hmd
    have e : x - m * 2 ^ (971 : ℤ) = (x / 2 ^ (971 : ℤ) - m) * 2 ^ (971 : ℤ) := by field_simp
    have hq : |x / 2 ^ (971 : ℤ)| < 2 ^ 53 - 1 / 2 := by
      rw [abs_div, abs_of_pos hs, div_lt_iff₀ hs]
      refine h2.trans_eq ?_
      unfold lim
      have a1 : (2 : ℝ) ^ 1024 = 2 ^ 53 * 2 ^ 971 := by rw [← pow_add]
      have a2 : (2 : ℝ) ^ 971 = 2 * 2 ^ 970 := by rw [← pow_succ']
      have a3 : (2 : ℝ) ^ (971 : ℤ) = 2 ^ 971 := zpow_natCast 2 971
      rw [a3, a1, a2]
      generalize (2 : ℝ) ^ 970 = A
      ring
    have hb : |m| < 2 ^ 53 := by
      have h3 : |(m : ℝ)| < 2 ^ 53 := by
        rw [abs_le] at hm; rw [abs_lt] at hq ⊢
        constructor <;> linarith
      rw [← Int.cast_abs] at h3
      exact_mod_cast h3
    have hn := hr.nearest x (m * 2 ^ (971 : ℤ)) ⟨m, 971, rfl, hb, by norm_num, le_rfl⟩
    rw [abs_sub_comm]
    refine hn.trans ?_
    rw [e, abs_mul, abs_of_pos hs]
    have h4 : (2 : ℝ) ^ (971 : ℤ) * (1 / 2) ≤ u * 2 ^ 1023 := by
      have a3 : (2 : ℝ) ^ (971 : ℤ) = 2 ^ 971 := zpow_natCast 2 971
      have a1 : (2 : ℝ) ^ 1023 = 2 ^ 52 * 2 ^ 971 := by rw [← pow_add]
      rw [a3, a1]
      unfold u
      generalize (2 : ℝ) ^ 971 = A
      norm_num
      linarith
    have h5 : u * 2 ^ 1023 ≤ u * |x| := mul_le_mul_of_nonneg_left h u_pos.le
    calc _ ≤ 1 / 2 * (2 : ℝ) ^ (971 : ℤ) := mul_le_mul_of_nonneg_right hm hs.le
      _ ≤ _ := by rw [mul_comm]; exact h4.trans h5

/-! ### arguments for which `sqrt` does not return -/

/-- If the test never succeeds, the function never returns. -/
theorem sqrt_diverges {x : D} (P : D → Prop) (h1 : ∀ g, P g → ¬ lt (D.abs (sub ρ g (div ρ x g))) (mul ρ (tol ρ) g))
    (h2 : ∀ g, P g → P (div ρ (add ρ g (div ρ x g)) (fin 2))) (fuel : ℕ) :
    ∀ g, P g → sqrtHelper ρ fuel x g () = .timeout := by
  induction fuel with
  | zero => intro g _; rfl
  | succ n ih =>
    intro g hg
    rw [sqrtHelper, if_neg (h1 g hg)]
    exact ih _ (h2 g hg)

theorem sqrt_nan (fuel : ℕ) : sqrt ρ fuel nan () = .timeout :=
  sqrt_diverges (fun _ => True) (fun g _ => by simp) (fun _ _ => trivial) fuel _ trivial

theorem sqrt_inf (s : Bool) (fuel : ℕ) : sqrt ρ fuel (inf s) () = .timeout := by
  refine sqrt_diverges (fun g => g = fin 1 ∨ g = nan ∨ g = inf s) ?_ ?_ fuel _ (Or.inl rfl)
  · rintro g (rfl | rfl | rfl)
    · rw [inf_div (is_fin 1), sub_inf (is_fin 1), abs_inf]; exact not_pinf_lt
    · simp
    · simp [D.div]
  · rintro g (rfl | rfl | rfl)
    · right; right
      rw [inf_div (is_fin 1), sign_pos (is_fin 1) one_pos, Bool.xor_false, add_inf (is_fin 1),
        inf_div (is_fin 2), sign_pos (is_fin 2) two_pos, Bool.xor_false]
    · simp
    · simp [D.div]

theorem sqrt_nonpos (hr : RoundsToNearest ρ) {a : D} {x : ℝ} (ha : Is a x) (h0 : x ≤ 0) (fuel : ℕ) :
    sqrt ρ fuel a () = .timeout := by
  obtain ⟨t0, t1⟩ := tol_pos hr
  refine sqrt_diverges Valid ?_ (fun _ _ => valid_div hr) fuel _ (valid_fin isDouble_one)
  intro g hv
  rcases trichotomy g with rfl | rfl | rfl | ⟨y, hy⟩
  · simp
  · rw [inf_sub (div_inf ha _), abs_inf]; exact not_pinf_lt
  · rw [inf_sub (div_inf ha _), abs_inf]; exact not_pinf_lt
  · have hd := hy.double hv
    have hl := isDouble_lt_lim hd
    have hmul : Is (mul ρ (tol ρ) g) (ρ (Cmath.tol ρ * y)) := (is_fin _).mul hy (by
      rw [abs_mul, abs_of_pos t0]
      nlinarith [abs_nonneg y])
    rcases lt_trichotomy y 0 with h | rfl | h
    · refine not_abs_lt hmul (hr.le_of_le Fp.isDouble_zero ?_)
      nlinarith
    · refine not_abs_lt hmul (hr.le_of_le Fp.isDouble_zero ?_)
      simp
    · have hdiv : Is (div ρ a g) (ρ (x / y)) ∨ ∃ s, div ρ a g = inf s := by
        rw [div_fin ha.1 hy.1, ha.2, hy.2, if_neg h.ne']
        rcases pack_cases (ρ := ρ) (s := xor a.sign g.sign) (r := x / y) with h | h
        · exact Or.inl h
        · exact Or.inr ⟨_, h⟩
      rcases hdiv with hdiv | ⟨s, hdiv⟩
      · rcases sub_cases hr hy hdiv with hs | ⟨s, hs⟩
        · rw [hs.abs.lt hmul, not_lt]
          have q0 : ρ (x / y) ≤ 0 := hr.le_of_le Fp.isDouble_zero (div_nonpos_of_nonpos_of_nonneg h0 h.le)
          have q1 : y ≤ ρ (y - ρ (x / y)) := hr.ge_of_ge hd (by linarith)
          have q2 : ρ (Cmath.tol ρ * y) ≤ y := hr.le_of_le hd (by nlinarith)
          exact q2.trans (q1.trans (le_abs_self _))
        · rw [hs, abs_inf]; exact not_pinf_lt
      · rw [hdiv, sub_inf hy, abs_inf]; exact not_pinf_lt

/-! ### arguments for which it does -/

/-- More fuel changes nothing. -/
theorem sqrtHelper_mono {x : D} {n : ℕ} : ∀ {g r : D} {m : ℕ}, sqrtHelper ρ n x g () = .ok r () → n ≤ m →
    sqrtHelper ρ m x g () = .ok r () := by
  induction n with
  | zero => intro g r m h; simp [sqrtHelper, M.timeout] at h
  | succ n ih =>
    intro g r m h hm
    obtain ⟨k, rfl⟩ : ∃ k, m = k + 1 := ⟨m - 1, by omega⟩
    rw [sqrtHelper] at h ⊢
    split at h
    · rename_i hc; rw [if_pos hc]; exact h
    · rename_i hc; rw [if_neg hc]; exact ih h (by omega)
theorem sqrt_mono {x r : D} {n m : ℕ} (h : sqrt ρ n x () = .ok r ()) (hm : n ≤ m) : sqrt ρ m x () = .ok r () :=
  sqrtHelper_mono h hm

theorem is_tol_mul (hr : RoundsToNearest ρ) {G : D} {g : ℝ} (hG : Is G g) (hg : |g| < lim) :
    Is (mul ρ (tol ρ) G) (ρ (Cmath.tol ρ * g)) := by
  obtain ⟨t0, t1⟩ := tol_pos hr
  refine (is_fin _).mul hG ?_
  rw [abs_mul, abs_of_pos t0]
  nlinarith [abs_nonneg g]

/-- One iteration without overflow. -/
theorem sqrt_step (hr : RoundsToNearest ρ) {A G : D} {x g : ℝ} (hA : Is A x) (hG : Is G g) (g0 : 0 < g) (x0 : 0 ≤ x)
    (h1 : x / g < lim) (h2 : g + ρ (x / g) < lim) :
    (lt (D.abs (sub ρ G (div ρ A G))) (mul ρ (tol ρ) G) ↔ |ρ (g - ρ (x / g))| < ρ (Cmath.tol ρ * g)) ∧
    Is (div ρ (add ρ G (div ρ A G)) (fin 2)) (ρ (ρ (g + ρ (x / g)) / 2)) := by
  have q0 : 0 ≤ x / g := div_nonneg x0 g0.le
  have q1 : 0 ≤ ρ (x / g) := hr.ge_of_ge Fp.isDouble_zero q0
  have hq : Is (div ρ A G) (ρ (x / g)) := hA.div hG g0.ne' (by rwa [abs_of_nonneg q0])
  have hs : Is (sub ρ G (div ρ A G)) (ρ (g - ρ (x / g))) := hG.sub hr hq (by
    rw [abs_lt]; constructor <;> linarith)
  have ha : Is (add ρ G (div ρ A G)) (ρ (g + ρ (x / g))) := hG.add hr hq (by
    rw [abs_of_nonneg (by linarith)]; exact h2)
  refine ⟨hs.abs.lt (is_tol_mul hr hG ?_), ha.div (is_fin 2) two_ne_zero ?_⟩
  · rw [abs_of_pos g0]; linarith
  · rw [abs_div, abs_of_pos (two_pos : (0 : ℝ) < 2)]
    have := isDouble_lt_lim (hr.double (g + ρ (x / g)))
    have := abs_nonneg (ρ (g + ρ (x / g)))
    linarith

theorem T_lim : 100 * Fp.T ≤ lim := by
  have := Fp.big_T
  have h1 := Fp.T_ge
  have h2 := lt_lim this
  norm_num at h1 h2
  linarith

/-- The model without special values and this one agree on the iteration. -/
theorem sqrt_ref (hr : RoundsToNearest ρ) {A : D} {s B : ℝ} (hA : Is A (s * s)) (s0 : 0 < s) (hsB : s * s ≤ B) (hB : s ≤ B)
    (x1 : 2 * Fp.tau ≤ s) (x2 : B ≤ Fp.T) (fuel : ℕ) : ∀ (g r : ℝ) (G : D), Is G g →
    s * (1 - 1 / 10 ^ 15) ≤ g → g ≤ 2 * B → Cmath.sqrtHelper ρ fuel (s * s) g () = .ok r () →
    ∃ R, Is R r ∧ sqrtHelper ρ fuel A G () = .ok R () := by
  have hTl := T_lim
  induction fuel with
  | zero => intro g r G _ _ _ h; simp [Cmath.sqrtHelper, M.timeout] at h
  | succ n ih =>
    intro g r G hG h1 h2 h
    have g0 : 0 < g := by norm_num at h1; linarith
    obtain ⟨r1, r2, r3, r4⟩ := Fp.range_ok hsB x1 x2 h1 h2
    have hq2 : ρ (s * s / g) ≤ 2 * (s * s / g) := by
      have := Fp.abs_le_two hr (s * s / g)
      rw [abs_of_nonneg r3] at this
      exact (le_abs_self _).trans this
    have hT := Fp.T_ge
    norm_num at hT
    obtain ⟨e1, e2⟩ := sqrt_step hr hA hG g0 (mul_self_nonneg s) (by linarith) (by linarith)
    rw [sqrtHelper]
    by_cases hp : |ρ (g - ρ (s * s / g))| < ρ (Cmath.tol ρ * g)
    · rw [if_pos (e1.mpr hp)]
      rw [Fp.sqrtHelper_pass g0.ne' hp] at h
      cases h
      exact ⟨G, hG, rfl⟩
    · rw [if_neg (fun hc => hp (e1.mp hc))]
      rw [Fp.sqrtHelper_next g0.ne' hp] at h
      obtain ⟨n1, n2⟩ := Fp.newton_step hr r1 r2 r3 r4
      have hN : (g + s * s / g) / 2 - s = (g - s) ^ 2 / (2 * g) := by field_simp; ring
      have hN1 : s ≤ (g + s * s / g) / 2 := by
        have : 0 ≤ (g - s) ^ 2 / (2 * g) := by positivity
        linarith
      norm_num at n1 n2 h1
      refine ih _ r _ e2 ?_ ?_ h
      · refine le_trans ?_ n1
        norm_num
        linarith only [hN1]
      · refine n2.trans ?_
        have hp2 : s * s / g ≤ s * (1000001 / 1000000) := by
          rw [div_le_iff₀ g0]; nlinarith
        rcases le_total g (s * (1000001 / 1000000)) with hc | hc <;> linarith

/-- Between 2⁻¹⁰⁷⁴ and 2⁹⁶⁰. -/
theorem sqrt_small (hr : RoundsToNearest ρ) {A : D} {x : ℝ} (hA : Is A x) (x1 : 1 / 2 ^ 1074 ≤ x) (x2 : x ≤ Fp.T) :
    ∃ R r, Is R r ∧ 0 < r ∧ |r * r - x| ≤ 1000001 / 1000000000 * (r * r) ∧
      Cmath.Gives (fun fuel => Cmath.sqrt ρ fuel x) r ∧ Cmath.Gives (fun fuel => sqrt ρ fuel A) R := by
  obtain ⟨r, d, r0, hacc, N, hN⟩ := Fp.sqrt_fp hr x1 x2
  obtain ⟨t0, t1⟩ := Fp.one_T
  have hT := Fp.T_ge
  have hTl := T_lim
  have hx : 0 < x := lt_of_lt_of_le (by positivity) x1
  obtain ⟨s, s0, rfl⟩ : ∃ s, 0 < s ∧ x = s * s :=
    ⟨Real.sqrt x, Real.sqrt_pos.mpr hx, (Real.mul_self_sqrt hx.le).symm⟩
  have xs : 2 * Fp.tau ≤ s := by
    by_contra hc
    have h1 : s * s < (2 * Fp.tau) * (2 * Fp.tau) := by nlinarith
    refine absurd (x1.trans_lt h1) (not_lt.mpr ?_)
    unfold Fp.tau
    rw [mul_one_div, div_mul_div_comm, div_le_div_iff₀ (by positivity) (by positivity), ← pow_add, one_mul]
    have : (2 : ℝ) ^ (600 + 600) = 2 ^ 126 * 2 ^ 1074 := by rw [← pow_add]
    rw [this]
    exact mul_le_mul_of_nonneg_right (by norm_num) (by positivity)
  norm_num at t1 hT
  -- the first step
  have hx1 : s * s / 1 ≤ 8 * Fp.T := by rw [div_one]; linarith
  have hx0 : 0 ≤ s * s / 1 := by rw [div_one]; exact hx.le
  have hq2 : ρ (s * s / 1) ≤ 2 * (s * s / 1) := by
    have := Fp.abs_le_two hr (s * s / 1)
    rw [abs_of_nonneg hx0] at this
    exact (le_abs_self _).trans this
  obtain ⟨e1, e2⟩ := sqrt_step hr hA (is_fin 1) one_pos hx.le (by linarith) (by linarith)
  have key : ∃ R, Is R r ∧ sqrt ρ (N + 1) A () = .ok R () := by
    have hN1 := hN (N + 1) (by omega)
    simp only [Cmath.sqrt] at hN1
    rw [sqrt, sqrtHelper]
    by_cases hp : |ρ (1 - ρ (s * s / 1))| < ρ (Cmath.tol ρ * 1)
    · rw [if_pos (e1.mpr hp)]
      rw [Fp.sqrtHelper_pass one_ne_zero hp] at hN1
      cases hN1
      exact ⟨_, is_fin 1, rfl⟩
    · rw [if_neg (fun hc => hp (e1.mp hc))]
      rw [Fp.sqrtHelper_next one_ne_zero hp] at hN1
      obtain ⟨n1, n2⟩ := Fp.newton_step hr (g := 1) (p := s * s / 1) (by linarith) (by linarith) hx0 hx1
      norm_num at n1 n2
      have b1 : s * (1 - 1 / 10 ^ 15) ≤ ρ (ρ (1 + ρ (s * s / 1)) / 2) := by
        rw [div_one]
        refine le_trans ?_ n1
        norm_num
        nlinarith [sq_nonneg (s - 1)]
      rcases le_total 1 s with h | h
      · refine sqrt_ref hr hA s0 le_rfl (by nlinarith) xs x2 N _ r _ e2 b1 ?_ hN1
        rw [div_one]; nlinarith
      · refine sqrt_ref hr hA s0 (B := 1) (by nlinarith) h xs (by linarith) N _ r _ e2 b1 ?_ hN1
        rw [div_one]; nlinarith
  obtain ⟨R, hR, hk⟩ := key
  refine ⟨R, r, hR, r0, hacc, ⟨N, hN⟩, N + 1, fun fuel hf => ?_⟩
  exact sqrt_mono hk hf

/-! ### large arguments -/

theorem rb_lim (hr : RoundsToNearest ρ) {y : ℝ} (h1 : 1 / 2 ≤ y) (h2 : y < lim) :
    y * (1 - u) ≤ ρ y ∧ ρ y ≤ y * (1 + u) := by
  have y0 : 0 < y := by linarith
  have h := rel_err_lim hr (x := y) (by
    rw [abs_of_pos y0]
    refine le_trans ?_ h1
    exact one_div_le_one_div_of_le two_pos (le_self_pow₀ (by norm_num) (by norm_num))) (by rwa [abs_of_pos y0])
  rw [abs_of_pos y0, abs_le] at h
  constructor <;> linarith

/-- One iteration, up to the largest numbers. -/
theorem newton_big (hr : RoundsToNearest ρ) {g p : ℝ} (g1 : 1 ≤ g) (p1 : 1 ≤ p) (h : (g + p) * (1001 / 1000) ≤ lim) :
    ((g + p) / 2 * (1 - 1 / 10 ^ 15) ≤ ρ (ρ (g + ρ p) / 2) ∧
      ρ (ρ (g + ρ p) / 2) ≤ (g + p) / 2 * (1 + 1 / 10 ^ 15)) ∧ g + ρ p < lim ∧ |ρ p - p| ≤ u * p := by
  have hu := u_pos
  have hu1 := u_lt
  norm_num at hu1
  have q := rb_lim hr (y := p) (by linarith) (by linarith)
  have w1 : (g + p) * (1 - u) ≤ g + ρ p := by nlinarith
  have w2 : g + ρ p ≤ (g + p) * (1 + u) := by nlinarith
  have w3 : g + ρ p < lim := by nlinarith
  have w4 : 3 / 2 ≤ g + ρ p := by nlinarith
  have s := rb_lim hr (y := g + ρ p) (by linarith) w3
  have s1 : 1 ≤ ρ (g + ρ p) := by nlinarith
  have s2 := isDouble_lt_lim (hr.double (g + ρ p))
  rw [abs_of_pos (by linarith)] at s2
  have d := rb_lim hr (y := ρ (g + ρ p) / 2) (by linarith) (by linarith)
  have v1 : 0 ≤ 1 - u := by linarith
  have v2 : 0 ≤ 1 + u := by linarith
  have c1 : 1 - 1 / 10 ^ 15 ≤ (1 - u) * (1 - u) * (1 - u) := by
    norm_num
    nlinarith
  have c2 : (1 + u) * (1 + u) * (1 + u) ≤ 1 + 1 / 10 ^ 15 := by
    norm_num
    nlinarith [mul_pos hu hu]
  refine ⟨⟨?_, ?_⟩, w3, abs_le.mpr ⟨by linarith, by linarith⟩⟩
  · refine le_trans ?_ d.1
    have h1 : (g + p) * (1 - u) * (1 - u) ≤ ρ (g + ρ p) :=
      (mul_le_mul_of_nonneg_right w1 v1).trans s.1
    have h2 : (g + p) / 2 * ((1 - u) * (1 - u) * (1 - u)) ≤ ρ (g + ρ p) / 2 * (1 - u) := by
      have := mul_le_mul_of_nonneg_right h1 v1
      linarith
    refine le_trans ?_ h2
    norm_num at c1 ⊢
    exact mul_le_mul_of_nonneg_left c1 (by linarith)
  · refine d.2.trans ?_
    have h1 : ρ (g + ρ p) ≤ (g + p) * (1 + u) * (1 + u) :=
      s.2.trans (mul_le_mul_of_nonneg_right w2 v2)
    have h2 : ρ (g + ρ p) / 2 * (1 + u) ≤ (g + p) / 2 * ((1 + u) * (1 + u) * (1 + u)) := by
      have := mul_le_mul_of_nonneg_right h1 v2
      linarith
    refine h2.trans ?_
    norm_num at c2 ⊢
    exact mul_le_mul_of_nonneg_left c2 (by linarith)

/-- The stopping test. -/
theorem test_big (hr : RoundsToNearest ρ) {g p : ℝ} (g1 : 10 ^ 6 ≤ g) (g2 : g < lim) (p1 : 1 ≤ p) (p2 : p ≤ g * 2)
    (hp : |ρ p - p| ≤ u * p) :
    (|g - p| ≤ g / 4000 → |ρ (g - ρ p)| < ρ (Cmath.tol ρ * g)) ∧
    (|ρ (g - ρ p)| < ρ (Cmath.tol ρ * g) → |g - p| ≤ 1000001 / 1000000000 * g) := by
  have hu := u_pos
  have hu1 := u_lt
  norm_num at hu1 g1
  obtain ⟨a1, a2⟩ := Fp.tol_bounds hr
  have q := abs_le.mp hp
  have g0 : 0 < g := by linarith
  have tl : 999 / 1000000 * g ≤ Cmath.tol ρ * g := mul_le_mul_of_nonneg_right (by linarith) g0.le
  have th : Cmath.tol ρ * g ≤ 1 / 1000 * (1 + u) * g := mul_le_mul_of_nonneg_right (by linarith) g0.le
  have th' : Cmath.tol ρ * g ≤ 1 * g := mul_le_mul_of_nonneg_right (by linarith) g0.le
  have m := rb_lim hr (y := Cmath.tol ρ * g) (by linarith) (by linarith)
  have m1 : Cmath.tol ρ * g * (1 - u) ≥ 998 / 1000000 * g := by nlinarith
  have m2 : Cmath.tol ρ * g * (1 + u) ≤ 10000001 / 10000000000 * g := by nlinarith
  constructor
  · intro h
    have d := Fp.abs_le_two hr (g - ρ p)
    rw [abs_le] at h
    have e : |g - ρ p| ≤ g / 4000 + g / 1000000 := by
      rw [abs_le]; constructor <;> nlinarith
    linarith
  · intro h
    have e : |g - ρ p| ≤ 10000002 / 10000000000 * g := by
      by_cases hc : 1 / 2 ^ 1022 ≤ |g - ρ p|
      · by_cases hl : |g - ρ p| < lim
        · have r := rel_err_lim hr (x := g - ρ p) hc hl
          have := abs_sub_abs_le_abs_sub (g - ρ p) (ρ (g - ρ p))
          rw [abs_sub_comm _ (ρ (g - ρ p))] at this
          generalize |g - ρ p| = a at *
          nlinarith [abs_nonneg (ρ (g - ρ p))]
        · -- the rounding of a number that large is large
          exfalso
          rcases le_total 0 (g - ρ p) with h3 | h3
          · rw [abs_of_nonneg h3] at hl
            have : 0 ≤ ρ p := hr.ge_of_ge Fp.isDouble_zero (by linarith)
            linarith
          · rw [abs_of_nonpos h3, not_lt] at hl
            have h4 : ρ (g - ρ p) ≤ -(2 ^ 1023) := by
              refine hr.le_of_le ?_ ?_
              · exact ⟨-2 ^ 52, 971, by
                  push_cast
                  rw [show (2 : ℝ) ^ (971 : ℤ) = 2 ^ 971 from zpow_natCast 2 971, neg_mul,
                    show (4503599627370496 : ℝ) = 2 ^ 52 by norm_num, ← pow_add],
                  by norm_num, by norm_num, le_rfl⟩
              · have : (2 : ℝ) ^ 1023 < lim := lt_lim le_rfl
                generalize (2 : ℝ) ^ 1023 = W at *
                linarith
            have h5 : (2 : ℝ) ^ 1023 ≤ |ρ (g - ρ p)| := by
              rw [abs_of_nonpos (h4.trans (by simp))]
              generalize (2 : ℝ) ^ 1023 = W at *
              linarith
            have h6 : lim ≤ 2 * 2 ^ 1023 := by
              rw [← pow_succ']; unfold lim
              have : (0 : ℝ) < 2 ^ 970 := by positivity
              exact sub_le_self _ this.le
            generalize (2 : ℝ) ^ 1023 = W at *
            linarith
      · have : (1 : ℝ) / 2 ^ 1022 ≤ 1 := by
          rw [div_le_one (by positivity)]; exact one_le_pow₀ (by norm_num)
        rw [not_le] at hc
        generalize (1 : ℝ) / 2 ^ 1022 = W at *
        linarith
    rw [abs_le] at e ⊢
    constructor <;> nlinarith

theorem sqrt_big_conv (hr : RoundsToNearest ρ) {A : D} {s : ℝ} (hA : Is A (s * s)) (s1 : 10 ^ 30 ≤ s) (s2 : s * s < lim)
    (n : ℕ) : ∀ (g : ℝ) (G : D), Is G g → s * (1 - 1 / 10 ^ 15) ≤ g → g ≤ s * s * (3 / 4) →
      g ≤ s * (1 + (1999 / 1000) ^ n / 10000) →
    ∃ R r, Is R r ∧ 0 < r ∧ |r * r - s * s| ≤ 1000001 / 1000000000 * (r * r) ∧
      ∀ fuel, n + 1 ≤ fuel → sqrtHelper ρ fuel A G () = .ok R () := by
  norm_num at s1
  have s0 : 0 < s := by linarith
  have hss : 10 ^ 30 * s ≤ s * s := mul_le_mul_of_nonneg_right (by norm_num; exact s1) s0.le
  norm_num at hss
  have all : ∀ g : ℝ, s * (1 - 1 / 10 ^ 15) ≤ g → g ≤ s * s * (3 / 4) →
      0 < g ∧ 10 ^ 6 ≤ g ∧ g < lim ∧ 1 ≤ s * s / g ∧ s * s / g ≤ s * (1000001 / 1000000) ∧ s * s / g ≤ g * 2 ∧
        (g + s * s / g) * (1001 / 1000) ≤ lim := by
    intro g h1 h2
    norm_num at h1
    have g0 : 0 < g := by linarith
    have p2 : s * s / g ≤ s * (1000001 / 1000000) := by
      rw [div_le_iff₀ g0]; nlinarith
    refine ⟨g0, by norm_num; linarith, by linarith, ?_, p2, by linarith, by linarith⟩
    rw [le_div_iff₀ g0]; linarith
  have key : ∀ g, s * (1 - 1 / 10 ^ 15) ≤ g → g ≤ s * s * (3 / 4) → |ρ (g - ρ (s * s / g))| < ρ (Cmath.tol ρ * g) →
      |g * g - s * s| ≤ 1000001 / 1000000000 * (g * g) := by
    intro g h1 h2 h3
    obtain ⟨g0, a1, a2, a3, a4, a5, a6⟩ := all g h1 h2
    have hp := (newton_big hr (by norm_num at a1; linarith) a3 a6).2.2
    have := (test_big hr a1 a2 a3 a5 hp).2 h3
    have e : g * g - s * s = (g - s * s / g) * g := by field_simp
    rw [e, abs_mul, abs_of_pos g0]
    nlinarith
  have pass : ∀ g, s * (1 - 1 / 10 ^ 15) ≤ g → g ≤ s * s * (3 / 4) → g ≤ s * (1 + 1 / 10000) →
      |ρ (g - ρ (s * s / g))| < ρ (Cmath.tol ρ * g) := by
    intro g h1 h2 h3
    obtain ⟨g0, a1, a2, a3, a4, a5, a6⟩ := all g h1 h2
    have hp := (newton_big hr (by norm_num at a1; linarith) a3 a6).2.2
    refine (test_big hr a1 a2 a3 a5 hp).1 ?_
    norm_num at h1 h3
    have e : g - s * s / g = (g - s) * (g + s) / g := by field_simp; ring
    rw [e, abs_div, abs_mul, abs_of_pos g0, abs_of_pos (by linarith : 0 < g + s), div_le_iff₀ g0]
    rcases le_total s g with h | h
    · rw [abs_of_nonneg (by linarith)]
      have c1 : g - s ≤ g / 10000 := by linarith
      have c2 : g + s ≤ 2 * g := by linarith
      have := mul_le_mul c1 c2 (by linarith) (by linarith)
      nlinarith
    · rw [abs_of_nonpos (by linarith)]
      have c1 : -(g - s) ≤ g / 100000 := by linarith
      have c2 : g + s ≤ 3 * g := by linarith
      have := mul_le_mul c1 c2 (by linarith) (by linarith)
      nlinarith
  induction n with
  | zero =>
    intro g G hG h1 h2 h3
    have hp := pass g h1 h2 (by simpa using h3)
    obtain ⟨g0, a1, a2, a3, a4, a5, a6⟩ := all g h1 h2
    obtain ⟨e1, e2⟩ := sqrt_step hr hA hG g0 (mul_self_nonneg s) (by nlinarith)
      (newton_big hr (by norm_num at a1; linarith) a3 a6).2.1
    refine ⟨G, g, hG, g0, key g h1 h2 hp, fun fuel hf => ?_⟩
    obtain ⟨k, rfl⟩ : ∃ k, fuel = k + 1 := ⟨fuel - 1, by omega⟩
    rw [sqrtHelper, if_pos (e1.mpr hp)]; rfl
  | succ n ih =>
    intro g G hG h1 h2 h3
    obtain ⟨g0, a1, a2, a3, a4, a5, a6⟩ := all g h1 h2
    obtain ⟨⟨n1, n2⟩, w3, -⟩ := newton_big hr (by norm_num at a1; linarith) a3 a6
    obtain ⟨e1, e2⟩ := sqrt_step hr hA hG g0 (mul_self_nonneg s) (by nlinarith) w3
    by_cases hp : |ρ (g - ρ (s * s / g))| < ρ (Cmath.tol ρ * g)
    · refine ⟨G, g, hG, g0, key g h1 h2 hp, fun fuel hf => ?_⟩
      obtain ⟨k, rfl⟩ : ∃ k, fuel = k + 1 := ⟨fuel - 1, by omega⟩
      rw [sqrtHelper, if_pos (e1.mpr hp)]; rfl
    · have hfar : s * (1 + 1 / 10000) < g := by
        by_contra hc
        exact hp (pass g h1 h2 (not_lt.mp hc))
      have hN : (g + s * s / g) / 2 - s = (g - s) ^ 2 / (2 * g) := by field_simp; ring
      have hN1 : s ≤ (g + s * s / g) / 2 := by
        have : 0 ≤ (g - s) ^ 2 / (2 * g) := by positivity
        linarith
      have hN2 : (g + s * s / g) / 2 - s ≤ (g - s) / 2 := by
        rw [hN, div_le_iff₀ (by linarith)]
        nlinarith
      norm_num at n1 n2 hfar
      have b1 : s * (1 - 1 / 10 ^ 15) ≤ ρ (ρ (g + ρ (s * s / g)) / 2) := by
        refine le_trans ?_ n1
        norm_num
        linarith only [hN1]
      have b2 : ρ (ρ (g + ρ (s * s / g)) / 2) ≤ s * s * (3 / 4) := by
        refine le_trans ?_ h2
        refine n2.trans ?_
        nlinarith
      have b3 : ρ (ρ (g + ρ (s * s / g)) / 2) ≤ s * (1 + (1999 / 1000) ^ n / 10000) := by
        rw [pow_succ] at h3
        refine n2.trans ?_
        generalize (1999 / 1000 : ℝ) ^ n = W at *
        have : g - s ≤ s * (W * (1999 / 1000) / 10000) := by linarith
        have h4 : (g + s * s / g) / 2 * (1000000000000001 / 1000000000000000) - s ≤ 1000 / 1999 * (g - s) := by
          nlinarith
        nlinarith
      obtain ⟨R, r, c1, c2, c3, c4⟩ := ih _ _ e2 b1 b2 b3
      refine ⟨R, r, c1, c2, c3, fun fuel hf => ?_⟩
      obtain ⟨k, rfl⟩ : ∃ k, fuel = k + 1 := ⟨fuel - 1, by omega⟩
      rw [sqrtHelper, if_neg (fun hc => hp (e1.mp hc))]
      exact c4 k (by omega)

/-- From 2⁹⁶⁰ to the largest number. -/
theorem sqrt_big (hr : RoundsToNearest ρ) {A : D} {x : ℝ} (hA : Is A x) (hd : IsDouble x) (x1 : Fp.T ≤ x) :
    ∃ R r, Is R r ∧ 0 < r ∧ |r * r - x| ≤ 1000001 / 1000000000 * (r * r) ∧
      Cmath.Gives (fun fuel => sqrt ρ fuel A) R := by
  have hT : (10 : ℝ) ^ 60 ≤ x := by
    refine le_trans ?_ x1
    rw [Fp.T]
    exact le_trans (by norm_num : (10 : ℝ) ^ 60 ≤ 2 ^ 200) (pow_le_pow_right₀ (by norm_num) (by norm_num))
  have hx : 0 < x := lt_of_lt_of_le (by positivity) hT
  have hl := isDouble_lt_lim hd
  rw [abs_of_pos hx] at hl
  obtain ⟨s, s0, rfl⟩ : ∃ s, 0 < s ∧ x = s * s :=
    ⟨Real.sqrt x, Real.sqrt_pos.mpr hx, (Real.mul_self_sqrt hx.le).symm⟩
  have s1 : 10 ^ 30 ≤ s := by
    by_contra hc
    have := not_le.mp hc
    have : s * s < 10 ^ 30 * 10 ^ 30 := mul_lt_mul'' this this s0.le s0.le
    rw [← pow_add] at this
    exact absurd this (not_lt.mpr hT)
  have hss : 10 ^ 30 * s ≤ s * s := mul_le_mul_of_nonneg_right s1 s0.le
  norm_num at hss s1 hT
  have e0 : ρ (s * s / 1) = s * s := by rw [div_one]; exact hr.exact hd
  -- 1 + x rounds close to x
  have l1 : s * s ≤ ρ (1 + s * s) := hr.ge_of_ge hd (by linarith)
  have l2 : ρ (1 + s * s) ≤ s * s + 2 := by
    have := hr.nearest (1 + s * s) (s * s) hd
    rw [show 1 + s * s - s * s = 1 by ring, abs_one, abs_le] at this
    linarith
  have l3 : 1 + s * s < lim := by
    have h3 := isDouble_lt hd
    rw [abs_of_pos hx] at h3
    refine lt_of_le_of_lt (add_le_add_right h3 1) ?_
    unfold lim
    have a2 : (2 : ℝ) ^ 971 = 2 * 2 ^ 970 := by rw [← pow_succ']
    have a3 : (1 : ℝ) < 2 ^ 970 := one_lt_pow₀ (by norm_num) (by norm_num)
    rw [a2] at h3 ⊢
    clear a2
    generalize (2 : ℝ) ^ 970 = W at *
    generalize (2 : ℝ) ^ 1024 = W' at *
    linarith
  obtain ⟨e1, e2⟩ := sqrt_step hr hA (is_fin 1) one_pos hx.le (by rw [div_one]; exact hl) (by rw [e0]; exact l3)
  rw [e0] at e1 e2
  have hu := u_pos
  have hu1 := u_lt
  norm_num at hu1
  have d := rb_lim hr (y := ρ (1 + s * s) / 2) (by linarith) (by linarith)
  have d1 : s * s * (499 / 1000) ≤ ρ (ρ (1 + s * s) / 2) := by nlinarith
  have d2 : ρ (ρ (1 + s * s) / 2) ≤ s * s * (3 / 4) := by nlinarith
  obtain ⟨n, hn⟩ := pow_unbounded_of_one_lt (10000 * s) (by norm_num : (1 : ℝ) < 1999 / 1000)
  obtain ⟨R, r, c1, c2, c3, c4⟩ := sqrt_big_conv hr hA (by norm_num; exact s1) hl n _ _ e2
    (by norm_num; linarith) d2 (by
      refine d2.trans ?_
      generalize (1999 / 1000 : ℝ) ^ n = W at *
      nlinarith)
  refine ⟨R, r, c1, c2, c3, n + 2, fun fuel hf => ?_⟩
  obtain ⟨k, rfl⟩ : ∃ k, fuel = k + 1 := ⟨fuel - 1, by omega⟩
  show sqrtHelper ρ (k + 1) A (fin 1) () = _
  rw [sqrtHelper, if_neg]
  · exact c4 k (by omega)
  · rw [e1, not_lt]
    obtain ⟨t0, t1⟩ := tol_pos hr
    have h3 : ρ (Cmath.tol ρ * 1) ≤ 1 := hr.le_of_le isDouble_one (by linarith)
    have h4 : ρ (1 - s * s) ≤ -1 := hr.le_of_le isDouble_one.neg (by linarith)
    rw [abs_of_nonpos (by linarith)]
    linarith

/-- For every positive finite number. -/
theorem sqrt_pos (hr : RoundsToNearest ρ) {A : D} {x : ℝ} (hA : Is A x) (hd : IsDouble x) (x0 : 0 < x) :
    ∃ R r, Is R r ∧ 0 < r ∧ |r * r - x| ≤ 1000001 / 1000000000 * (r * r) ∧
      Cmath.Gives (fun fuel => sqrt ρ fuel A) R := by
  rcases le_total x Fp.T with h | h
  · have : 1 / 2 ^ 1074 ≤ x := by
      obtain ⟨m, e, rfl, hm, h1, h2⟩ := hd
      have he : (0 : ℝ) < 2 ^ e := by positivity
      have hm0 : (0 : ℝ) < m := by
        by_contra hc
        exact absurd x0 (not_lt.mpr (mul_nonpos_of_nonpos_of_nonneg (not_lt.mp hc) he.le))
      have hm1 : (1 : ℝ) ≤ m := by
        have : 0 < m := by exact_mod_cast hm0
        exact_mod_cast this
      have h4 : (1 : ℝ) / 2 ^ 1074 = 2 ^ (-1074 : ℤ) := by rw [zpow_neg, one_div]; norm_cast
      rw [h4]
      calc (2 : ℝ) ^ (-1074 : ℤ) ≤ 2 ^ e := zpow_le_zpow_right₀ (by norm_num) h1
        _ ≤ m * 2 ^ e := le_mul_of_one_le_left he.le hm1
    obtain ⟨R, r, c1, c2, c3, -, c4⟩ := sqrt_small hr hA this h
    exact ⟨R, r, c1, c2, c3, c4⟩
  · exact sqrt_big hr hA hd h

end Cest.Ieee
