import Verif.CxFp.Spec
import Verif.Complex.Proofs

/-! Error analysis of the complex operations in binary64. -/
namespace Cest.CxFp
open Cest Cest.Complex Cest.Cmath Cest.Fp

variable {ρ : ℝ → ℝ}

@[simp] theorem val_zero : (0 : Flt ρ).val = 0 := rfl
@[simp] theorem val_one : (1 : Flt ρ).val = 1 := rfl
@[simp] theorem val_add (a b : Flt ρ) : (a + b).val = ρ (a.val + b.val) := rfl
@[simp] theorem val_sub (a b : Flt ρ) : (a - b).val = ρ (a.val - b.val) := rfl
@[simp] theorem val_mul (a b : Flt ρ) : (a * b).val = ρ (a.val * b.val) := rfl
@[simp] theorem val_div (a b : Flt ρ) : (a / b).val = ρ (a.val / b.val) := rfl
@[simp] theorem val_neg (a : Flt ρ) : (-a).val = -a.val := rfl

/-! ### Rounding with gradual underflow -/

/-- Half the spacing of the subnormal numbers. -/
noncomputable def η : ℝ := 1 / 2 ^ 1075

theorem η_pos : 0 < η := by unfold η; positivity

theorem isDouble_sub {m : ℤ} (h : |m| < 2 ^ 53) : IsDouble ((m : ℝ) / 2 ^ 1074) :=
  ⟨m, -1074, by rw [div_eq_mul_inv, zpow_neg]; norm_cast, h, le_refl _, by norm_num⟩

theorem isDouble_multiple {d : ℝ} (hd : IsDouble d) : ∃ m : ℤ, d = (m : ℝ) / 2 ^ 1074 := by
  obtain ⟨m, e, rfl, -, he, -⟩ := hd
  refine ⟨m * 2 ^ (e + 1074).toNat, ?_⟩
  push_cast
  rw [mul_div_assoc]
  congr 1
  rw [eq_div_iff (by positivity), ← zpow_natCast, ← zpow_natCast, ← zpow_add₀ (by norm_num)]
  congr 1
  omega

/-- The error of a rounding, underflow included. -/
theorem round_err (hr : RoundsToNearest ρ) {x : ℝ} (h2 : |x| ≤ 2 ^ 1023) : |ρ x - x| ≤ u * |x| + η := by
  by_cases h1 : 1 / 2 ^ 1022 ≤ |x|
  · have := rel_err hr h1 h2
    have := η_pos
    linarith
  · have h := abs_sub_round (x * 2 ^ 1074)
    have hy : |x * 2 ^ 1074| < 2 ^ 52 := by
      rw [abs_mul, abs_of_pos (by positivity : (0 : ℝ) < 2 ^ 1074)]
      have h3 : |x| < 1 / 2 ^ 1022 := not_le.mp h1
      have : (2 : ℝ) ^ 1074 = 2 ^ 1022 * 2 ^ 52 := by rw [← pow_add]
      rw [this, ← mul_assoc]
      have h4 := mul_lt_mul_of_pos_right h3 (by positivity : (0 : ℝ) < 2 ^ 1022)
      rw [div_mul_cancel₀ _ (by positivity)] at h4
      nlinarith [show (0 : ℝ) < 2 ^ 52 by positivity]
    have hm : |round (x * 2 ^ 1074)| < 2 ^ 53 := by
      have h5 : |(round (x * 2 ^ 1074) : ℝ)| < 2 ^ 53 := by
        have := abs_sub_abs_le_abs_sub (round (x * 2 ^ 1074) : ℝ) (x * 2 ^ 1074)
        rw [abs_sub_comm] at this
        have e : (2 : ℝ) ^ 53 = 2 ^ 52 + 2 ^ 52 := by norm_num
        have e' : (1 : ℝ) ≤ 2 ^ 52 := by norm_num
        linarith
      exact_mod_cast h5
    have h6 := hr.nearest x _ (isDouble_sub hm)
    rw [abs_sub_comm] at h6
    refine h6.trans ?_
    have e : x - (round (x * 2 ^ 1074) : ℝ) / 2 ^ 1074 = (x * 2 ^ 1074 - round (x * 2 ^ 1074)) / 2 ^ 1074 := by
      field_simp
    rw [e, abs_div, abs_of_pos (by positivity : (0 : ℝ) < 2 ^ 1074)]
    have h7 : η = 1 / 2 / 2 ^ 1074 := by unfold η; rw [div_div, ← pow_succ']
    have h8 : 0 ≤ u * |x| := mul_nonneg u_pos.le (abs_nonneg _)
    rw [h7]
    have := div_le_div_of_nonneg_right h (by positivity : (0 : ℝ) ≤ 2 ^ 1074)
    linarith

/-- Sums of binary64 numbers do not lose anything to underflow. -/
theorem sum_err (hr : RoundsToNearest ρ) {a b : ℝ} (ha : IsDouble a) (hb : IsDouble b) (h2 : |a + b| ≤ 2 ^ 1023) :
    |ρ (a + b) - (a + b)| ≤ u * |a + b| := by
  by_cases h1 : 1 / 2 ^ 1022 ≤ |a + b|
  · exact rel_err hr h1 h2
  · obtain ⟨m, hm⟩ := isDouble_multiple ha
    obtain ⟨n, hn⟩ := isDouble_multiple hb
    have e : a + b = ((m + n : ℤ) : ℝ) / 2 ^ 1074 := by rw [hm, hn]; push_cast; ring
    have hlt : |m + n| < 2 ^ 53 := by
      have h3 : |a + b| < 1 / 2 ^ 1022 := not_le.mp h1
      rw [e, abs_div, abs_of_pos (by positivity : (0 : ℝ) < 2 ^ 1074), div_lt_iff₀ (by positivity)] at h3
      have h4 : (1 : ℝ) / 2 ^ 1022 * 2 ^ 1074 = 2 ^ 52 := by
        rw [show (1074 : ℕ) = 1022 + 52 by norm_num, pow_add, ← mul_assoc, div_mul_cancel₀ _ (by positivity), one_mul]
      rw [h4] at h3
      have h5 : |((m + n : ℤ) : ℝ)| < 2 ^ 53 := h3.trans (by norm_num)
      exact_mod_cast h5
    rw [hr.exact (e ▸ isDouble_sub hlt), sub_self, abs_zero]
    exact mul_nonneg u_pos.le (abs_nonneg _)

theorem sub_err (hr : RoundsToNearest ρ) {a b : ℝ} (ha : IsDouble a) (hb : IsDouble b) (h2 : |a - b| ≤ 2 ^ 1023) :
    |ρ (a - b) - (a - b)| ≤ u * |a - b| := by
  rw [sub_eq_add_neg] at *
  exact sum_err hr ha hb.neg h2

/-- Below half the smallest positive number everything rounds to zero. -/
theorem round_tiny (hr : RoundsToNearest ρ) {x : ℝ} (h : |x| < η) : ρ x = 0 := by
  obtain ⟨m, hm⟩ := isDouble_multiple (hr.double x)
  have h1 := abs_le_two hr x
  have h2 : |(m : ℝ)| < 1 := by
    have h3 : |ρ x| < 2 * η := by linarith
    rw [hm, abs_div, abs_of_pos (by positivity : (0 : ℝ) < 2 ^ 1074), div_lt_iff₀ (by positivity)] at h3
    have : 2 * η * 2 ^ 1074 = 1 := by
      unfold η
      rw [mul_one_div, div_mul_eq_mul_div, ← pow_succ', div_self (by positivity)]
    linarith
  have h4 : |m| < 1 := by exact_mod_cast h2
  have : m = 0 := Int.abs_lt_one_iff.mp h4
  rw [hm, this]; simp

/-! ### Plane geometry -/

theorem norm_mk_sq (x y : ℝ) : ‖(⟨x, y⟩ : ℂ)‖ ^ 2 = x ^ 2 + y ^ 2 := by
  rw [Complex.sq_norm, Complex.normSq_mk]; ring

theorem norm_mk_le {x y B : ℝ} (hB : 0 ≤ B) (h : x ^ 2 + y ^ 2 ≤ B ^ 2) : ‖(⟨x, y⟩ : ℂ)‖ ≤ B := by
  refine abs_le_of_sq_le_sq' ?_ hB |>.2
  rw [norm_mk_sq]; exact h

theorem norm_mk_mono {x y X Y : ℝ} (hx : |x| ≤ X) (hy : |y| ≤ Y) : ‖(⟨x, y⟩ : ℂ)‖ ≤ ‖(⟨X, Y⟩ : ℂ)‖ := by
  refine norm_mk_le (norm_nonneg _) ?_
  rw [norm_mk_sq]
  have h1 := sq_le_sq' (abs_le.mp hx).1 (abs_le.mp hx).2
  have h2 := sq_le_sq' (abs_le.mp hy).1 (abs_le.mp hy).2
  linarith

theorem u_small : u ≤ 1 / 10 ^ 15 := by unfold u; norm_num

/-- Two rounded products added componentwise: the error analysis common to `*` and `/`.  The exact products are
`X1`, `X2`, `Y1`, `Y2`, the rounded ones `x1`, `x2`, `y1`, `y2`. -/
theorem dot_err (hr : RoundsToNearest ρ) {X1 X2 Y1 Y2 x1 x2 y1 y2 N : ℝ} (hN : 0 ≤ N) (hN2 : N ≤ 2 ^ 1019)
    (dx1 : IsDouble x1) (dx2 : IsDouble x2) (dy1 : IsDouble y1) (dy2 : IsDouble y2)
    (ex1 : |x1 - X1| ≤ u * |X1| + η) (ex2 : |x2 - X2| ≤ u * |X2| + η)
    (ey1 : |y1 - Y1| ≤ u * |Y1| + η) (ey2 : |y2 - Y2| ≤ u * |Y2| + η)
    (h1 : (X1 + X2) ^ 2 + (Y1 + Y2) ^ 2 ≤ N ^ 2)
    (h2 : (|X1| + |X2|) ^ 2 + (|Y1| + |Y2|) ^ 2 ≤ 2 * N ^ 2) :
    ‖(⟨ρ (x1 + x2) - (X1 + X2), ρ (y1 + y2) - (Y1 + Y2)⟩ : ℂ)‖ ≤ 5 / 2 * u * N + 4 * η := by
  have hu := u_pos
  have hu2 := u_small
  have hη := η_pos
  have hη1 : η ≤ 1 := by
    unfold η
    exact div_le_one_of_le₀ (one_le_pow₀ (by norm_num)) (by positivity)
  generalize η = η at *
  -- one component
  have comp : ∀ {a b A B : ℝ}, IsDouble a → IsDouble b → |a - A| ≤ u * |A| + η → |b - B| ≤ u * |B| + η →
      |A| + |B| ≤ 2 * N → |ρ (a + b) - (A + B)| ≤ u * |A + B| + (1 + u) * (u * (|A| + |B|)) + (1 + u) * (2 * η) := by
    intro a b A B da db ea eb hAB
    have e1 : |a + b - (A + B)| ≤ u * (|A| + |B|) + 2 * η := by
      have := abs_add_le (a - A) (b - B)
      rw [show a - A + (b - B) = a + b - (A + B) by ring] at this
      nlinarith
    have e2 : |a + b| ≤ |A + B| + (u * (|A| + |B|) + 2 * η) := by
      have := abs_add_le (A + B) (a + b - (A + B))
      rw [show A + B + (a + b - (A + B)) = a + b by ring] at this
      linarith
    have e3 : |A + B| ≤ |A| + |B| := abs_add_le A B
    have big : |a + b| ≤ 2 ^ 1023 := by
      have h3 : u * (|A| + |B|) ≤ |A| + |B| := by
        have : 0 ≤ |A| + |B| := by positivity
        nlinarith
      have h4 : (2 : ℝ) ^ 1023 = 2 ^ 4 * 2 ^ 1019 := by rw [← pow_add]
      have h5 : (1 : ℝ) ≤ 2 ^ 1019 := one_le_pow₀ (by norm_num)
      rw [h4]
      clear h4
      generalize (2 : ℝ) ^ 1019 = G at *
      linarith
    have e4 := sum_err hr da db big
    have e5 := abs_add_le (ρ (a + b) - (a + b)) (a + b - (A + B))
    rw [show ρ (a + b) - (a + b) + (a + b - (A + B)) = ρ (a + b) - (A + B) by ring] at e5
    have e6 := mul_le_mul_of_nonneg_left e2 hu.le
    nlinarith
  clear hN2
  have bX : |X1| + |X2| ≤ 2 * N := by
    refine abs_le_of_sq_le_sq' ?_ (by linarith) |>.2
    nlinarith [sq_nonneg (|Y1| + |Y2|), sq_nonneg N]
  have bY : |Y1| + |Y2| ≤ 2 * N := by
    refine abs_le_of_sq_le_sq' ?_ (by linarith) |>.2
    nlinarith [sq_nonneg (|X1| + |X2|), sq_nonneg N]
  refine (norm_mk_mono (comp dx1 dx2 ex1 ex2 bX) (comp dy1 dy2 ey1 ey2 bY)).trans ?_
  have split : (⟨u * |X1 + X2| + (1 + u) * (u * (|X1| + |X2|)) + (1 + u) * (2 * η),
      u * |Y1 + Y2| + (1 + u) * (u * (|Y1| + |Y2|)) + (1 + u) * (2 * η)⟩ : ℂ) =
      ⟨u * |X1 + X2|, u * |Y1 + Y2|⟩ +
      ⟨(1 + u) * (u * (|X1| + |X2|)), (1 + u) * (u * (|Y1| + |Y2|))⟩ +
      ⟨(1 + u) * (2 * η), (1 + u) * (2 * η)⟩ := by
    apply Complex.ext <;> simp
  rw [split]
  have n1 : ‖(⟨u * |X1 + X2|, u * |Y1 + Y2|⟩ : ℂ)‖ ≤ u * N := by
    refine norm_mk_le (by positivity) ?_
    rw [mul_pow, mul_pow, mul_pow, sq_abs, sq_abs]
    have := mul_le_mul_of_nonneg_left h1 (sq_nonneg u)
    linarith
  have n2 : ‖(⟨(1 + u) * (u * (|X1| + |X2|)), (1 + u) * (u * (|Y1| + |Y2|))⟩ : ℂ)‖ ≤ (1 + u) * (u * (1415 / 1000 * N)) := by
    refine norm_mk_le (by positivity) ?_
    have := mul_le_mul_of_nonneg_left h2 (sq_nonneg ((1 + u) * u))
    have h3 : 0 ≤ ((1 + u) * u) ^ 2 * N ^ 2 := by positivity
    nlinarith
  have n3 : ‖(⟨(1 + u) * (2 * η), (1 + u) * (2 * η)⟩ : ℂ)‖ ≤ (1 + u) * (2 * (15 / 10 * η)) := by
    refine norm_mk_le (by positivity) ?_
    have : 0 ≤ ((1 + u) * η) ^ 2 := by positivity
    nlinarith
  refine (norm_add_le _ _).trans ?_
  have := norm_add_le (⟨u * |X1 + X2|, u * |Y1 + Y2|⟩ : ℂ)
    ⟨(1 + u) * (u * (|X1| + |X2|)), (1 + u) * (u * (|Y1| + |Y2|))⟩
  have h3 : 0 ≤ u * N := mul_nonneg hu.le hN
  have h4 : u * (u * N) ≤ 1 / 10 ^ 15 * (u * N) := mul_le_mul_of_nonneg_right hu2 h3
  have h5 : u * η ≤ 1 / 10 ^ 15 * η := mul_le_mul_of_nonneg_right hu2 hη.le
  nlinarith

/-! ### The program -/

section machine
variable {st : CSt (Flt ρ)} {z w x y r : Nat} {a b v : Cx (Flt ρ)}

@[simp] theorem set_set (st : CSt (Flt ρ)) (z : Nat) (a b : Cx (Flt ρ)) : set (set st z a) z b = set st z b := by
  simp only [set, upd_upd]
theorem set_same (st : CSt (Flt ρ)) (z : Nat) (a : Cx (Flt ρ)) : (set st z a).objs z = some a := by simp [set]
theorem set_other (h : w ≠ z) : (set st z a).objs w = st.objs w := by simp [set, h]
theorem set_fresh (hz : st.objs z = none) (hw : st.objs w = some b) : (set st z a).objs w = some b := by
  rw [set_other, hw]
  rintro rfl
  rw [hz] at hw; exact absurd hw (by simp)
theorem set_comm (st : CSt (Flt ρ)) (hne : x ≠ y) (a b : Cx (Flt ρ)) :
    set (set st x a) y b = set (set st y b) x a := by
  have : upd (upd st.objs x (some a)) y (some b) = upd (upd st.objs y (some b)) x (some a) := by
    funext k
    simp only [upd_apply]
    split
    · split
      · omega
      · rfl
    · rfl
  simp only [set, this]

theorem getRe_ok (h : st.objs z = some a) : getRe z st = .ok a.re st := by simp [getRe, getObj_some h]
theorem getIm_ok (h : st.objs z = some a) : getIm z st = .ok a.im st := by simp [getIm, getObj_some h]
theorem setRe_ok (h : st.objs z = some a) (t : Flt ρ) : setRe z t st = .ok () (set st z ⟨t, a.im⟩) := by
  simp [setRe, getObj_some h, setObj_some h, set]
theorem setIm_ok (h : st.objs z = some a) (t : Flt ρ) : setIm z t st = .ok () (set st z ⟨a.re, t⟩) := by
  simp [setIm, getObj_some h, setObj_some h, set]
theorem new_ok (h : st.objs z = none) : newObj z a st = .ok () (set st z a) := by simp [newObj_none h, set]
theorem copy_ok (h : st.objs z = none) (hx : st.objs x = some a) : copyCtor z x st = .ok () (set st z a) := by
  simp [copyCtor, getObj_some hx, newObj_none h, set]
theorem del_ok (h : st.objs z = none) : delObj z (set st z a) = .ok () st := by
  rw [delObj_some (set_same st z a)]
  have : upd (upd st.objs z (some a)) z none = st.objs := by rw [upd_upd, ← h, upd_self]
  simp [set, this]
theorem ret_ok (h : st.objs z = none) : retLocal z (set st z a) = .ok a st := by
  simp only [retLocal, M.bind_apply, getObj_some (set_same st z a), del_ok h, M.pure_apply]

/-- The operand re-read after `z` has been overwritten. -/
theorem set_alias (hw : st.objs w = some b) (c : Cx (Flt ρ)) :
    (set st z c).objs w = some (if w = z then c else b) := by
  by_cases e : w = z
  · subst e; simp [set]
  · simp [set, e, hw]

theorem addAssign_fp (hz : st.objs z = some a) (hw : st.objs w = some b) :
    addAssign z w st = .ok () (set st z ⟨a.re + b.re, a.im + b.im⟩) := by
  simp only [addAssign, M.bind_apply, getRe_ok hw, getRe_ok hz, setRe_ok hz, getIm_ok (set_same _ _ _),
    getIm_ok (set_alias hw _), setIm_ok (set_same _ _ _), set_set]
  by_cases e : w = z
  · subst e; rw [hz] at hw; cases hw; simp
  · simp [e]
theorem subAssign_fp (hz : st.objs z = some a) (hw : st.objs w = some b) :
    subAssign z w st = .ok () (set st z ⟨a.re - b.re, a.im - b.im⟩) := by
  simp only [subAssign, M.bind_apply, getRe_ok hw, getRe_ok hz, setRe_ok hz, getIm_ok (set_same _ _ _),
    getIm_ok (set_alias hw _), setIm_ok (set_same _ _ _), set_set]
  by_cases e : w = z
  · subst e; rw [hz] at hw; cases hw; simp
  · simp [e]

/-- What `*=` stores. -/
noncomputable def mulV (a b : Cx (Flt ρ)) : Cx (Flt ρ) :=
  ⟨a.re * b.re - a.im * b.im, a.re * b.im + a.im * b.re⟩

theorem mulAssign_fp (hz : st.objs z = some a) (hw : st.objs w = some b) :
    mulAssign z w st = .ok () (set st z (mulV a b)) := by
  simp only [mulAssign, M.bind_apply, getRe_ok hw, getRe_ok hz, getIm_ok hw, getIm_ok hz, setIm_ok hz,
    setRe_ok (set_same _ _ _), set_set, mulV]

/-- What `norm` returns. -/
noncomputable def normV (b : Cx (Flt ρ)) : Flt ρ := b.re * b.re + b.im * b.im

theorem norm_fp (hz : st.objs z = some a) : Complex.norm z st = .ok (normV a) st := by
  simp only [Complex.norm, M.bind_apply, getRe_ok hz, getIm_ok hz, M.pure_apply, normV]

/-- What `/=` stores. -/
noncomputable def divV (a b : Cx (Flt ρ)) : Cx (Flt ρ) :=
  ⟨(a.re * b.re + a.im * b.im) / normV b, (a.im * b.re - a.re * b.im) / normV b⟩

theorem divAssign_fp (hz : st.objs z = some a) (hw : st.objs w = some b) (hn : normV b ≠ 0) :
    divAssign z w st = .ok () (set st z (divV a b)) := by
  have hd : ∀ (t : Flt ρ) (s : CSt (Flt ρ)), divT t (normV b) s = .ok (t / normV b) s := by
    intro t s; simp [divT, hn]
  simp only [divAssign, M.bind_apply, getRe_ok hw, getRe_ok hz, getIm_ok hw, getIm_ok hz, norm_fp hw, hd,
    setIm_ok hz, setRe_ok (set_same _ _ _), set_set, divV]
theorem divAssign_fp_ub (hz : st.objs z = some a) (hw : st.objs w = some b) (hn : normV b = 0) :
    divAssign z w st = .ub .precond := by
  simp only [divAssign, M.bind_apply, getRe_ok hw, getRe_ok hz, getIm_ok hw, getIm_ok hz, norm_fp hw]
  simp [divT, hn]

theorem add_fp (hr : st.objs r = none) (hx : st.objs x = some a) (hy : st.objs y = some b) :
    add r x y st = .ok ⟨a.re + b.re, a.im + b.im⟩ st := by
  simp only [add, M.bind_apply, copy_ok hr hx, addAssign_fp (set_same _ _ _) (set_fresh hr hy), set_set, ret_ok hr]
theorem sub_fp (hr : st.objs r = none) (hx : st.objs x = some a) (hy : st.objs y = some b) :
    sub r x y st = .ok ⟨a.re - b.re, a.im - b.im⟩ st := by
  simp only [sub, M.bind_apply, copy_ok hr hx, subAssign_fp (set_same _ _ _) (set_fresh hr hy), set_set, ret_ok hr]
theorem mul_fp (hr : st.objs r = none) (hx : st.objs x = some a) (hy : st.objs y = some b) :
    mul r x y st = .ok (mulV a b) st := by
  simp only [mul, M.bind_apply, copy_ok hr hx, mulAssign_fp (set_same _ _ _) (set_fresh hr hy), set_set, ret_ok hr]
theorem div_fp (hr : st.objs r = none) (hx : st.objs x = some a) (hy : st.objs y = some b) (hn : normV b ≠ 0) :
    div r x y st = .ok (divV a b) st := by
  simp only [div, M.bind_apply, copy_ok hr hx, divAssign_fp (set_same _ _ _) (set_fresh hr hy) hn, set_set, ret_ok hr]
theorem div_fp_ub (hr : st.objs r = none) (hx : st.objs x = some a) (hy : st.objs y = some b) (hn : normV b = 0) :
    div r x y st = .ub .precond := by
  simp only [div, M.bind_apply, copy_ok hr hx, divAssign_fp_ub (set_same _ _ _) (set_fresh hr hy) hn]

end machine

/-! ### Multiplication, norm, division -/

variable {a b : Cx (Flt ρ)}

theorem isDbl_mulV (hr : RoundsToNearest ρ) (a b : Cx (Flt ρ)) : IsDbl (mulV a b) := ⟨hr.double _, hr.double _⟩
theorem isDbl_divV (hr : RoundsToNearest ρ) (a b : Cx (Flt ρ)) : IsDbl (divV a b) := ⟨hr.double _, hr.double _⟩

theorem cval_sq (a : Cx (Flt ρ)) : ‖cval a‖ ^ 2 = a.re.val ^ 2 + a.im.val ^ 2 := norm_mk_sq _ _

theorem prod_sq (a b : Cx (Flt ρ)) : (‖cval a‖ * ‖cval b‖) ^ 2 =
    (a.re.val ^ 2 + a.im.val ^ 2) * (b.re.val ^ 2 + b.im.val ^ 2) := by
  rw [mul_pow, cval_sq, cval_sq]

/-- A product of parts is at most the product of the norms. -/
theorem part_le {p q N : ℝ} (hN : 0 ≤ N) (h : p ^ 2 * q ^ 2 ≤ N ^ 2) : |p * q| ≤ N := by
  refine abs_le_of_sq_le_sq ?_ hN
  rw [mul_pow]; exact h

theorem parts (a b : Cx (Flt ρ)) : |a.re.val * b.re.val| ≤ ‖cval a‖ * ‖cval b‖ ∧
    |a.im.val * b.im.val| ≤ ‖cval a‖ * ‖cval b‖ ∧ |a.re.val * b.im.val| ≤ ‖cval a‖ * ‖cval b‖ ∧
    |a.im.val * b.re.val| ≤ ‖cval a‖ * ‖cval b‖ := by
  have hN : 0 ≤ ‖cval a‖ * ‖cval b‖ := by positivity
  have h := prod_sq a b
  have h1 := mul_nonneg (sq_nonneg a.re.val) (sq_nonneg b.re.val)
  have h2 := mul_nonneg (sq_nonneg a.im.val) (sq_nonneg b.im.val)
  have h3 := mul_nonneg (sq_nonneg a.re.val) (sq_nonneg b.im.val)
  have h4 := mul_nonneg (sq_nonneg a.im.val) (sq_nonneg b.re.val)
  refine ⟨part_le hN ?_, part_le hN ?_, part_le hN ?_, part_le hN ?_⟩ <;> rw [h] <;> linarith

theorem up_1000 : (2 : ℝ) ^ 1000 ≤ 2 ^ 1019 := pow_le_pow_right₀ (by norm_num) (by norm_num)
theorem down_1000 : (1 : ℝ) / 2 ^ 1012 ≤ 1 / 2 ^ 1000 :=
  one_div_le_one_div_of_le (by positivity) (pow_le_pow_right₀ (by norm_num) (by norm_num))

theorem le_1023 {N : ℝ} (h : N ≤ 2 ^ 1019) : N ≤ 2 ^ 1023 :=
  h.trans (pow_le_pow_right₀ (by norm_num) (by norm_num))

/-- The sum of the absolute products is at most `√2` times the product of the norms. -/
theorem abs_sum_sq (p q r s : ℝ) :
    (|p * r| + |q * s|) ^ 2 + (|p * s| + |q * r|) ^ 2 ≤ 2 * ((p ^ 2 + q ^ 2) * (r ^ 2 + s ^ 2)) := by
  rw [abs_mul, abs_mul, abs_mul, abs_mul, ← sq_abs p, ← sq_abs q, ← sq_abs r, ← sq_abs s]
  nlinarith [sq_nonneg (|p| * |r| - |q| * |s|), sq_nonneg (|p| * |s| - |q| * |r|)]

theorem mul_err (hr : RoundsToNearest ρ) (hN : ‖cval a‖ * ‖cval b‖ ≤ 2 ^ 1019) :
    ‖cval (mulV a b) - cval a * cval b‖ ≤ 5 / 2 * u * (‖cval a‖ * ‖cval b‖) + 4 * η := by
  obtain ⟨h1, h2, h3, h4⟩ := parts a b
  have e := fun {p : ℝ} (h : |p| ≤ ‖cval a‖ * ‖cval b‖) => round_err hr (h.trans (le_1023 hN))
  have e2 : |-ρ (a.im.val * b.im.val) - -(a.im.val * b.im.val)| ≤ u * |-(a.im.val * b.im.val)| + η := by
    rw [abs_neg, ← neg_sub', abs_neg]; exact e h2
  have key := dot_err hr (by positivity) hN (hr.double (a.re.val * b.re.val)) (hr.double (a.im.val * b.im.val)).neg
    (hr.double (a.re.val * b.im.val)) (hr.double (a.im.val * b.re.val)) (e h1) e2 (e h3) (e h4)
    (by rw [prod_sq]; apply le_of_eq; ring)
    (by rw [abs_neg, prod_sq]; exact abs_sum_sq _ _ _ _)
  convert key using 2
  apply Complex.ext <;> simp [cval, mulV, sub_eq_add_neg]

theorem normV_err (hr : RoundsToNearest ρ) (hN : ‖cval b‖ * ‖cval b‖ ≤ 2 ^ 1019) :
    |(normV b).val - ‖cval b‖ ^ 2| ≤ 21 / 10 * u * ‖cval b‖ ^ 2 + 3 * η := by
  obtain ⟨h1, h2, -, -⟩ := parts b b
  have e1 := round_err hr (h1.trans (le_1023 hN))
  have e2 := round_err hr (h2.trans (le_1023 hN))
  have hu := u_pos
  have hu2 := u_small
  have hη := η_pos
  have hη1 : η ≤ 1 := by
    unfold η
    exact div_le_one_of_le₀ (one_le_pow₀ (by norm_num)) (by positivity)
  have q1 := mul_self_nonneg b.re.val
  have q2 := mul_self_nonneg b.im.val
  rw [abs_of_nonneg q1] at e1
  rw [abs_of_nonneg q2] at e2
  have sq := cval_sq b
  have d1 := hr.double (b.re.val * b.re.val)
  have d2 := hr.double (b.im.val * b.im.val)
  simp only [normV, val_add, val_mul]
  rw [← pow_two] at hN
  set p := ρ (b.re.val * b.re.val)
  set q := ρ (b.im.val * b.im.val)
  set n := ‖cval b‖ ^ 2
  have hn : n = b.re.val * b.re.val + b.im.val * b.im.val := by rw [sq]; ring
  have s1 : |p + q - n| ≤ u * n + 2 * η := by
    have := abs_add_le (p - b.re.val * b.re.val) (q - b.im.val * b.im.val)
    rw [show p - b.re.val * b.re.val + (q - b.im.val * b.im.val) = p + q - n by rw [hn]; ring] at this
    nlinarith
  have n0 : 0 ≤ n := by rw [hn]; linarith
  have un : u * n ≤ 1 / 10 ^ 15 * n := mul_le_mul_of_nonneg_right hu2 n0
  have s2 : |p + q| ≤ n + (u * n + 2 * η) := by
    have := abs_add_le n (p + q - n)
    rw [show n + (p + q - n) = p + q by ring, abs_of_nonneg n0] at this
    linarith
  have big : |p + q| ≤ 2 ^ 1023 := by
    have h4 : (2 : ℝ) ^ 1023 = 2 ^ 4 * 2 ^ 1019 := by rw [← pow_add]
    have h5 : (1 : ℝ) ≤ 2 ^ 1019 := one_le_pow₀ (by norm_num)
    rw [h4]
    clear h4
    generalize η = η at *
    generalize (2 : ℝ) ^ 1019 = G at *
    linarith
  have s3 := sum_err hr d1 d2 big
  clear hN big
  generalize η = η at *
  have s4 := abs_add_le (ρ (p + q) - (p + q)) (p + q - n)
  rw [show ρ (p + q) - (p + q) + (p + q - n) = ρ (p + q) - n by ring] at s4
  have s5 := mul_le_mul_of_nonneg_left s2 hu.le
  have s6 : u * (u * n) ≤ 1 / 10 ^ 15 * (u * n) := mul_le_mul_of_nonneg_right hu2 (by positivity)
  have s7 : u * η ≤ 1 / 10 ^ 15 * η := mul_le_mul_of_nonneg_right hu2 hη.le
  nlinarith

/-- The numerator of the quotient. -/
noncomputable def numV (a b : Cx (Flt ρ)) : Cx (Flt ρ) :=
  ⟨a.re * b.re + a.im * b.im, a.im * b.re - a.re * b.im⟩

theorem num_err (hr : RoundsToNearest ρ) (hN : ‖cval a‖ * ‖cval b‖ ≤ 2 ^ 1019) :
    ‖cval (numV a b) - cval a * star (cval b)‖ ≤ 5 / 2 * u * (‖cval a‖ * ‖cval b‖) + 4 * η := by
  obtain ⟨h1, h2, h3, h4⟩ := parts a b
  have e := fun {p : ℝ} (h : |p| ≤ ‖cval a‖ * ‖cval b‖) => round_err hr (h.trans (le_1023 hN))
  have e2 : |-ρ (a.re.val * b.im.val) - -(a.re.val * b.im.val)| ≤ u * |-(a.re.val * b.im.val)| + η := by
    rw [abs_neg, ← neg_sub', abs_neg]; exact e h3
  have key := dot_err hr (by positivity) hN (hr.double (a.re.val * b.re.val)) (hr.double (a.im.val * b.im.val))
    (hr.double (a.im.val * b.re.val)) (hr.double (a.re.val * b.im.val)).neg (e h1) (e h2) (e h4) e2
    (by rw [prod_sq]; apply le_of_eq; ring)
    (by rw [abs_neg, prod_sq, add_comm |a.im.val * b.re.val|]; exact abs_sum_sq _ _ _ _)
  convert key using 2
  apply Complex.ext <;> simp [cval, numV, sub_eq_add_neg, add_comm]

theorem η_le_one : η ≤ 1 := by
  unfold η
  exact div_le_one_of_le₀ (one_le_pow₀ (by norm_num)) (by positivity)

/-- Underflow is negligible against numbers that are not tiny. -/
theorem η_small {n : ℝ} (h : 1 / 2 ^ 1012 ≤ n) : 1000 * η ≤ u * n := by
  have h1 := mul_le_mul_of_nonneg_left h u_pos.le
  refine le_trans ?_ h1
  unfold η u
  rw [mul_one_div, div_mul_div_comm, one_mul, ← pow_add, div_le_div_iff₀ (by positivity) (by positivity), one_mul]
  calc (1000 : ℝ) * 2 ^ (53 + 1012) ≤ 2 ^ 10 * 2 ^ (53 + 1012) :=
        mul_le_mul_of_nonneg_right (by norm_num) (by positivity)
    _ = 2 ^ 1075 := by rw [← pow_add]

attribute [local irreducible] η

theorem normV_rel (hr : RoundsToNearest ρ) (h1 : 1 / 2 ^ 1012 ≤ ‖cval b‖ ^ 2) (h2 : ‖cval b‖ ^ 2 ≤ 2 ^ 1019) :
    |(normV b).val - ‖cval b‖ ^ 2| ≤ 22 / 10 * u * ‖cval b‖ ^ 2 := by
  have := normV_err hr (b := b) (by rwa [← pow_two])
  have := η_small h1
  have := η_pos
  clear h1 h2
  generalize η = η at *
  linarith

theorem div_err (hr : RoundsToNearest ρ) (hN : ‖cval a‖ * ‖cval b‖ ≤ 2 ^ 1019)
    (h1 : 1 / 2 ^ 1012 ≤ ‖cval b‖ ^ 2) (h2 : ‖cval b‖ ^ 2 ≤ 2 ^ 1019) (hq : ‖cval a‖ / ‖cval b‖ ≤ 2 ^ 1019) :
    normV b ≠ 0 ∧ ‖cval (divV a b) - cval a / cval b‖ ≤
      6 * u * (‖cval a‖ / ‖cval b‖) + 6 * η / ‖cval b‖ ^ 2 + 2 * η := by
  have hu := u_pos
  have hu2 := u_small
  have hη := η_pos
  have hη1 := η_le_one
  have he := normV_rel hr h1 h2
  have hR := num_err hr hN
  have hηs := η_small h1
  have n0 : 0 < ‖cval b‖ ^ 2 := lt_of_lt_of_le (by positivity) h1
  have b0 : 0 < ‖cval b‖ := by
    rcases (norm_nonneg (cval b)).lt_or_eq with h | h
    · exact h
    · rw [← h] at n0; norm_num at n0
  have hNn : ‖cval a‖ / ‖cval b‖ = ‖cval a‖ * ‖cval b‖ / ‖cval b‖ ^ 2 := by
    field_simp
  have hval : cval a / cval b = cval a * star (cval b) / (‖cval b‖ ^ 2 : ℝ) := by
    have hb : cval b ≠ 0 := norm_pos_iff.mp b0
    have e : cval b * star (cval b) = (‖cval b‖ ^ 2 : ℝ) := by
      rw [← Complex.normSq_eq_norm_sq]; exact Complex.mul_conj _
    rw [div_eq_div_iff hb (by exact_mod_cast n0.ne'), ← e]; ring
  have hnR : ‖cval a * star (cval b)‖ = ‖cval a‖ * ‖cval b‖ := by rw [norm_mul, norm_star]
  set n := ‖cval b‖ ^ 2
  set N := ‖cval a‖ * ‖cval b‖
  set R := cval a * star (cval b)
  set m := (normV b).val
  have N0 : 0 ≤ N := by positivity
  have un : u * n ≤ 1 / 10 ^ 15 * n := mul_le_mul_of_nonneg_right hu2 n0.le
  rw [abs_le] at he
  have m1 : n * (1 - 22 / 10 * u) ≤ m := by linarith
  have m0 : 0 < m := by linarith
  have m2 : 1 / m ≤ (1 + 3 * u) / n := by
    rw [div_le_div_iff₀ m0 n0, one_mul]
    have : u * (u * n) ≤ 1 / 10 ^ 15 * (u * n) := mul_le_mul_of_nonneg_right hu2 (by positivity)
    nlinarith
  have mne : normV b ≠ 0 := by
    intro h
    have : m = 0 := by simp only [m, h, val_zero]
    linarith
  refine ⟨mne, ?_⟩
  rw [hNn, hval]
  set Q := cval (numV a b) / (m : ℂ) with hQ
  have s1 : ‖Q - R / (n : ℝ)‖ ≤ (48 / 10 * u * N + 5 * η) / n := by
    have e : Q - R / (n : ℝ) = (cval (numV a b) - R + R * (((n - m) / n : ℝ) : ℂ)) / (m : ℂ) := by
      have h3 : (m : ℂ) ≠ 0 := by exact_mod_cast m0.ne'
      have h4 : (n : ℂ) ≠ 0 := by exact_mod_cast n0.ne'
      rw [hQ]; push_cast; field_simp; ring
    have h5 : ‖(((n - m) / n : ℝ) : ℂ)‖ ≤ 22 / 10 * u := by
      rw [Complex.norm_real, Real.norm_eq_abs, abs_div, abs_of_pos n0, div_le_iff₀ n0, abs_le]
      constructor <;> linarith
    have h6 : ‖cval (numV a b) - R + R * (((n - m) / n : ℝ) : ℂ)‖ ≤ 47 / 10 * u * N + 4 * η := by
      refine (norm_add_le _ _).trans ?_
      rw [norm_mul, hnR]
      have := mul_le_mul_of_nonneg_left h5 N0
      linarith
    rw [e, norm_div, Complex.norm_real, Real.norm_eq_abs, abs_of_pos m0, div_eq_mul_one_div]
    have h7 : 0 ≤ 47 / 10 * u * N + 4 * η := by positivity
    refine (mul_le_mul h6 m2 (by positivity) h7).trans ?_
    rw [← mul_div_assoc]
    refine div_le_div_of_nonneg_right ?_ n0.le
    have h8 : u * (u * N) ≤ 1 / 10 ^ 15 * (u * N) := mul_le_mul_of_nonneg_right hu2 (by positivity)
    have h9 : u * η ≤ 1 / 10 ^ 15 * η := mul_le_mul_of_nonneg_right hu2 hη.le
    nlinarith [mul_nonneg hu.le N0]
  have s2 : ‖Q‖ ≤ N / n + (48 / 10 * u * N + 5 * η) / n := by
    have h3 := norm_add_le (R / (n : ℝ)) (Q - R / (n : ℝ))
    have h4 : ‖R / (n : ℂ)‖ = N / n := by
      rw [norm_div, hnR, Complex.norm_real, Real.norm_eq_abs, abs_of_pos n0]
    rw [add_sub_cancel, h4] at h3
    linarith
  have s2' : (48 / 10 * u * N + 5 * η) / n = 48 / 10 * u * (N / n) + 5 * (η / n) := by ring
  have hηn : η / n ≤ 1 := by
    rw [div_le_one n0]; nlinarith
  have big : ‖Q‖ ≤ 2 ^ 1023 := by
    rw [hNn] at hq
    have h4 : (2 : ℝ) ^ 1023 = 2 ^ 4 * 2 ^ 1019 := by rw [← pow_add]
    have h5 : (1 : ℝ) ≤ 2 ^ 1019 := one_le_pow₀ (by norm_num)
    have h6 : 0 ≤ N / n := by positivity
    have h7 : u * (N / n) ≤ 1 / 10 ^ 15 * (N / n) := mul_le_mul_of_nonneg_right hu2 h6
    rw [s2'] at s2
    rw [h4]
    clear h4 hN h1 h2
    generalize η / n = ηn at *
    generalize (2 : ℝ) ^ 1019 = G at *
    linarith
  have s3 : ‖cval (divV a b) - Q‖ ≤ u * ‖Q‖ + 2 * η := by
    have c1 := round_err hr ((Complex.abs_re_le_norm Q).trans big)
    have c2 := round_err hr ((Complex.abs_im_le_norm Q).trans big)
    have er : (divV a b).re.val = ρ Q.re := by
      simp only [hQ, Complex.div_ofReal_re]; rfl
    have ei : (divV a b).im.val = ρ Q.im := by
      simp only [hQ, Complex.div_ofReal_im]; rfl
    have e : cval (divV a b) - Q = ⟨ρ Q.re - Q.re, ρ Q.im - Q.im⟩ := by
      apply Complex.ext <;> simp [cval, er, ei]
    rw [e]
    refine (norm_mk_mono c1 c2).trans ?_
    have e' : (⟨u * |Q.re| + η, u * |Q.im| + η⟩ : ℂ) = ⟨u * |Q.re|, u * |Q.im|⟩ + ⟨η, η⟩ := by
      apply Complex.ext <;> simp
    rw [e']
    refine (norm_add_le _ _).trans (add_le_add ?_ ?_)
    · refine norm_mk_le (by positivity) ?_
      have h3 : ‖Q‖ ^ 2 = Q.re ^ 2 + Q.im ^ 2 := norm_mk_sq Q.re Q.im
      rw [mul_pow, mul_pow, mul_pow, sq_abs, sq_abs, h3]
      apply le_of_eq; ring
    · refine norm_mk_le (by linarith) ?_
      nlinarith
  have := norm_add_le (cval (divV a b) - Q) (Q - R / (n : ℝ))
  rw [sub_add_sub_cancel] at this
  have h6 : 0 ≤ N / n := by positivity
  have h7 := mul_le_mul_of_nonneg_left s2 hu.le
  rw [s2'] at h7 s1
  have h8 : u * (u * (N / n)) ≤ 1 / 10 ^ 15 * (u * (N / n)) := mul_le_mul_of_nonneg_right hu2 (by positivity)
  have h9 : u * (η / n) ≤ 1 / 10 ^ 15 * (η / n) := mul_le_mul_of_nonneg_right hu2 (by positivity)
  have h10 : 0 ≤ η / n := by positivity
  have h11 : 0 ≤ u * (N / n) := by positivity
  rw [show 6 * η / n = 6 * (η / n) by ring]
  linarith

end Cest.CxFp
