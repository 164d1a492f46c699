import Verif.CxIeee.Spec
import Verif.CxFp.Proofs
import Verif.Ieee.Values

namespace Cest.CxIeee
open Cest Cest.Complex Cest.Ieee Cest.Ieee.D
open Cest.Cmath (IsDouble RoundsToNearest)

variable {ρ : ℝ → ℝ}

@[simp] theorem d_zero : (0 : Dbl ρ).d = fin 0 := rfl
@[simp] theorem d_one : (1 : Dbl ρ).d = fin 1 := rfl
@[simp] theorem d_add (a b : Dbl ρ) : (a + b).d = D.add ρ a.d b.d := rfl
@[simp] theorem d_sub (a b : Dbl ρ) : (a - b).d = D.sub ρ a.d b.d := rfl
@[simp] theorem d_mul (a b : Dbl ρ) : (a * b).d = D.mul ρ a.d b.d := rfl
@[simp] theorem d_div (a b : Dbl ρ) : (a / b).d = D.div ρ a.d b.d := rfl
@[simp] theorem d_neg (a : Dbl ρ) : (-a).d = D.neg a.d := rfl

section machine
variable {st : CSt (Dbl ρ)} {r x y z w : Nat} {a b : Cx (Dbl ρ)}

@[simp] theorem set_set (st : CSt (Dbl ρ)) (z : Nat) (a b : Cx (Dbl ρ)) : set (set st z a) z b = set st z b := by
  simp only [set, upd_upd]
theorem set_same (st : CSt (Dbl ρ)) (z : Nat) (a : Cx (Dbl ρ)) : (set st z a).objs z = some a := by simp [set]
theorem set_fresh (hz : st.objs z = none) (hw : st.objs w = some b) : (set st z a).objs w = some b := by
  have : w ≠ z := by rintro rfl; rw [hz] at hw; exact absurd hw (by simp)
  simp [set, this, hw]
theorem set_alias (hw : st.objs w = some b) (c : Cx (Dbl ρ)) :
    (set st z c).objs w = some (if w = z then c else b) := by
  by_cases e : w = z
  · subst e; simp [set]
  · simp [set, e, hw]
theorem getRe_ok (h : st.objs z = some a) : getRe z st = .ok a.re st := by simp [getRe, getObj_some h]
theorem getIm_ok (h : st.objs z = some a) : getIm z st = .ok a.im st := by simp [getIm, getObj_some h]
theorem setRe_ok (h : st.objs z = some a) (t : Dbl ρ) : setRe z t st = .ok () (set st z ⟨t, a.im⟩) := by
  simp [setRe, getObj_some h, setObj_some h, set]
theorem setIm_ok (h : st.objs z = some a) (t : Dbl ρ) : setIm z t st = .ok () (set st z ⟨a.re, t⟩) := by
  simp [setIm, getObj_some h, setObj_some h, set]
theorem copy_ok (h : st.objs z = none) (hx : st.objs x = some a) : copyCtor z x st = .ok () (set st z a) := by
  simp [copyCtor, getObj_some hx, newObj_none h, set]
theorem ctor_ok (h : st.objs z = none) (t : Dbl ρ) : ctor z t 0 st = .ok () (set st z ⟨t, 0⟩) := by
  simp [ctor, newObj_none h, set]
theorem ret_ok (h : st.objs z = none) : retLocal z (set st z a) = .ok a st := by
  have hd : delObj z (set st z a) = .ok () st := by
    rw [delObj_some (set_same st z a)]
    have : upd (upd st.objs z (some a)) z none = st.objs := by rw [upd_upd, ← h, upd_self]
    simp [set, this]
  simp only [retLocal, M.bind_apply, getObj_some (set_same st z a), hd, M.pure_apply]

theorem addAssign_run (hz : st.objs z = some a) (hw : st.objs w = some b) :
    addAssign z w st = .ok () (set st z ⟨a.re + b.re, a.im + b.im⟩) := by
  simp only [addAssign, M.bind_apply, getRe_ok hw, getRe_ok hz, setRe_ok hz, getIm_ok (set_same _ _ _),
    getIm_ok (set_alias hw _), setIm_ok (set_same _ _ _), set_set]
  by_cases e : w = z
  · subst e; rw [hz] at hw; cases hw; simp
  · simp [e]
theorem subAssign_run (hz : st.objs z = some a) (hw : st.objs w = some b) :
    subAssign z w st = .ok () (set st z ⟨a.re - b.re, a.im - b.im⟩) := by
  simp only [subAssign, M.bind_apply, getRe_ok hw, getRe_ok hz, setRe_ok hz, getIm_ok (set_same _ _ _),
    getIm_ok (set_alias hw _), setIm_ok (set_same _ _ _), set_set]
  by_cases e : w = z
  · subst e; rw [hz] at hw; cases hw; simp
  · simp [e]

/-- What `*=` stores. -/
noncomputable def mulV (a b : Cx (Dbl ρ)) : Cx (Dbl ρ) :=
  ⟨a.re * b.re - a.im * b.im, a.re * b.im + a.im * b.re⟩
/-- What `norm` returns. -/
noncomputable def normV (b : Cx (Dbl ρ)) : Dbl ρ := b.re * b.re + b.im * b.im
/-- What `/=` stores. -/
noncomputable def divV (a b : Cx (Dbl ρ)) : Cx (Dbl ρ) :=
  ⟨(a.re * b.re + a.im * b.im) / normV b, (a.im * b.re - a.re * b.im) / normV b⟩

theorem mulAssign_run (hz : st.objs z = some a) (hw : st.objs w = some b) :
    mulAssign z w st = .ok () (set st z (mulV a b)) := by
  simp only [mulAssign, M.bind_apply, getRe_ok hw, getRe_ok hz, getIm_ok hw, getIm_ok hz, setIm_ok hz,
    setRe_ok (set_same _ _ _), set_set, mulV]
theorem norm_run (hz : st.objs z = some a) : Complex.norm z st = .ok (normV a) st := by
  simp only [Complex.norm, M.bind_apply, getRe_ok hz, getIm_ok hz, M.pure_apply, normV]
theorem divAssign_run (hz : st.objs z = some a) (hw : st.objs w = some b) :
    divAssign z w st = .ok () (set st z (divV a b)) := by
  simp only [divAssign, M.bind_apply, getRe_ok hw, getRe_ok hz, getIm_ok hw, getIm_ok hz, norm_run hw,
    setIm_ok hz, setRe_ok (set_same _ _ _), set_set, divV]
theorem divAssignS_run (hz : st.objs z = some a) (t : Dbl ρ) :
    divAssignS z t st = .ok () (set st z ⟨a.re / t, a.im / t⟩) := by
  simp only [divAssignS, M.bind_apply, getRe_ok hz, setRe_ok hz, getIm_ok (set_same _ _ _), setIm_ok (set_same _ _ _), set_set]

theorem add_run (hr : st.objs r = none) (hx : st.objs x = some a) (hy : st.objs y = some b) :
    Complex.add r x y st = .ok ⟨a.re + b.re, a.im + b.im⟩ st := by
  simp only [Complex.add, M.bind_apply, copy_ok hr hx, addAssign_run (set_same _ _ _) (set_fresh hr hy), set_set, ret_ok hr]
theorem sub_run (hr : st.objs r = none) (hx : st.objs x = some a) (hy : st.objs y = some b) :
    Complex.sub r x y st = .ok ⟨a.re - b.re, a.im - b.im⟩ st := by
  simp only [Complex.sub, M.bind_apply, copy_ok hr hx, subAssign_run (set_same _ _ _) (set_fresh hr hy), set_set, ret_ok hr]
theorem mul_run (hr : st.objs r = none) (hx : st.objs x = some a) (hy : st.objs y = some b) :
    Complex.mul r x y st = .ok (mulV a b) st := by
  simp only [Complex.mul, M.bind_apply, copy_ok hr hx, mulAssign_run (set_same _ _ _) (set_fresh hr hy), set_set, ret_ok hr]
theorem div_run (hr : st.objs r = none) (hx : st.objs x = some a) (hy : st.objs y = some b) :
    CxIeee.div r x y st = .ok (divV a b) st := by
  simp only [CxIeee.div, M.bind_apply, copy_ok hr hx, divAssign_run (set_same _ _ _) (set_fresh hr hy), set_set, ret_ok hr]
theorem divCS_run (hr : st.objs r = none) (hx : st.objs x = some a) (t : Dbl ρ) :
    divCS r x t st = .ok ⟨a.re / t, a.im / t⟩ st := by
  simp only [divCS, M.bind_apply, copy_ok hr hx, divAssignS_run (set_same _ _ _) t, set_set, ret_ok hr]
theorem divSC_run (hr : st.objs r = none) (hy : st.objs y = some b) (t : Dbl ρ) :
    divSC r t y st = .ok (divV ⟨t, 0⟩ b) st := by
  simp only [divSC, M.bind_apply, ctor_ok hr, divAssign_run (set_same _ _ _) (set_fresh hr hy), set_set, ret_ok hr]

end machine

/-! ### Values -/

theorem add_comm' (a b : D) : D.add ρ a b = D.add ρ b a := by
  have hF : ∀ a b : D, addF ρ a b = addF ρ b a := fun a b => by
    unfold addF; rw [add_comm b.val, Bool.and_comm b.sign]
  rcases a with _ | s | _ | x <;> rcases b with _ | t | _ | y <;> simp only [D.add] <;> first
    | exact hF _ _
    | (cases s <;> cases t <;> simp)

theorem mul_comm' (a b : D) : D.mul ρ a b = D.mul ρ b a := by
  rcases a with _ | s | _ | x <;> rcases b with _ | t | _ | y <;> simp only [D.mul, Bool.xor_comm, mul_comm]

/-- Infinite or NaN. -/
def Big (a : D) : Prop := a = nan ∨ ∃ s, a = inf s

theorem big_inf_mul (s : Bool) (b : D) : Big (D.mul ρ (inf s) b) := by
  rcases b with _ | t | _ | y <;> simp only [D.mul] <;> first
    | exact Or.inl rfl
    | exact Or.inr ⟨_, rfl⟩
    | (split
       · exact Or.inl rfl
       · exact Or.inr ⟨_, rfl⟩)
theorem big_mul_inf (s : Bool) (b : D) : Big (D.mul ρ b (inf s)) := by rw [mul_comm']; exact big_inf_mul s b
theorem Big.add {a : D} (h : Big a) (b : D) : Big (D.add ρ a b) := by
  rcases h with rfl | ⟨s, rfl⟩
  · left; simp
  · rcases b with _ | t | _ | y <;> simp only [D.add] <;> first
      | exact Or.inl rfl
      | exact Or.inr ⟨_, rfl⟩
      | (split
         · exact Or.inr ⟨_, rfl⟩
         · exact Or.inl rfl)
theorem Big.add' {a : D} (h : Big a) (b : D) : Big (D.add ρ b a) := by rw [add_comm']; exact h.add b
theorem Big.neg {a : D} (h : Big a) : Big (D.neg a) := by
  rcases h with rfl | ⟨s, rfl⟩
  · exact Or.inl rfl
  · exact Or.inr ⟨_, rfl⟩
theorem Big.div {a b : D} (h : Big a) (h' : Big b) : D.div ρ a b = nan := by
  rcases h with rfl | ⟨s, rfl⟩ <;> rcases h' with rfl | ⟨t, rfl⟩ <;> simp [D.div]

variable {a b : Cx (Dbl ρ)}

theorem normV_big (h : Infinite b) : Big (normV b).d := by
  rcases h with ⟨s, h⟩ | ⟨s, h⟩ <;> simp only [normV, d_add, d_mul, h]
  · exact (big_inf_mul s _).add _
  · exact (big_inf_mul s _).add' _

theorem cx_eq {p : Cx (Dbl ρ)} {u v : D} (h1 : p.re.d = u) (h2 : p.im.d = v) : p = ⟨⟨u⟩, ⟨v⟩⟩ := by
  obtain ⟨⟨_⟩, ⟨_⟩⟩ := p
  cases h1; cases h2; rfl

/-- Division by an infinity. -/
theorem divV_inf (h : Infinite b) : divV a b = bothNan := by
  have hn := normV_big h
  refine cx_eq ?_ ?_
  · simp only [divV, d_div, d_add, d_mul]
    refine Big.div ?_ hn
    rcases h with ⟨s, h⟩ | ⟨s, h⟩ <;> rw [h]
    · exact (big_mul_inf s _).add _
    · exact (big_mul_inf s _).add' _
  · simp only [divV, d_div, d_sub, d_mul, D.sub]
    refine Big.div ?_ hn
    rcases h with ⟨s, h⟩ | ⟨s, h⟩ <;> rw [h]
    · exact (big_mul_inf s _).add _
    · exact (big_mul_inf s _).neg.add' _

theorem mulV_nan (h : SomeNan a ∨ SomeNan b) : mulV a b = bothNan := by
  rcases h with (h | h) | (h | h) <;> refine cx_eq ?_ ?_ <;> simp [mulV, h]

theorem divV_nan (h : SomeNan a ∨ SomeNan b) : divV a b = bothNan := by
  rcases h with (h | h) | (h | h) <;> refine cx_eq ?_ ?_ <;> simp [divV, normV, h]

theorem mulV_comm (a b : Cx (Dbl ρ)) : mulV a b = mulV b a := by
  refine cx_eq ?_ ?_
  · show D.sub ρ (D.mul ρ a.re.d b.re.d) (D.mul ρ a.im.d b.im.d) = D.sub ρ (D.mul ρ b.re.d a.re.d) (D.mul ρ b.im.d a.im.d)
    rw [mul_comm' a.re.d, mul_comm' a.im.d]
  · show D.add ρ (D.mul ρ a.re.d b.im.d) (D.mul ρ a.im.d b.re.d) = D.add ρ (D.mul ρ b.re.d a.im.d) (D.mul ρ b.im.d a.re.d)
    rw [add_comm', mul_comm' a.im.d, mul_comm' a.re.d]

/-! ### Finite operands -/

theorem sign_mul {A B : D} {x y : ℝ} (hA : Is A x) (hB : Is B y) (h : x * y ≠ 0) :
    (xor A.sign B.sign) = decide (x * y < 0) := by
  have hx : x ≠ 0 := left_ne_zero_of_mul h
  have hy : y ≠ 0 := right_ne_zero_of_mul h
  rcases hA.cases with ⟨-, e⟩ | rfl
  · exact absurd e hx
  rcases hB.cases with ⟨-, e⟩ | rfl
  · exact absurd e hy
  simp only [D.sign]
  rcases lt_or_gt_of_ne hx with h1 | h1 <;> rcases lt_or_gt_of_ne hy with h2 | h2
  · simp [h1, h2, (mul_pos_of_neg_of_neg h1 h2).le]
  · simp [h1, h2.le, mul_neg_of_neg_of_pos h1 h2]
  · simp [h1.le, h2, mul_neg_of_pos_of_neg h1 h2]
  · simp [not_lt.mpr (le_of_lt h1), not_lt.mpr (le_of_lt h2), not_lt.mpr (mul_pos h1 h2).le]

theorem lim_pos : 0 < lim := lt_trans (by norm_num) lim_big

/-- A product of finite numbers is finite or, exactly when it is too large, the infinity with its sign. -/
theorem mul_cases {A B : D} {x y : ℝ} (hA : Is A x) (hB : Is B y) :
    (|x * y| < lim ∧ Is (D.mul ρ A B) (ρ (x * y))) ∨ (lim ≤ |x * y| ∧ D.mul ρ A B = inf (decide (x * y < 0))) := by
  rcases lt_or_ge |x * y| lim with h | h
  · exact Or.inl ⟨h, hA.mul hB h⟩
  · refine Or.inr ⟨h, ?_⟩
    have h0 : x * y ≠ 0 := by
      intro e; rw [e, abs_zero] at h; linarith [lim_pos]
    rw [mul_fin hA.1 hB.1, hA.2, hB.2, pack_over h, sign_mul hA hB h0]

theorem finite_add_ne_nan {A B : D} {x y : ℝ} (hA : Is A x) (hB : Is B y) : D.add ρ A B ≠ nan := by
  rw [add_fin hA.1 hB.1, addF]
  split
  · exact (is_zero _).ne_nan
  · exact pack_ne_nan

theorem inf_add_fin {A : D} {x : ℝ} (s : Bool) (hA : Is A x) : D.add ρ (inf s) A = inf s := by
  rcases hA.cases with ⟨rfl, -⟩ | rfl <;> rfl
theorem fin_add_inf {A : D} {x : ℝ} (s : Bool) (hA : Is A x) : D.add ρ A (inf s) = inf s := by
  rw [add_comm', inf_add_fin s hA]

/-- A sum of two products of finite numbers is NaN exactly when the products overflow with opposite signs. -/
theorem sum_nan {A B C E : D} {x y v w : ℝ} (hA : Is A x) (hB : Is B y) (hC : Is C v) (hE : Is E w) :
    D.add ρ (D.mul ρ A B) (D.mul ρ C E) = nan ↔ lim ≤ |x * y| ∧ lim ≤ |v * w| ∧ (x * y) * (v * w) < 0 := by
  have hl := lim_pos
  rcases mul_cases (ρ := ρ) hA hB with ⟨h1, i1⟩ | ⟨h1, i1⟩ <;> rcases mul_cases (ρ := ρ) hC hE with ⟨h2, i2⟩ | ⟨h2, i2⟩
  · exact iff_of_false (finite_add_ne_nan i1 i2) fun h => absurd h.1 (not_le.mpr h1)
  · rw [i2, fin_add_inf _ i1]; exact iff_of_false (by simp) fun h => absurd h.1 (not_le.mpr h1)
  · rw [i1, inf_add_fin _ i2]; exact iff_of_false (by simp) fun h => absurd h.2.1 (not_le.mpr h2)
  · rw [i1, i2]
    simp only [h1, h2, true_and, D.add]
    generalize x * y = p at *
    generalize v * w = q at *
    rcases le_or_gt 0 p with a1 | a1 <;> rcases le_or_gt 0 q with a2 | a2
    · simp [not_lt.mpr a1, not_lt.mpr a2, mul_nonneg a1 a2]
    · have : 0 < p := lt_of_le_of_ne a1 (by rintro rfl; rw [abs_zero] at h1; linarith)
      simp [not_lt.mpr a1, a2, mul_neg_of_pos_of_neg this a2]
    · have : 0 < q := lt_of_le_of_ne a2 (by rintro rfl; rw [abs_zero] at h2; linarith)
      simp [not_lt.mpr a2, a1, mul_neg_of_neg_of_pos a1 this]
    · simp [a1, a2, (mul_pos_of_neg_of_neg a1 a2).le]

/-- As `sum_nan`, for a difference. -/
theorem diff_nan {A B C E : D} {x y v w : ℝ} (hA : Is A x) (hB : Is B y) (hC : Is C v) (hE : Is E w) :
    D.sub ρ (D.mul ρ A B) (D.mul ρ C E) = nan ↔ lim ≤ |x * y| ∧ lim ≤ |v * w| ∧ 0 < (x * y) * (v * w) := by
  have hl := lim_pos
  unfold D.sub
  rcases mul_cases (ρ := ρ) hA hB with ⟨h1, i1⟩ | ⟨h1, i1⟩ <;> rcases mul_cases (ρ := ρ) hC hE with ⟨h2, i2⟩ | ⟨h2, i2⟩
  · exact iff_of_false (finite_add_ne_nan i1 i2.neg) fun h => absurd h.1 (not_le.mpr h1)
  · rw [i2, D.neg, fin_add_inf _ i1]; exact iff_of_false (by simp) fun h => absurd h.1 (not_le.mpr h1)
  · rw [i1, inf_add_fin _ i2.neg]; exact iff_of_false (by simp) fun h => absurd h.2.1 (not_le.mpr h2)
  · rw [i1, i2]
    simp only [h1, h2, true_and, D.add, D.neg]
    generalize x * y = p at *
    generalize v * w = q at *
    rcases le_or_gt 0 p with a1 | a1 <;> rcases le_or_gt 0 q with a2 | a2
    · have p0 : 0 < p := lt_of_le_of_ne a1 (by rintro rfl; rw [abs_zero] at h1; linarith)
      have q0 : 0 < q := lt_of_le_of_ne a2 (by rintro rfl; rw [abs_zero] at h2; linarith)
      simp [not_lt.mpr a1, not_lt.mpr a2, mul_pos p0 q0]
    · simp [not_lt.mpr a1, a2, mul_nonpos_of_nonneg_of_nonpos a1 a2.le]
    · simp [not_lt.mpr a2, a1, mul_nonpos_of_nonpos_of_nonneg a1.le a2]
    · simp [a1, a2, mul_pos_of_neg_of_neg a1 a2]

variable {c e : ℂ}

theorem IsC.re (h : IsC a c) : Is a.re.d c.re := ⟨h.1.1, h.2.1⟩
theorem IsC.im (h : IsC a c) : Is a.im.d c.im := ⟨h.1.2, h.2.2⟩
theorem isC_mk (h : Is a.re.d c.re) (h' : Is a.im.d c.im) : IsC a c := ⟨⟨h.1, h'.1⟩, h.2, h'.2⟩

/-- The finite binary64 number of `Verif/CxFp`. -/
def lower (ρ : ℝ → ℝ) (c : ℂ) : Cx (CxFp.Flt ρ) := ⟨⟨c.re⟩, ⟨c.im⟩⟩
@[simp] theorem cval_lower : CxFp.cval (lower ρ c) = c := rfl

/-- A sum of two products that are not too large. -/
theorem sum_is (hr : RoundsToNearest ρ) {A B C E : D} {x y v w K : ℝ} (hA : Is A x) (hB : Is B y) (hC : Is C v) (hE : Is E w)
    (h1 : |x * y| ≤ K) (h2 : |v * w| ≤ K) (hK : K ≤ 2 ^ 1019) :
    Bd (D.add ρ (D.mul ρ A B) (D.mul ρ C E)) (ρ (ρ (x * y) + ρ (v * w))) (8 * K) ∧
    Bd (D.sub ρ (D.mul ρ A B) (D.mul ρ C E)) (ρ (ρ (x * y) - ρ (v * w))) (8 * K) := by
  have hl : 8 * K < lim := by
    refine lt_lim ((mul_le_mul_of_nonneg_left hK (by norm_num)).trans ?_)
    rw [show (8 : ℝ) = 2 ^ 3 by norm_num, ← pow_add]
    exact pow_le_pow_right₀ (by norm_num) (by norm_num)
  have k0 : 0 ≤ K := (abs_nonneg _).trans h1
  clear hK
  have b1 : Bd (D.mul ρ A B) (ρ (x * y)) (2 * K) :=
    ⟨hA.mul hB (by linarith), (Fp.abs_le_two hr _).trans (by linarith)⟩
  have b2 : Bd (D.mul ρ C E) (ρ (v * w)) (2 * K) :=
    ⟨hC.mul hE (by linarith), (Fp.abs_le_two hr _).trans (by linarith)⟩
  exact ⟨(b1.add hr b2 (by linarith)).weaken (by linarith), (b1.sub hr b2 (by linarith)).weaken (by linarith)⟩

theorem mulV_is (hr : RoundsToNearest ρ) (ha : IsC a c) (hb : IsC b e) (h : ‖c‖ * ‖e‖ ≤ 2 ^ 1019) :
    IsC (mulV a b) (CxFp.cval (CxFp.mulV (lower ρ c) (lower ρ e))) := by
  obtain ⟨p1, p2, p3, p4⟩ := CxFp.parts (lower ρ c) (lower ρ e)
  exact isC_mk (sum_is hr ha.re hb.re ha.im hb.im p1 p2 h).2.1 (sum_is hr ha.re hb.im ha.im hb.re p3 p4 h).1.1

theorem normV_is (hr : RoundsToNearest ρ) (hb : IsC b e) (h : ‖e‖ * ‖e‖ ≤ 2 ^ 1019) :
    Is (normV b).d (CxFp.normV (lower ρ e)).val := by
  obtain ⟨p1, p2, -, -⟩ := CxFp.parts (lower ρ e) (lower ρ e)
  exact (sum_is hr hb.re hb.re hb.im hb.im p1 p2 h).1.1

theorem normV_half (hr : RoundsToNearest ρ) (h1 : 1 / 2 ^ 1012 ≤ ‖e‖ ^ 2) (h2 : ‖e‖ ^ 2 ≤ 2 ^ 1019) :
    1 / 2 * ‖e‖ ^ 2 ≤ (CxFp.normV (lower ρ e)).val := by
  have h := (abs_le.mp (CxFp.normV_err hr (b := lower ρ e) (by simpa [pow_two] using h2))).1
  rw [cval_lower] at h
  have h3 := CxFp.η_small h1
  have h4 := CxFp.u_small
  have h5 := Fp.u_pos
  have h6 := CxFp.η_pos
  clear h1 h2
  generalize ‖e‖ ^ 2 = N at *
  generalize CxFp.η = t at *
  nlinarith

theorem divV_is (hr : RoundsToNearest ρ) (ha : IsC a c) (hb : IsC b e) (h : ‖c‖ * ‖e‖ ≤ 2 ^ 1019)
    (h1 : 1 / 2 ^ 1012 ≤ ‖e‖ ^ 2) (h2 : ‖e‖ ^ 2 ≤ 2 ^ 1019) (hq : ‖c‖ / ‖e‖ ≤ 2 ^ 1019) :
    IsC (divV a b) (CxFp.cval (CxFp.divV (lower ρ c) (lower ρ e))) := by
  obtain ⟨p1, p2, p3, p4⟩ := CxFp.parts (lower ρ c) (lower ρ e)
  have hn := normV_is hr hb (by rwa [← pow_two])
  have hh := normV_half hr h1 h2
  have e0 : 0 < ‖e‖ ^ 2 := lt_of_lt_of_le (by positivity) h1
  have e1 : 0 < ‖e‖ := by
    rcases (norm_nonneg e).eq_or_lt with h | h
    · rw [← h] at e0; norm_num at e0
    · exact h
  generalize hn' : (CxFp.normV (lower ρ e)).val = n at hh hn
  have n0 : 0 < n := by linarith
  have hl : 16 * (‖c‖ / ‖e‖) < lim := by
    refine lt_lim ((mul_le_mul_of_nonneg_left hq (by norm_num)).trans ?_)
    rw [show (16 : ℝ) = 2 ^ 4 by norm_num, ← pow_add]
  have key : ∀ {t : ℝ}, |t| ≤ 8 * (‖c‖ * ‖e‖) → |t / n| < lim := by
    intro t ht
    refine lt_of_le_of_lt ?_ hl
    rw [abs_div, abs_of_pos n0, div_le_iff₀ n0]
    refine ht.trans ?_
    have h3 := mul_le_mul_of_nonneg_left hh (show 0 ≤ 16 * (‖c‖ / ‖e‖) by positivity)
    refine le_trans (le_of_eq ?_) h3
    field_simp
    ring
  have s1 := (sum_is hr ha.re hb.re ha.im hb.im p1 p2 h).1
  have s2 := (sum_is hr ha.im hb.re ha.re hb.im p4 p3 h).2
  subst hn'
  exact isC_mk (s1.1.div hn n0.ne' (key s1.2)) (s2.1.div hn n0.ne' (key s2.2))

/-! ### Divisors whose norm overflows or underflows -/

theorem sq_over {A : D} {x : ℝ} (hA : Is A x) (h : 2 ^ 512 ≤ |x|) : D.mul ρ A A = inf false := by
  have h1 : lim ≤ |x * x| := by
    have h2 := mul_le_mul h h (by positivity) (abs_nonneg _)
    rw [abs_mul]
    rw [← pow_add] at h2
    refine le_trans ?_ h2
    unfold lim
    exact sub_le_self _ (by positivity)
  rcases mul_cases (ρ := ρ) hA hA with ⟨h2, -⟩ | ⟨-, h2⟩
  · exact absurd h1 (not_le.mpr h2)
  · rw [h2, decide_eq_false (not_lt.mpr (mul_self_nonneg x))]

theorem sq_cases {A : D} {x : ℝ} (hA : Is A x) : D.mul ρ A A = inf false ∨ Is (D.mul ρ A A) (ρ (x * x)) := by
  rcases mul_cases (ρ := ρ) hA hA with ⟨-, h⟩ | ⟨-, h⟩
  · exact Or.inr h
  · rw [h, decide_eq_false (not_lt.mpr (mul_self_nonneg x))]; exact Or.inl rfl

theorem normV_over (hb : IsC b e) (h : 2 ^ 512 ≤ |e.re| ∨ 2 ^ 512 ≤ |e.im|) : (normV b).d = inf false := by
  simp only [normV, d_add, d_mul]
  rcases h with h | h
  · rw [sq_over hb.re h]
    rcases sq_cases (ρ := ρ) hb.im with h2 | h2
    · rw [h2]; simp [D.add]
    · exact inf_add_fin _ h2
  · rw [sq_over hb.im h]
    rcases sq_cases (ρ := ρ) hb.re with h2 | h2
    · rw [h2]; simp [D.add]
    · exact fin_add_inf _ h2

/-- Anything divided by an infinity. -/
theorem div_inf (A : D) (s : Bool) : D.div ρ A (inf s) = nan ∨ Is (D.div ρ A (inf s)) 0 := by
  rcases A with _ | t | _ | x
  · exact Or.inl rfl
  · exact Or.inl rfl
  · exact Or.inr (is_zero _)
  · exact Or.inr (is_zero _)

theorem divV_over (hb : IsC b e) (h : 2 ^ 512 ≤ |e.re| ∨ 2 ^ 512 ≤ |e.im|) :
    ((divV a b).re.d = nan ∨ Is (divV a b).re.d 0) ∧ ((divV a b).im.d = nan ∨ Is (divV a b).im.d 0) := by
  simp only [divV, d_div, normV_over hb h]
  exact ⟨div_inf _ _, div_inf _ _⟩

theorem divV_over_self (hb : IsC b e) (h : 2 ^ 512 ≤ |e.re| ∨ 2 ^ 512 ≤ |e.im|) : (divV b b).re.d = nan := by
  have hn := normV_over hb h
  show D.div ρ (normV b).d (normV b).d = nan
  rw [hn]; rfl

theorem zero_sum (hr : RoundsToNearest ρ) {A B : D} (hA : Is A 0) (hB : Is B 0) :
    Is (D.add ρ A B) 0 ∧ Is (D.sub ρ A B) 0 := by
  have h1 := hA.add hr hB (by simpa using lim_pos)
  have h2 := hA.sub hr hB (by simpa using lim_pos)
  rw [add_zero, round_zero hr] at h1
  rw [sub_zero, round_zero hr] at h2
  exact ⟨h1, h2⟩

theorem tiny_mul (hr : RoundsToNearest ρ) {A B : D} {x y : ℝ} (hA : Is A x) (hB : Is B y) (h1 : |x| ≤ 1 / 2 ^ 538)
    (h2 : |y| ≤ 1 / 2 ^ 538) : Is (D.mul ρ A B) 0 := by
  have h3 : |x * y| < CxFp.η := by
    rw [abs_mul]
    refine lt_of_le_of_lt (mul_le_mul h1 h2 (abs_nonneg _) (by positivity)) ?_
    unfold CxFp.η
    rw [div_mul_div_comm, ← pow_add, one_mul]
    exact one_div_lt_one_div_of_lt (by positivity) (pow_lt_pow_right₀ (by norm_num) (by norm_num))
  have h4 : CxFp.η < lim := by
    refine lt_lim ?_
    unfold CxFp.η
    exact (div_le_one_of_le₀ (one_le_pow₀ (by norm_num)) (by positivity)).trans (one_le_pow₀ (by norm_num))
  have h5 := hA.mul (ρ := ρ) hB (h3.trans h4)
  rwa [CxFp.round_tiny hr h3] at h5

theorem div_zero_cases {A B : D} (hB : Is B 0) : D.div ρ A B = nan ∨ ∃ s, D.div ρ A B = inf s := by
  rcases trichotomy A with rfl | rfl | rfl | ⟨x, hA⟩
  · left; simp
  · right; rcases hB.cases with ⟨rfl, -⟩ | rfl <;> exact ⟨_, rfl⟩
  · right; rcases hB.cases with ⟨rfl, -⟩ | rfl <;> exact ⟨_, rfl⟩
  · rw [div_fin hA.1 hB.1, if_pos hB.2]
    split
    · exact Or.inl rfl
    · exact Or.inr ⟨_, rfl⟩

theorem zero_div_zero {A B : D} (hA : Is A 0) (hB : Is B 0) : D.div ρ A B = nan := by
  rw [div_fin hA.1 hB.1, if_pos hB.2, if_pos hA.2]

theorem normV_tiny (hr : RoundsToNearest ρ) (hb : IsC b e) (h1 : |e.re| ≤ 1 / 2 ^ 538) (h2 : |e.im| ≤ 1 / 2 ^ 538) :
    Is (normV b).d 0 :=
  (zero_sum hr (tiny_mul hr hb.re hb.re h1 h1) (tiny_mul hr hb.im hb.im h2 h2)).1

theorem divV_tiny (hr : RoundsToNearest ρ) (hb : IsC b e) (h1 : |e.re| ≤ 1 / 2 ^ 538) (h2 : |e.im| ≤ 1 / 2 ^ 538) :
    ((divV a b).re.d = nan ∨ ∃ s, (divV a b).re.d = inf s) ∧ ((divV a b).im.d = nan ∨ ∃ s, (divV a b).im.d = inf s) :=
  ⟨div_zero_cases (normV_tiny hr hb h1 h2), div_zero_cases (normV_tiny hr hb h1 h2)⟩

theorem divV_tiny_self (hr : RoundsToNearest ρ) (hb : IsC b e) (h1 : |e.re| ≤ 1 / 2 ^ 538) (h2 : |e.im| ≤ 1 / 2 ^ 538) :
    divV b b = bothNan := by
  have hn := normV_tiny hr hb h1 h2
  exact cx_eq (zero_div_zero hn hn)
    (zero_div_zero (zero_sum hr (tiny_mul hr hb.im hb.re h2 h1) (tiny_mul hr hb.re hb.im h1 h2)).2 hn)

theorem mul_zero_cases (hr : RoundsToNearest ρ) {A B : D} (hB : Is B 0) : D.mul ρ A B = nan ∨ Is (D.mul ρ A B) 0 := by
  rcases trichotomy A with rfl | rfl | rfl | ⟨x, hA⟩
  · left; simp
  · left; rcases hB.cases with ⟨rfl, -⟩ | rfl <;> simp [D.mul, D.val]
  · left; rcases hB.cases with ⟨rfl, -⟩ | rfl <;> simp [D.mul, D.val]
  · right
    have := hA.mul (ρ := ρ) hB (by simpa using lim_pos)
    rwa [mul_zero, round_zero hr] at this

theorem divV_zero (hr : RoundsToNearest ρ) (hb : IsC b 0) : divV a b = bothNan := by
  have hn := normV_tiny hr hb (by simp) (by simp)
  have h1 : Is b.re.d 0 := hb.re
  have h2 : Is b.im.d 0 := hb.im
  have key : ∀ {X Y : D}, (X = nan ∨ Is X 0) → (Y = nan ∨ Is Y 0) →
      D.div ρ (D.add ρ X Y) (normV b).d = nan ∧ D.div ρ (D.sub ρ X Y) (normV b).d = nan := by
    rintro X Y (rfl | hX) (rfl | hY)
    · simp
    · simp
    · simp
    · exact ⟨zero_div_zero (zero_sum hr hX hY).1 hn, zero_div_zero (zero_sum hr hX hY).2 hn⟩
  exact cx_eq (key (mul_zero_cases hr h1) (mul_zero_cases hr h2)).1 (key (mul_zero_cases hr h1) (mul_zero_cases hr h2)).2

/-! ### Infinite operands of a product -/

theorem mulV_inf_real {s t : Bool} (ha : a = ⟨⟨inf s⟩, ⟨inf t⟩⟩) (hb : Is b.im.d 0) : mulV a b = bothNan := by
  have h1 : ∀ u, D.mul ρ (inf u) b.im.d = nan := fun u => by
    rcases hb.cases with ⟨h, -⟩ | h <;> rw [h] <;> simp [D.mul, D.val]
  subst ha
  refine cx_eq ?_ ?_ <;> simp [mulV, h1]

theorem inf_mul {A : D} {x : ℝ} (s : Bool) (hA : Is A x) (h : x ≠ 0) : ∃ t, D.mul ρ (inf s) A = inf t := by
  rcases hA.cases with ⟨-, e⟩ | rfl
  · exact absurd e h
  · exact ⟨xor s (fin x).sign, if_neg h⟩

theorem mulV_infinite {s : Bool} {y : ℝ} (ha1 : a.re.d = inf s) (ha2 : Is a.im.d y) (hb : IsC b e) (he : e ≠ 0)
    (h1 : |y * e.re| < lim) (h2 : |y * e.im| < lim) : Infinite (mulV a b) := by
  by_cases h : e.re = 0
  · have h3 : e.im ≠ 0 := fun h3 => he (Complex.ext h h3)
    right
    obtain ⟨t, ht⟩ := inf_mul (ρ := ρ) s hb.im h3
    exact ⟨t, by simp only [mulV, d_add, d_mul, ha1, ht]; exact inf_add_fin _ (ha2.mul hb.re h1)⟩
  · left
    obtain ⟨t, ht⟩ := inf_mul (ρ := ρ) s hb.re h
    exact ⟨t, by simp only [mulV, d_sub, d_mul, ha1, ht]; exact inf_add_fin _ (ha2.mul hb.im h2).neg⟩

theorem mulV_infinite' {s : Bool} {x : ℝ} (ha1 : Is a.re.d x) (ha2 : a.im.d = inf s) (hb : IsC b e) (he : e ≠ 0)
    (h1 : |x * e.re| < lim) (h2 : |x * e.im| < lim) : Infinite (mulV a b) := by
  by_cases h : e.re = 0
  · have h3 : e.im ≠ 0 := fun h3 => he (Complex.ext h h3)
    left
    obtain ⟨t, ht⟩ := inf_mul (ρ := ρ) s hb.im h3
    exact ⟨!t, by simp only [mulV, d_sub, d_mul, ha2, ht]; exact fin_add_inf _ (ha1.mul hb.re h1)⟩
  · right
    obtain ⟨t, ht⟩ := inf_mul (ρ := ρ) s hb.re h
    exact ⟨t, by simp only [mulV, d_add, d_mul, ha2, ht]; exact fin_add_inf _ (ha1.mul hb.im h2)⟩

end Cest.CxIeee
