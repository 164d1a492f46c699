import Verif.Ieee.Model
import Verif.Fp.Round

/-! Facts about the operations of `Verif.Ieee.Model`. -/
namespace Cest.Ieee
open Cest.Cmath (FM IsDouble RoundsToNearest)
open D Classical

variable {ρ : ℝ → ℝ}

namespace D

/-- `a` is finite and its value is `x`. -/
def Is (a : D) (x : ℝ) : Prop := a.Finite ∧ a.val = x

theorem is_fin (x : ℝ) : Is (fin x) x := ⟨Or.inr ⟨x, rfl⟩, rfl⟩
theorem is_nzero : Is nzero 0 := ⟨Or.inl rfl, rfl⟩

theorem Is.cases {a : D} {x : ℝ} (h : Is a x) : (a = nzero ∧ x = 0) ∨ a = fin x := by
  obtain ⟨rfl | ⟨y, rfl⟩, h⟩ := h
  · exact Or.inl ⟨rfl, h.symm⟩
  · right; rw [← show y = x from h]

theorem Is.finite {a : D} {x : ℝ} (h : Is a x) : a.Finite := h.1
theorem Finite.is {a : D} (h : a.Finite) : Is a a.val := ⟨h, rfl⟩

theorem Is.unique {a : D} {x y : ℝ} (h : Is a x) (h' : Is a y) : x = y := h.2.symm.trans h'.2

theorem Is.ne_nan {a : D} {x : ℝ} (h : Is a x) : a ≠ nan := by
  rcases h.cases with ⟨rfl, -⟩ | rfl <;> simp

theorem Is.ext {a : D} {x : ℝ} (h : Is a x) : a.ext = x := by
  rcases h.cases with ⟨rfl, rfl⟩ | rfl <;> simp [D.ext]

theorem Is.lt {a b : D} {x y : ℝ} (h : Is a x) (h' : Is b y) : D.lt a b ↔ x < y := by
  simp [D.lt, h.ne_nan, h'.ne_nan, h.ext, h'.ext]
theorem Is.le {a b : D} {x y : ℝ} (h : Is a x) (h' : Is b y) : D.le a b ↔ x ≤ y := by
  simp [D.le, h.ne_nan, h'.ne_nan, h.ext, h'.ext]
theorem Is.eq {a b : D} {x y : ℝ} (h : Is a x) (h' : Is b y) : D.eq a b ↔ x = y := by
  simp [D.eq, h.ne_nan, h'.ne_nan, h.ext, h'.ext]

theorem is_zero (s : Bool) : Is (zero s) 0 := by
  cases s
  · exact is_fin 0
  · exact is_nzero

theorem is_pack {s : Bool} {r : ℝ} (h : |r| < lim) : Is (pack ρ s r) (ρ r) := by
  unfold pack
  rw [if_neg (not_le.mpr h)]
  split
  · rename_i h0; rw [h0]; exact is_zero s
  · exact is_fin _

theorem pack_over {s : Bool} {r : ℝ} (h : lim ≤ |r|) : pack ρ s r = inf s := by
  unfold pack; rw [if_pos h]

theorem pack_ne_nan {s : Bool} {r : ℝ} : pack ρ s r ≠ nan := by
  unfold pack zero; split_ifs <;> simp

theorem Is.neg {a : D} {x : ℝ} (h : Is a x) : Is (neg a) (-x) := by
  rcases h.cases with ⟨rfl, rfl⟩ | rfl
  · simpa [D.neg] using is_fin 0
  · unfold D.neg
    simp only
    split
    · rename_i h0; rw [h0, neg_zero]; exact is_nzero
    · exact is_fin _

theorem round_zero (hr : RoundsToNearest ρ) : ρ 0 = 0 := hr.exact Fp.isDouble_zero

theorem add_fin {a b : D} (h : a.Finite) (h' : b.Finite) : add ρ a b = addF ρ a b := by
  rcases h with rfl | ⟨x, rfl⟩ <;> rcases h' with rfl | ⟨y, rfl⟩ <;> rfl
theorem mul_fin {a b : D} (h : a.Finite) (h' : b.Finite) :
    mul ρ a b = pack ρ (xor a.sign b.sign) (a.val * b.val) := by
  rcases h with rfl | ⟨x, rfl⟩ <;> rcases h' with rfl | ⟨y, rfl⟩ <;> rfl
theorem div_fin {a b : D} (h : a.Finite) (h' : b.Finite) : div ρ a b =
    if b.val = 0 then (if a.val = 0 then nan else inf (xor a.sign b.sign))
    else pack ρ (xor a.sign b.sign) (a.val / b.val) := by
  rcases h with rfl | ⟨x, rfl⟩ <;> rcases h' with rfl | ⟨y, rfl⟩ <;> rfl

theorem Is.add (hr : RoundsToNearest ρ) {a b : D} {x y : ℝ} (h : Is a x) (h' : Is b y) (hl : |x + y| < lim) :
    Is (add ρ a b) (ρ (x + y)) := by
  rw [add_fin h.1 h'.1, addF, h.2, h'.2]
  split
  · rename_i h0; rw [h0, round_zero hr]; exact is_zero _
  · exact is_pack hl

theorem Is.sub (hr : RoundsToNearest ρ) {a b : D} {x y : ℝ} (h : Is a x) (h' : Is b y) (hl : |x - y| < lim) :
    Is (sub ρ a b) (ρ (x - y)) := by
  rw [sub_eq_add_neg] at hl ⊢
  exact h.add hr h'.neg hl

theorem Is.mul {a b : D} {x y : ℝ} (h : Is a x) (h' : Is b y) (hl : |x * y| < lim) :
    Is (mul ρ a b) (ρ (x * y)) := by
  rw [mul_fin h.1 h'.1, h.2, h'.2]
  exact is_pack hl

theorem Is.div {a b : D} {x y : ℝ} (h : Is a x) (h' : Is b y) (h0 : y ≠ 0) (hl : |x / y| < lim) :
    Is (div ρ a b) (ρ (x / y)) := by
  rw [div_fin h.1 h'.1, h.2, h'.2, if_neg h0]
  exact is_pack hl

theorem Is.abs {a : D} {x : ℝ} (h : Is a x) : Is (abs a) |x| := by
  unfold D.abs
  split
  · rename_i h0
    rw [h.lt (is_fin 0)] at h0
    rw [abs_of_neg h0]; exact h.neg
  · rename_i h0
    rw [h.lt (is_fin 0), not_lt] at h0
    rw [abs_of_nonneg h0]; exact h

theorem Is.toInt {a : D} {x : ℝ} (h : Is a x) : D.toInt a = Cmath.toInt x := by
  rcases h.cases with ⟨rfl, rfl⟩ | rfl <;> rfl

/-- Exact results up to `2^1023` do not overflow. -/
theorem lt_lim {r : ℝ} (h : r ≤ 2 ^ 1023) : r < lim := by
  refine lt_of_le_of_lt h ?_
  unfold lim
  have h1 : (2 : ℝ) ^ 970 ≤ 2 ^ 1022 := pow_le_pow_right₀ (by norm_num) (by norm_num)
  have e1 : (2 : ℝ) ^ 1024 = 2 * 2 ^ 1023 := by rw [← pow_succ']
  have e2 : (2 : ℝ) ^ 1023 = 2 * 2 ^ 1022 := by rw [← pow_succ']
  have h3 : (0 : ℝ) < 2 ^ 1022 := by positivity
  rw [e1, e2]
  generalize (2 : ℝ) ^ 1022 = A at *
  generalize (2 : ℝ) ^ 970 = B at *
  clear e1 e2 h
  linarith

/-- The binary64 numbers are below `lim`. -/
theorem isDouble_lt {d : ℝ} (h : IsDouble d) : |d| ≤ 2 ^ 1024 - 2 ^ 971 := by
  obtain ⟨m, e, rfl, hm, h1, h2⟩ := h
  have e1 : (2 : ℝ) ^ 1024 - 2 ^ 971 = ((2 ^ 53 - 1 : ℤ) : ℝ) * (2 : ℝ) ^ (971 : ℤ) := by
    rw [show (2 : ℝ) ^ 1024 = 2 ^ 53 * 2 ^ 971 by rw [← pow_add]]
    push_cast
    rw [show (2 : ℝ) ^ (971 : ℤ) = 2 ^ 971 from zpow_natCast 2 971]
    generalize (2 : ℝ) ^ 971 = A
    norm_num
    ring
  rw [e1, abs_mul, abs_of_pos (by positivity : (0 : ℝ) < 2 ^ e)]
  have h3 : |(m : ℝ)| ≤ ((2 ^ 53 - 1 : ℤ) : ℝ) := by
    rw [← Int.cast_abs]; exact_mod_cast (by omega : |m| ≤ 2 ^ 53 - 1)
  exact mul_le_mul h3 (zpow_le_zpow_right₀ (by norm_num) h2) (by positivity) (le_trans (abs_nonneg _) h3)

theorem isDouble_lt_lim {d : ℝ} (h : IsDouble d) : |d| < lim := by
  refine lt_of_le_of_lt (isDouble_lt h) ?_
  unfold lim
  have e1 : (2 : ℝ) ^ 970 < 2 ^ 971 := pow_lt_pow_right₀ (by norm_num) (by norm_num)
  exact sub_lt_sub_left e1 _

/-! Valid values -/

theorem valid_nan : Valid nan := fun _ h => by simp at h
theorem valid_inf {s : Bool} : Valid (inf s) := fun _ h => by simp at h
theorem valid_nzero : Valid nzero := fun _ h => by simp at h
theorem valid_fin {x : ℝ} (h : IsDouble x) : Valid (fin x) := fun y hy => by simp at hy; rwa [← hy]
theorem valid_zero {s : Bool} : Valid (zero s) := by
  cases s
  · exact valid_fin Fp.isDouble_zero
  · exact valid_nzero

theorem valid_pack (hr : RoundsToNearest ρ) {s : Bool} {r : ℝ} : Valid (pack ρ s r) := by
  unfold pack
  split_ifs
  · exact valid_inf
  · exact valid_zero
  · exact valid_fin (hr.double r)

theorem Is.double {a : D} {x : ℝ} (h : Is a x) (hv : Valid a) : IsDouble x := by
  rcases h.cases with ⟨rfl, rfl⟩ | rfl
  · exact Fp.isDouble_zero
  · exact hv x rfl

theorem valid_add (hr : RoundsToNearest ρ) {a b : D} : Valid (D.add ρ a b) := by
  have hF : ∀ a b, Valid (addF ρ a b) := fun a b => by
    unfold addF; split
    · exact valid_zero
    · exact valid_pack hr
  rcases a with _ | s | _ | x <;> rcases b with _ | t | _ | y <;> simp only [D.add] <;>
    first
    | exact valid_nan
    | exact valid_inf
    | exact hF _ _
    | (split <;> first | exact valid_nan | exact valid_inf)

theorem valid_mul (hr : RoundsToNearest ρ) {a b : D} : Valid (D.mul ρ a b) := by
  rcases a with _ | s | _ | x <;> rcases b with _ | t | _ | y <;> simp only [D.mul] <;>
    first
    | exact valid_nan
    | exact valid_inf
    | exact valid_pack hr
    | (split <;> first | exact valid_nan | exact valid_inf)

theorem valid_div (hr : RoundsToNearest ρ) {a b : D} : Valid (D.div ρ a b) := by
  rcases a with _ | s | _ | x <;> rcases b with _ | t | _ | y <;> simp only [D.div] <;>
    first
    | exact valid_nan
    | exact valid_inf
    | exact valid_zero
    | exact valid_pack hr
    | (split_ifs <;> first | exact valid_nan | exact valid_inf | exact valid_pack hr)

theorem valid_neg {a : D} (h : Valid a) : Valid (D.neg a) := by
  rcases a with _ | s | _ | x <;> simp only [D.neg]
  · exact valid_nan
  · exact valid_inf
  · exact valid_fin Fp.isDouble_zero
  · split
    · exact valid_nzero
    · exact valid_fin (h x rfl).neg

/-- A value is NaN, an infinity, or finite. -/
theorem trichotomy (a : D) : a = nan ∨ a = inf true ∨ a = inf false ∨ ∃ x, Is a x := by
  rcases a with _ | (_ | _) | _ | x
  · exact Or.inl rfl
  · exact Or.inr (Or.inr (Or.inl rfl))
  · exact Or.inr (Or.inl rfl)
  · exact Or.inr (Or.inr (Or.inr ⟨0, is_nzero⟩))
  · exact Or.inr (Or.inr (Or.inr ⟨x, is_fin x⟩))

/-! NaN -/

@[simp] theorem not_lt_nan {a : D} : ¬ D.lt a nan := fun h => h.2.1 rfl
@[simp] theorem not_nan_lt {a : D} : ¬ D.lt nan a := fun h => h.1 rfl
@[simp] theorem not_le_nan {a : D} : ¬ D.le a nan := fun h => h.2.1 rfl
@[simp] theorem not_nan_le {a : D} : ¬ D.le nan a := fun h => h.1 rfl
@[simp] theorem not_eq_nan {a : D} : ¬ D.eq a nan := fun h => h.2.1 rfl
@[simp] theorem not_nan_eq {a : D} : ¬ D.eq nan a := fun h => h.1 rfl
@[simp] theorem nan_add {a : D} : D.add ρ nan a = nan := by cases a <;> rfl
@[simp] theorem add_nan {a : D} : D.add ρ a nan = nan := by cases a <;> rfl
@[simp] theorem neg_nan : D.neg nan = nan := rfl
@[simp] theorem nan_sub {a : D} : D.sub ρ nan a = nan := nan_add
@[simp] theorem sub_nan {a : D} : D.sub ρ a nan = nan := add_nan
@[simp] theorem nan_mul {a : D} : D.mul ρ nan a = nan := by cases a <;> rfl
@[simp] theorem mul_nan {a : D} : D.mul ρ a nan = nan := by cases a <;> rfl
@[simp] theorem nan_div {a : D} : D.div ρ nan a = nan := by cases a <;> rfl
@[simp] theorem div_nan {a : D} : D.div ρ a nan = nan := by cases a <;> rfl
@[simp] theorem abs_nan : D.abs nan = nan := by simp [D.abs]

/-! Comparing with infinities -/
theorem lt_pinf {a : D} {x : ℝ} (h : Is a x) : D.lt a (inf false) :=
  ⟨h.ne_nan, by simp, by rw [h.ext]; exact EReal.coe_lt_top x⟩
theorem ninf_lt {a : D} {x : ℝ} (h : Is a x) : D.lt (inf true) a :=
  ⟨by simp, h.ne_nan, by rw [h.ext]; exact EReal.bot_lt_coe x⟩
@[simp] theorem not_pinf_lt {a : D} : ¬ D.lt (inf false) a := fun h => by
  have := h.2.2; simp [D.ext] at this
@[simp] theorem not_lt_ninf {a : D} : ¬ D.lt a (inf true) := fun h => by
  have := h.2.2; simp [D.ext] at this
theorem lt_le {a b : D} (h : D.lt a b) : ¬ D.le b a := fun h' => not_le.mpr h.2.2 h'.2.2
theorem lt_not_lt {a b : D} (h : D.lt a b) : ¬ D.lt b a := fun h' => lt_asymm h.2.2 h'.2.2

end D
end Cest.Ieee
