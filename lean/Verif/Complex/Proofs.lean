import Verif.Complex.Spec
import Mathlib.Tactic.Ring
import Mathlib.Tactic.FieldSimp
import Mathlib.Tactic.LinearCombination

namespace Cest.Complex

section ring
variable {T : Type} [CommRing T]
variable {st : CSt T} {z w x y r : Nat} {a b : Gauss T} {t : T}

theorem put_put (st : CSt T) (z : Nat) (a b : Gauss T) : put (put st z a) z b = put st z b := by
  simp only [put, upd_upd]

theorem holds_put (st : CSt T) (z : Nat) (a : Gauss T) : Holds (put st z a) z a := by
  simp [Holds, put]

theorem Holds.put_of_ne (h : Holds st w b) (hne : w ≠ z) : Holds (put st z a) w b := by
  simp [Holds, put, hne]; exact h

theorem Holds.put_fresh (h : Holds st w b) (hz : st.objs z = none) : Holds (put st z a) w b := by
  refine h.put_of_ne ?_
  rintro rfl
  simp [Holds, hz] at h

theorem Holds.unique (h : Holds st z a) (h' : Holds st z b) : a = b := by
  have := h.symm.trans h'
  simpa [Cx.ofNum, QuadraticAlgebra.ext_iff] using this

theorem getRe_ok (h : Holds st z a) : getRe z st = .ok a.re st := by
  simp [getRe, getObj_some h, Cx.ofNum]
theorem getIm_ok (h : Holds st z a) : getIm z st = .ok a.im st := by
  simp [getIm, getObj_some h, Cx.ofNum]
theorem setRe_ok (h : Holds st z a) (v : T) : setRe z v st = .ok () (put st z ⟨v, a.im⟩) := by
  simp [setRe, getObj_some h, setObj_some h, Cx.ofNum, put]
theorem setIm_ok (h : Holds st z a) (v : T) : setIm z v st = .ok () (put st z ⟨a.re, v⟩) := by
  simp [setIm, getObj_some h, setObj_some h, Cx.ofNum, put]

theorem ctor_ok (h : st.objs z = none) (u v : T) : ctor z u v st = .ok () (put st z ⟨u, v⟩) := by
  simp [ctor, newObj_none h, put, Cx.ofNum]
theorem newNum_ok (h : st.objs z = none) (v : Cx T) :
    newObj z v st = .ok () (put st z v.num) := by
  simp [newObj_none h, put, ofNum_num]
theorem copyCtor_ok (h : st.objs z = none) (hx : Holds st x a) :
    copyCtor z x st = .ok () (put st z a) := by
  simp [copyCtor, getObj_some hx, newObj_none h, put]
theorem put_del (h : st.objs z = none) (a : Gauss T) :
    ({ put st z a with objs := upd (put st z a).objs z none } : CSt T) = st := by
  have : upd (upd st.objs z (some (Cx.ofNum a))) z none = st.objs := by
    rw [upd_upd, ← h, upd_self]
  simp [put, this]
theorem delPut_ok (h : st.objs z = none) (a : Gauss T) :
    delObj z (put st z a) = .ok () st := by
  rw [delObj_some (holds_put st z a), put_del h]
theorem retLocal_ok (h : st.objs z = none) (a : Gauss T) :
    retLocal z (put st z a) = .ok (Cx.ofNum a) st := by
  simp only [retLocal, M.bind_apply, getObj_some (holds_put st z a), delPut_ok h, M.pure_apply]

/-- An operand re-read after member(s) of `z` have been overwritten with `c`: it is `c` if it is `z` itself. -/
theorem holds_alias (hz : Holds st z a) (hw : Holds st w b) (c : Gauss T) :
    Holds (put st z c) w (if w = z then c else b) := by
  by_cases e : w = z
  · subst e; simpa using holds_put st w c
  · simpa [e] using hw.put_of_ne e

theorem alias_eq (hz : Holds st z a) (hw : Holds st w b) : w = z → a = b := by
  rintro rfl; exact hz.unique hw

theorem assignS_ok (h : Holds st z a) : assignS z t st = .ok () (put st z (scal t)) := by
  simp only [assignS, M.bind_apply, setRe_ok h, setIm_ok (holds_put _ _ _), put_put]
  rfl

theorem addAssignS_ok (h : Holds st z a) :
    addAssignS z t st = .ok () (put st z (a + scal t)) := by
  simp only [addAssignS, M.bind_apply, getRe_ok h, setRe_ok h]
  congr 2; ext <;> simp [scal]

theorem subAssignS_ok (h : Holds st z a) :
    subAssignS z t st = .ok () (put st z (a - scal t)) := by
  simp only [subAssignS, M.bind_apply, getRe_ok h, setRe_ok h]
  congr 2; ext <;> simp [scal]

theorem mulAssignS_ok (h : Holds st z a) :
    mulAssignS z t st = .ok () (put st z (a * scal t)) := by
  simp only [mulAssignS, M.bind_apply, getRe_ok h, setRe_ok h, getIm_ok (holds_put _ _ _),
    setIm_ok (holds_put _ _ _), put_put]
  congr 2; ext <;> simp [scal]

theorem assign_ok (hz : Holds st z a) (hw : Holds st w b) :
    assign z w st = .ok () (put st z b) := by
  have e := alias_eq hz hw
  simp only [assign, M.bind_apply, getRe_ok hw, setRe_ok hz, getIm_ok (holds_alias hz hw _),
    setIm_ok (holds_put _ _ _), put_put]
  congr 2; ext
  · rfl
  · by_cases h : w = z
    · simp [h, e h]
    · simp [h]

theorem addAssign_ok (hz : Holds st z a) (hw : Holds st w b) :
    addAssign z w st = .ok () (put st z (a + b)) := by
  have e := alias_eq hz hw
  simp only [addAssign, M.bind_apply, getRe_ok hw, getRe_ok hz, setRe_ok hz,
    getIm_ok (holds_put _ _ _), getIm_ok (holds_alias hz hw _), setIm_ok (holds_put _ _ _), put_put]
  congr 2; ext
  · rfl
  · by_cases h : w = z
    · simp [h, e h]
    · simp [h]

theorem subAssign_ok (hz : Holds st z a) (hw : Holds st w b) :
    subAssign z w st = .ok () (put st z (a - b)) := by
  have e := alias_eq hz hw
  simp only [subAssign, M.bind_apply, getRe_ok hw, getRe_ok hz, setRe_ok hz,
    getIm_ok (holds_put _ _ _), getIm_ok (holds_alias hz hw _), setIm_ok (holds_put _ _ _), put_put]
  congr 2; ext
  · rfl
  · by_cases h : w = z
    · simp [h, e h]
    · simp [h]

theorem mulAssign_ok (hz : Holds st z a) (hw : Holds st w b) :
    mulAssign z w st = .ok () (put st z (a * b)) := by
  simp only [mulAssign, M.bind_apply, getRe_ok hw, getRe_ok hz, getIm_ok hw, getIm_ok hz,
    setIm_ok hz, setRe_ok (holds_put _ _ _), put_put]
  congr 2; ext
  · simp; ring
  · simp

theorem norm_ok (hz : Holds st z a) : norm z st = .ok a.norm st := by
  simp only [norm, M.bind_apply, getRe_ok hz, getIm_ok hz, M.pure_apply, QuadraticAlgebra.norm_def]
  congr 1; ring

theorem conj_ok (hz : Holds st z a) : conj z st = .ok (Cx.ofNum (star a)) st := by
  simp [conj, M.bind_apply, getRe_ok hz, getIm_ok hz, Cx.ofNum]

theorem neg_ok (hx : Holds st x a) : neg x st = .ok (Cx.ofNum (-a)) st := by
  simp [neg, getRe_ok hx, getIm_ok hx, Cx.ofNum]

theorem pos_ok (hx : Holds st x a) : pos x st = .ok (Cx.ofNum a) st := getObj_some hx

theorem add_ok (hr : st.objs r = none) (hx : Holds st x a) (hy : Holds st y b) :
    add r x y st = .ok (Cx.ofNum (a + b)) st := by
  simp only [add, M.bind_apply, copyCtor_ok hr hx, addAssign_ok (holds_put _ _ _) (hy.put_fresh hr),
    put_put, retLocal_ok hr]
theorem addCS_ok (hr : st.objs r = none) (hx : Holds st x a) :
    addCS r x t st = .ok (Cx.ofNum (a + scal t)) st := by
  simp only [addCS, M.bind_apply, copyCtor_ok hr hx, addAssignS_ok (holds_put _ _ _),
    put_put, retLocal_ok hr]
theorem addSC_ok (hr : st.objs r = none) (hx : Holds st x a) :
    addSC r t x st = .ok (Cx.ofNum (scal t + a)) st := by
  simp only [addSC, M.bind_apply, copyCtor_ok hr hx, addAssignS_ok (holds_put _ _ _),
    put_put, retLocal_ok hr, add_comm]
theorem sub_ok (hr : st.objs r = none) (hx : Holds st x a) (hy : Holds st y b) :
    sub r x y st = .ok (Cx.ofNum (a - b)) st := by
  simp only [sub, M.bind_apply, copyCtor_ok hr hx, subAssign_ok (holds_put _ _ _) (hy.put_fresh hr),
    put_put, retLocal_ok hr]
theorem subCS_ok (hr : st.objs r = none) (hx : Holds st x a) :
    subCS r x t st = .ok (Cx.ofNum (a - scal t)) st := by
  simp only [subCS, M.bind_apply, copyCtor_ok hr hx, subAssignS_ok (holds_put _ _ _),
    put_put, retLocal_ok hr]
theorem subSC_ok (hr : st.objs r = none) (hx : Holds st x a) :
    subSC r t x st = .ok (Cx.ofNum (scal t - a)) st := by
  simp only [subSC, M.bind_apply, neg_ok hx, newNum_ok hr, num_ofNum, addAssignS_ok (holds_put _ _ _),
    put_put, retLocal_ok hr]
  congr 2; ring
theorem mul_ok (hr : st.objs r = none) (hx : Holds st x a) (hy : Holds st y b) :
    mul r x y st = .ok (Cx.ofNum (a * b)) st := by
  simp only [mul, M.bind_apply, copyCtor_ok hr hx, mulAssign_ok (holds_put _ _ _) (hy.put_fresh hr),
    put_put, retLocal_ok hr]
theorem mulCS_ok (hr : st.objs r = none) (hx : Holds st x a) :
    mulCS r x t st = .ok (Cx.ofNum (a * scal t)) st := by
  simp only [mulCS, M.bind_apply, copyCtor_ok hr hx, mulAssignS_ok (holds_put _ _ _),
    put_put, retLocal_ok hr]
theorem mulSC_ok (hr : st.objs r = none) (hx : Holds st x a) :
    mulSC r t x st = .ok (Cx.ofNum (scal t * a)) st := by
  simp only [mulSC, M.bind_apply, copyCtor_ok hr hx, mulAssignS_ok (holds_put _ _ _),
    put_put, retLocal_ok hr, mul_comm]

/-! ### Powers -/

theorem put_comm (st : CSt T) (hne : x ≠ y) (a b : Gauss T) :
    put (put st x a) y b = put (put st y b) x a := by
  have : upd (upd st.objs x (some (Cx.ofNum a))) y (some (Cx.ofNum b)) =
      upd (upd st.objs y (some (Cx.ofNum b))) x (some (Cx.ofNum a)) := by
    funext k
    simp only [upd_apply]
    split
    · split
      · omega
      · rfl
    · rfl
  simp only [put, this]

theorem half_toNat (n : UInt32) : (n >>> 1).toNat = n.toNat / 2 := by
  simp [UInt32.toNat_shiftRight, Nat.shiftRight_eq_div_pow]

theorem odd_toNat (n : UInt32) : n % 2 ≠ 0 ↔ n.toNat % 2 = 1 := by
  rw [ne_eq, ← UInt32.toNat_inj]
  simp [UInt32.toNat_mod]

theorem powLoop_ok (hne : x ≠ y) (fuel : Nat) (n : UInt32) (p q : Gauss T)
    (hn : n.toNat < 2 ^ fuel) (hf : fuel ≠ 0) :
    ∃ p', powLoop x y fuel n (put (put st x p) y q) =
      .ok () (put (put st x p') y (q * p ^ (2 * (n.toNat / 2)))) := by
  induction fuel generalizing n p q with
  | zero => exact absurd rfl hf
  | succ fuel ih =>
    unfold powLoop
    by_cases h0 : n >>> 1 = 0
    · have : n.toNat / 2 = 0 := by rw [← half_toNat, h0]; rfl
      exact ⟨p, by simp [h0, this]⟩
    · have hpos : n.toNat / 2 ≠ 0 := by
        rw [← half_toNat]
        intro h
        exact h0 (UInt32.toNat_inj.mp h)
      simp only [h0, if_false, M.bind_apply]
      have hx : Holds (put (put st x p) y q) x p := (holds_put st x p).put_of_ne hne
      rw [mulAssign_ok hx hx]
      simp only []
      have e1 : put (put (put st x p) y q) x (p * p) = put (put st x (p * p)) y q := by
        rw [put_comm st hne p q, put_put, ← put_comm st hne]
      rw [e1]
      have hlt : (n >>> 1).toNat < 2 ^ fuel := by
        rw [half_toNat]; rw [pow_succ] at hn; omega
      have hf' : fuel ≠ 0 := by
        rintro rfl
        rw [half_toNat] at hlt
        simp at hlt; omega
      by_cases ho : (n >>> 1) % 2 ≠ 0
      · have ho' := (odd_toNat _).mp ho
        simp only [ho, ne_eq, not_false_eq_true, if_true, M.bind_apply]
        have hx' : Holds (put (put st x (p * p)) y q) x (p * p) := (holds_put st x _).put_of_ne hne
        rw [mulAssign_ok (holds_put _ _ _) hx']
        simp only [put_put]
        obtain ⟨p', hp'⟩ := ih (n >>> 1) (p * p) (q * (p * p)) hlt hf'
        refine ⟨p', hp'.trans ?_⟩
        congr 2
        rw [half_toNat] at ho' ⊢
        have : 2 * (n.toNat / 2) = 2 * (2 * (n.toNat / 2 / 2)) + 2 := by omega
        rw [this, ← pow_two, ← pow_mul, pow_add]
        ring
      · have ho' : (n >>> 1).toNat % 2 = 0 := by
          have := mt (odd_toNat (n >>> 1)).mpr ho
          omega
        simp only [ho, if_false]
        obtain ⟨p', hp'⟩ := ih (n >>> 1) (p * p) q hlt hf'
        refine ⟨p', hp'.trans ?_⟩
        congr 2
        rw [half_toNat] at ho' ⊢
        have : 2 * (n.toNat / 2) = 2 * (2 * (n.toNat / 2 / 2)) := by omega
        rw [this, ← pow_two, ← pow_mul]

theorem powUnsigned_ok (hne : x ≠ y) (hx : st.objs x = none) (hy : st.objs y = none)
    (hz : Holds st z a) (n : UInt32) :
    powUnsigned x y z n st = .ok (Cx.ofNum (a ^ n.toNat)) st := by
  have hy' : (put st x a).objs y = none := by simp [put, hy, Ne.symm hne]
  have hn : n.toNat < 2 ^ 33 := by have := n.toNat_lt; omega
  unfold powUnsigned
  simp only [M.bind_apply, copyCtor_ok hx hz]
  by_cases ho : n % 2 ≠ 0
  · have ho' := (odd_toNat n).mp ho
    simp only [ho, ne_eq, not_false_eq_true, if_true, M.bind_apply, copyCtor_ok hy' (holds_put _ _ _)]
    obtain ⟨p', hp'⟩ := powLoop_ok (st := st) hne 33 n a a hn (by omega)
    rw [hp']
    simp only []
    have hy'' : (put st x p').objs y = none := by simp [put, hy, Ne.symm hne]
    rw [retLocal_ok hy'']
    simp only [delPut_ok hx, M.pure_apply]
    congr 2
    rw [← pow_succ']
    congr 1; omega
  · have ho' : n.toNat % 2 = 0 := by
      have := mt (odd_toNat n).mpr ho
      omega
    simp only [ho, if_false, M.bind_apply, ctor_ok hy']
    obtain ⟨p', hp'⟩ := powLoop_ok (st := st) hne 33 n a ⟨1, 0⟩ hn (by omega)
    rw [hp']
    simp only []
    have hy'' : (put st x p').objs y = none := by simp [put, hy, Ne.symm hne]
    rw [retLocal_ok hy'']
    simp only [delPut_ok hx, M.pure_apply]
    congr 2
    have : (⟨1, 0⟩ : Gauss T) = 1 := rfl
    rw [this, one_mul]
    congr 1; omega

end ring

section field
variable {T : Type} [Field T] [DecidableEq T]
variable {st : CSt T} {z w x y r : Nat} {a b : Gauss T} {t : T}

/-- The quotient in `T[i]` by an element of non-zero norm. -/
def quot (a b : Gauss T) : Gauss T := scal b.norm⁻¹ * (a * star b)

omit [DecidableEq T] in
theorem quot_mul (a : Gauss T) {b : Gauss T} (h : b.norm ≠ 0) : quot a b * b = a := by
  have h1 : star b * b = scal b.norm := by
    rw [mul_comm]; exact (QuadraticAlgebra.algebraMap_norm_eq_mul_star b).symm
  have h2 : scal b.norm⁻¹ * scal b.norm = (1 : Gauss T) := by
    rw [scal, scal, ← map_mul, inv_mul_cancel₀ h, map_one]
  calc quot a b * b = (scal b.norm⁻¹ * (star b * b)) * a := by rw [quot]; ring
    _ = a := by rw [h1, h2, one_mul]

theorem divT_ok {u v : T} (h : v ≠ 0) : divT u v st = .ok (u / v) st := by
  simp [divT, h]

theorem divAssignS_ok (hz : Holds st z a) (ht : t ≠ 0) :
    divAssignS z t st = .ok () (put st z (a * scal t⁻¹)) := by
  simp only [divAssignS, M.bind_apply, getRe_ok hz, divT_ok ht, setRe_ok hz,
    getIm_ok (holds_put _ _ _), setIm_ok (holds_put _ _ _), put_put]
  congr 2; ext <;> simp [scal, div_eq_mul_inv]

theorem divAssign_ok (hz : Holds st z a) (hw : Holds st w b) (hb : b.norm ≠ 0) :
    divAssign z w st = .ok () (put st z (quot a b)) := by
  simp only [divAssign, M.bind_apply, getRe_ok hw, getRe_ok hz, getIm_ok hw, getIm_ok hz, norm_ok hw,
    divT_ok hb, setIm_ok hz, setRe_ok (holds_put _ _ _), put_put]
  congr 2; ext <;> simp [quot, scal, div_eq_mul_inv] <;> ring

theorem div_ok (hr : st.objs r = none) (hx : Holds st x a) (hy : Holds st y b) (hb : b.norm ≠ 0) :
    div r x y st = .ok (Cx.ofNum (quot a b)) st := by
  simp only [div, M.bind_apply, copyCtor_ok hr hx,
    divAssign_ok (holds_put _ _ _) (hy.put_fresh hr) hb, put_put, retLocal_ok hr]
theorem divAssign_ub (hz : Holds st z a) (hw : Holds st w b) (hb : b.norm = 0) :
    divAssign z w st = .ub .precond := by
  simp [divAssign, M.bind_apply, getRe_ok hw, getRe_ok hz, getIm_ok hw, getIm_ok hz, norm_ok hw,
    divT, hb]
theorem div_ub (hr : st.objs r = none) (hx : Holds st x a) (hy : Holds st y b) (hb : b.norm = 0) :
    div r x y st = .ub .precond := by
  simp only [div, M.bind_apply, copyCtor_ok hr hx,
    divAssign_ub (holds_put _ _ _) (hy.put_fresh hr) hb]
theorem divCS_ok (hr : st.objs r = none) (hx : Holds st x a) (ht : t ≠ 0) :
    divCS r x t st = .ok (Cx.ofNum (a * scal t⁻¹)) st := by
  simp only [divCS, M.bind_apply, copyCtor_ok hr hx, divAssignS_ok (holds_put _ _ _) ht,
    put_put, retLocal_ok hr]
theorem divSC_ok (hr : st.objs r = none) (hx : Holds st x a) (ha : a.norm ≠ 0) :
    divSC r t x st = .ok (Cx.ofNum (quot (scal t) a)) st := by
  simp only [divSC, M.bind_apply, ctor_ok hr,
    divAssign_ok (holds_put _ _ _) (hx.put_fresh hr) ha, put_put, retLocal_ok hr]
  rfl

omit [DecidableEq T] in
theorem norm_pow_ne (h : a.norm ≠ 0) (n : Nat) : (a ^ n).norm ≠ 0 := by
  rw [map_pow]; exact pow_ne_zero n h

theorem toUInt32_toNat (n : Int32) :
    (n.toUInt32.toNat : Int) = if n < 0 then n.toInt + 2 ^ 32 else n.toInt := by
  have e : n.toInt = n.toUInt32.toBitVec.toInt := rfl
  rw [BitVec.toInt_eq_toNat_cond] at e
  have l := n.toUInt32.toNat_lt
  have h0 : n < 0 ↔ n.toInt < 0 := by rw [Int32.lt_iff_toInt_lt]; rfl
  simp only [h0]
  have k : n.toUInt32.toBitVec.toNat = n.toUInt32.toNat := rfl
  rw [k] at e
  split at e <;> split <;> omega

theorem neg_toNat {n : Int32} (h : n < 0) : ((-n.toUInt32).toNat : Int) = -n.toInt := by
  have h1 := toUInt32_toNat n
  rw [if_pos h] at h1
  have h0 : n.toInt < 0 := by simpa using Int32.lt_iff_toInt_lt.mp h
  have l := n.toUInt32.toNat_lt
  rw [UInt32.toNat_neg]
  have := Int32.le_toInt n
  simp only [UInt32.size] at *
  omega

theorem nonneg_toNat {n : Int32} (h : ¬ n < 0) : (n.toUInt32.toNat : Int) = n.toInt := by
  have h1 := toUInt32_toNat n
  rwa [if_neg h] at h1

theorem pow_nonneg_ok {u v : Nat} {n : Int32} (hne : x ≠ y) (hx : st.objs x = none)
    (hy : st.objs y = none) (hz : Holds st z a) (hn : ¬ n < 0) :
    pow x y u v z n st = .ok (Cx.ofNum (a ^ n.toInt.toNat)) st := by
  have h := nonneg_toNat hn
  simp only [pow, hn, if_false, powUnsigned_ok hne hx hy hz]
  congr 3; omega

theorem pow_neg_ok {u v : Nat} {n : Int32} (hf : Fresh st [x, y, u, v]) (hz : Holds st z a)
    (hn : n < 0) (ha : a.norm ≠ 0) :
    pow x y u v z n st = .ok (Cx.ofNum (quot 1 (a ^ n.toInt.natAbs))) st := by
  obtain ⟨hd, hn0⟩ := hf
  simp at hd hn0
  obtain ⟨⟨hxy, hxu, hxv⟩, ⟨hyu, hyv⟩, huv⟩ := hd
  obtain ⟨hx, hy, hu, hv⟩ := hn0
  have h := neg_toNat hn
  have e : (-n.toUInt32).toNat = n.toInt.natAbs := by omega
  have hx1 : (put st u ⟨1, 0⟩).objs x = none := by simp [put, hx, hxu]
  have hy1 : (put st u ⟨1, 0⟩).objs y = none := by simp [put, hy, hyu]
  have hv1 : (put st u ⟨1, 0⟩).objs v = none := by simp [put, hv, Ne.symm huv]
  simp only [pow, hn, if_true, M.bind_apply, ctor_ok hu, powUnsigned_ok hxy hx1 hy1 (hz.put_fresh hu),
    newNum_ok hv1, num_ofNum, e]
  have hx2 : (put (put st u ⟨1, 0⟩) v (a ^ n.toInt.natAbs)).objs x = none := by
    simp [put, hx, hxu, hxv]
  rw [div_ok hx2 ((holds_put st u ⟨1, 0⟩).put_of_ne huv) (holds_put _ _ _) (norm_pow_ne ha _)]
  simp only [delPut_ok hv1, delPut_ok hu, M.pure_apply]
  rfl

theorem pow_neg_ub {u v : Nat} {n : Int32} (hf : Fresh st [x, y, u, v]) (hz : Holds st z a)
    (hn : n < 0) (ha : a.norm = 0) :
    pow x y u v z n st = .ub .precond := by
  obtain ⟨hd, hn0⟩ := hf
  simp at hd hn0
  obtain ⟨⟨hxy, hxu, hxv⟩, ⟨hyu, hyv⟩, huv⟩ := hd
  obtain ⟨hx, hy, hu, hv⟩ := hn0
  have h := neg_toNat hn
  have h0 : n.toInt < 0 := by simpa using Int32.lt_iff_toInt_lt.mp hn
  have e : (-n.toUInt32).toNat = n.toInt.natAbs := by omega
  have hx1 : (put st u ⟨1, 0⟩).objs x = none := by simp [put, hx, hxu]
  have hy1 : (put st u ⟨1, 0⟩).objs y = none := by simp [put, hy, hyu]
  have hv1 : (put st u ⟨1, 0⟩).objs v = none := by simp [put, hv, Ne.symm huv]
  simp only [pow, hn, if_true, M.bind_apply, ctor_ok hu, powUnsigned_ok hxy hx1 hy1 (hz.put_fresh hu),
    newNum_ok hv1, num_ofNum, e]
  have hx2 : (put (put st u ⟨1, 0⟩) v (a ^ n.toInt.natAbs)).objs x = none := by
    simp [put, hx, hxu, hxv]
  have hn2 : (a ^ n.toInt.natAbs).norm = 0 := by
    rw [map_pow, ha, zero_pow]; omega
  rw [div_ub hx2 ((holds_put st u ⟨1, 0⟩).put_of_ne huv) (holds_put _ _ _) hn2]

end field
end Cest.Complex
