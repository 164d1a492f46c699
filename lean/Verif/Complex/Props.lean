import Verif.Complex.Proofs
import Mathlib.Data.Complex.Basic
import Mathlib.Algebra.Field.Rat

/-!
Property theorems for `cest::complex` (C74, C75, C76).

`Holds st z a` says that the variable `z` holds the number `a` of `T[i]`; `put st z a` is the state in which
only `z` has changed, to `a`.  The ring laws themselves are those of `Gauss T = T[i]`, which is a commutative
ring in Mathlib; the theorems say that the code computes that ring's operations, from every state, also when
the operands are the same variable, and leaves every other variable alone.
-/
namespace Cest.Complex.Props

section ring
variable {T : Type} [CommRing T]

/-- C74: the compound assignments with a complex operand, which may be the object itself. -/
theorem C74_compound (st : CSt T) {z w : Nat} {a b : Gauss T} (hz : Holds st z a) (hw : Holds st w b) :
    addAssign z w st = .ok () (put st z (a + b)) ∧
    subAssign z w st = .ok () (put st z (a - b)) ∧
    mulAssign z w st = .ok () (put st z (a * b)) ∧
    assign z w st = .ok () (put st z b) :=
  ⟨addAssign_ok hz hw, subAssign_ok hz hw, mulAssign_ok hz hw, assign_ok hz hw⟩

/-- C74: the operand is the object itself: `z += z`, `z -= z`, `z *= z`. -/
theorem C74_compound_self (st : CSt T) {z : Nat} {a : Gauss T} (hz : Holds st z a) :
    addAssign z z st = .ok () (put st z (2 * a)) ∧
    subAssign z z st = .ok () (put st z 0) ∧
    mulAssign z z st = .ok () (put st z (a ^ 2)) := by
  refine ⟨?_, ?_, ?_⟩
  · rw [addAssign_ok hz hz, two_mul]
  · rw [subAssign_ok hz hz, sub_self]
  · rw [mulAssign_ok hz hz, pow_two]

/-- C74: the compound assignments with a scalar operand. -/
theorem C74_compound_scalar (st : CSt T) {z : Nat} {a : Gauss T} (hz : Holds st z a) (t : T) :
    addAssignS z t st = .ok () (put st z (a + scal t)) ∧
    subAssignS z t st = .ok () (put st z (a - scal t)) ∧
    mulAssignS z t st = .ok () (put st z (a * scal t)) :=
  ⟨addAssignS_ok hz, subAssignS_ok hz, mulAssignS_ok hz⟩

/-- C74: the binary and unary operators return the ring's results and change no variable. -/
theorem C74_binary (st : CSt T) {r x y : Nat} {a b : Gauss T} (hr : st.objs r = none)
    (hx : Holds st x a) (hy : Holds st y b) :
    add r x y st = .ok (Cx.ofNum (a + b)) st ∧
    sub r x y st = .ok (Cx.ofNum (a - b)) st ∧
    mul r x y st = .ok (Cx.ofNum (a * b)) st ∧
    neg x st = .ok (Cx.ofNum (-a)) st ∧
    pos x st = .ok (Cx.ofNum a) st :=
  ⟨add_ok hr hx hy, sub_ok hr hx hy, mul_ok hr hx hy, neg_ok hx, pos_ok hx⟩

/-- C74: the mixed scalar forms are the complex forms with the scalar taken as a complex number. -/
theorem C74_binary_scalar (st : CSt T) {r x : Nat} {a : Gauss T} (hr : st.objs r = none)
    (hx : Holds st x a) (t : T) :
    addCS r x t st = .ok (Cx.ofNum (a + scal t)) st ∧
    addSC r t x st = .ok (Cx.ofNum (scal t + a)) st ∧
    subCS r x t st = .ok (Cx.ofNum (a - scal t)) st ∧
    subSC r t x st = .ok (Cx.ofNum (scal t - a)) st ∧
    mulCS r x t st = .ok (Cx.ofNum (a * scal t)) st ∧
    mulSC r t x st = .ok (Cx.ofNum (scal t * a)) st :=
  ⟨addCS_ok hr hx, addSC_ok hr hx, subCS_ok hr hx, subSC_ok hr hx, mulCS_ok hr hx, mulSC_ok hr hx⟩

/-- C74: `z op= w` is `z = z op w`, also when `w` is `z`. -/
theorem C74_compound_eq_binary (st : CSt T) {r z w : Nat} {a b : Gauss T} (hr : st.objs r = none)
    (hz : Holds st z a) (hw : Holds st w b) :
    addAssign z w st = (add r z w >>= setObj z) st ∧
    subAssign z w st = (sub r z w >>= setObj z) st ∧
    mulAssign z w st = (mul r z w >>= setObj z) st := by
  simp only [M.bind_apply, add_ok hr hz hw, sub_ok hr hz hw, mul_ok hr hz hw, addAssign_ok hz hw,
    subAssign_ok hz hw, mulAssign_ok hz hw, setObj_some hz]
  exact ⟨rfl, rfl, rfl⟩

/-- C74: ring laws at the level of the program: the order of the operands of `+` and `*` is immaterial, and
multiplication distributes over addition; `x * (y + w)` and `x * y + x * w` with all temporaries in slots. -/
theorem C74_laws (st : CSt T) {r s x y w : Nat} {a b c : Gauss T} (hf : Fresh st [r, s])
    (hx : Holds st x a) (hy : Holds st y b) (hw : Holds st w c) :
    add r x y st = add r y x st ∧ mul r x y st = mul r y x st ∧
    (do newObj s (← add r y w); let v ← mul r x s; delObj s; return v : CM T (Cx T)) st =
    (do newObj s (← mul r x y); let m ← mul r x w; newObj r m; addAssign s r; delObj r; retLocal s) st := by
  obtain ⟨hd, hn⟩ := hf
  simp at hd hn
  obtain ⟨hr, hs⟩ := hn
  refine ⟨?_, ?_, ?_⟩
  · rw [add_ok hr hx hy, add_ok hr hy hx, add_comm]
  · rw [mul_ok hr hx hy, mul_ok hr hy hx, mul_comm]
  · have hr' : ∀ q, (put st s q).objs r = none := by intro q; simp [put, hr, hd]
    simp only [M.bind_apply, add_ok hr hy hw, newNum_ok hs, num_ofNum,
      mul_ok (hr' _) (hx.put_fresh hs) (holds_put _ _ _), delPut_ok hs, M.pure_apply, mul_ok hr hx hy,
      mul_ok (hr' _) (hx.put_fresh hs) (hw.put_fresh hs), newNum_ok (hr' _)]
    rw [addAssign_ok ((holds_put st s (a * b)).put_of_ne (Ne.symm hd)) (holds_put _ _ _)]
    simp only []
    rw [put_comm (put st s (a * b)) hd, put_put, delPut_ok (hr' _)]
    simp only []
    rw [retLocal_ok hs, mul_add]

/-- C74: `norm` is multiplicative, `z * conj(z)` is `norm(z)`, conjugation is an involution that respects
products.  `norm(x * y)` is run by putting the product into a temporary `s`. -/
theorem C74_norm_conj (st : CSt T) {r s x y : Nat} {a b : Gauss T} (hf : Fresh st [r, s])
    (hx : Holds st x a) (hy : Holds st y b) :
    (do newObj s (← mul r x y); let v ← norm s; delObj s; return v : CM T T) st =
      (do return (← norm x) * (← norm y)) st ∧
    (do newObj s (← conj x); let v ← mul r x s; delObj s; return v : CM T (Cx T)) st =
      (do let t ← norm x; return (⟨t, 0⟩ : Cx T)) st ∧
    (do newObj s (← conj x); let v ← conj s; delObj s; return v : CM T (Cx T)) st = pos x st ∧
    norm x st = .ok (a.re * a.re + a.im * a.im) st := by
  obtain ⟨hd, hn⟩ := hf
  simp at hd hn
  obtain ⟨hr, hs⟩ := hn
  have hr' : ∀ q, (put st s q).objs r = none := by intro q; simp [put, hr, hd]
  refine ⟨?_, ?_, ?_, ?_⟩
  · simp only [M.bind_apply, mul_ok hr hx hy, newNum_ok hs, num_ofNum, norm_ok (holds_put _ _ _),
      delPut_ok hs, M.pure_apply, norm_ok hx, norm_ok hy, map_mul]
  · simp only [M.bind_apply, conj_ok hx, newNum_ok hs, num_ofNum,
      mul_ok (hr' _) (hx.put_fresh hs) (holds_put _ _ _), delPut_ok hs, M.pure_apply, norm_ok hx]
    rw [← QuadraticAlgebra.algebraMap_norm_eq_mul_star]
    rfl
  · simp only [M.bind_apply, conj_ok hx, newNum_ok hs, num_ofNum, conj_ok (holds_put _ _ _),
      delPut_ok hs, M.pure_apply, pos_ok hx, star_star]
  · rw [norm_ok hx, QuadraticAlgebra.norm_def]; congr 1; ring

/-- C75: `__complex_pow_unsigned` is the `n`-fold product for every 32-bit unsigned `n`, in any commutative
ring; the loop ends and no variable of the caller changes. -/
theorem C75_pow_unsigned (st : CSt T) {x y z : Nat} {a : Gauss T} (hf : Fresh st [x, y])
    (hz : Holds st z a) (n : UInt32) :
    powUnsigned x y z n st = .ok (Cx.ofNum (a ^ n.toNat)) st := by
  obtain ⟨hd, hn⟩ := hf
  simp at hd hn
  exact powUnsigned_ok hd hn.1 hn.2 hz n

/-- C76: construction and scalar assignment: missing parts are zero, the scalar becomes the real part. -/
theorem C76_scalar (st : CSt T) {z w : Nat} {a : Gauss T} (hz : Holds st z a) (hw : st.objs w = none)
    (t u : T) :
    assignS z t st = .ok () { st with objs := upd st.objs z (some ⟨t, 0⟩) } ∧
    (ctor w : CM T Unit) st = .ok () { st with objs := upd st.objs w (some ⟨0, 0⟩) } ∧
    (ctor w t : CM T Unit) st = .ok () { st with objs := upd st.objs w (some ⟨t, 0⟩) } ∧
    ctor w t u st = .ok () { st with objs := upd st.objs w (some ⟨t, u⟩) } :=
  ⟨assignS_ok hz, ctor_ok hw 0 0, ctor_ok hw t 0, ctor_ok hw t u⟩

/-- C76: the comparisons. -/
theorem C76_eq [DecidableEq T] (st : CSt T) {x y : Nat} {u v : Cx T} (hx : st.objs x = some u)
    (hy : st.objs y = some v) (t : T) :
    eqCC x y st = .ok (decide (u = v)) st ∧
    eqCS x t st = .ok (decide (u.re = t ∧ u.im = 0)) st ∧
    eqSC t x st = .ok (decide (u.re = t ∧ u.im = 0)) st ∧
    neCC x y st = .ok (decide (u ≠ v)) st ∧
    neCS x t st = .ok (decide (¬ (u.re = t ∧ u.im = 0))) st ∧
    neSC t x st = .ok (decide (¬ (u.re = t ∧ u.im = 0))) st := by
  refine ⟨?_, ?_, ?_, ?_, ?_, ?_⟩
  · by_cases h : u.re = v.re <;> simp [eqCC, getRe, getIm, getObj_some hx, getObj_some hy, h, Cx.ext_iff]
  · by_cases h : u.re = t <;> simp [eqCS, getRe, getIm, getObj_some hx, h]
  · by_cases h : u.re = t
    · simp [eqSC, getRe, getIm, getObj_some hx, h, eq_comm]
    · simp [eqSC, getRe, getIm, getObj_some hx, h, Ne.symm h]
  · by_cases h : u.re = v.re <;> simp [neCC, getRe, getIm, getObj_some hx, getObj_some hy, h, Cx.ext_iff]
  · by_cases h : u.re = t <;> simp [neCS, getRe, getIm, getObj_some hx, h]
  · by_cases h : u.re = t
    · simp [neSC, getRe, getIm, getObj_some hx, h, eq_comm]
    · simp [neSC, getRe, getIm, getObj_some hx, h, Ne.symm h]

end ring

section field
variable {T : Type} [Field T] [DecidableEq T]

/-- C74: division.  When the divisor's norm is not zero, `x / y` is the number whose product with `y` is
`x`; `x /= y` stores it, also when `y` is `x` (then the result is 1); with a divisor of norm zero the code
divides by zero. -/
theorem C74_div (st : CSt T) {r x y : Nat} {a b : Gauss T} (hr : st.objs r = none)
    (hx : Holds st x a) (hy : Holds st y b) :
    (b.re * b.re + b.im * b.im ≠ 0 →
      ∃ q, q * b = a ∧ (∀ q', q' * b = a → q' = q) ∧ div r x y st = .ok (Cx.ofNum q) st ∧
        divAssign x y st = .ok () (put st x q) ∧ (y = x → q = 1)) ∧
    (b.re * b.re + b.im * b.im = 0 → div r x y st = .ub .precond ∧ divAssign x y st = .ub .precond) := by
  have hn : b.norm = b.re * b.re + b.im * b.im := by rw [QuadraticAlgebra.norm_def]; ring
  rw [← hn]
  refine ⟨fun h => ?_, fun h => ⟨div_ub hr hx hy h, divAssign_ub hx hy h⟩⟩
  have huniq : ∀ q q' : Gauss T, q * b = a → q' * b = a → q' = q := by
    intro q q' h1 h2
    have e : ∀ p : Gauss T, p * b = a → p = quot a b := by
      intro p hp
      have : p * (b * (scal b.norm⁻¹ * star b)) = p := by
        have h3 := quot_mul (1 : Gauss T) h
        have : b * (scal b.norm⁻¹ * star b) = 1 := by rw [← h3, quot]; ring
        rw [this, mul_one]
      rw [← this, ← mul_assoc, hp, quot]; ring
    rw [e q h1, e q' h2]
  refine ⟨quot a b, quot_mul a h, fun q' hq' => huniq _ _ (quot_mul a h) hq', div_ok hr hx hy h,
    divAssign_ok hx hy h, ?_⟩
  rintro rfl
  have e := hx.unique hy
  exact huniq _ _ (by rw [one_mul, e]) (quot_mul a h)

/-- C74: division by and of scalars. -/
theorem C74_div_scalar (st : CSt T) {r x : Nat} {a : Gauss T} (hr : st.objs r = none)
    (hx : Holds st x a) (t : T) :
    (t ≠ 0 → ∃ q, q * scal t = a ∧ divCS r x t st = .ok (Cx.ofNum q) st ∧
      divAssignS x t st = .ok () (put st x q)) ∧
    (a.re * a.re + a.im * a.im ≠ 0 →
      ∃ q, q * a = scal t ∧ divSC r t x st = .ok (Cx.ofNum q) st) := by
  have hn : a.norm = a.re * a.re + a.im * a.im := by rw [QuadraticAlgebra.norm_def]; ring
  rw [← hn]
  refine ⟨fun h => ⟨a * scal t⁻¹, ?_, divCS_ok hr hx h, divAssignS_ok hx h⟩,
    fun h => ⟨_, quot_mul _ h, divSC_ok hr hx h⟩⟩
  rw [mul_assoc, scal, scal, ← map_mul, inv_mul_cancel₀ h, map_one, mul_one]

/-- C75: `pow(z, n)` for every `int n`, `INT_MIN` included: the `n`-fold product for `n ≥ 0`, and for `n < 0`
and `norm(z) ≠ 0` the reciprocal of the `|n|`-fold product. -/
theorem C75_pow (st : CSt T) {x y u v z : Nat} {a : Gauss T} (hf : Fresh st [x, y, u, v])
    (hz : Holds st z a) (n : Int32) :
    (0 ≤ n.toInt → pow x y u v z n st = .ok (Cx.ofNum (a ^ n.toInt.toNat)) st) ∧
    (n.toInt < 0 → a.re * a.re + a.im * a.im ≠ 0 →
      ∃ q, q * a ^ n.toInt.natAbs = 1 ∧ pow x y u v z n st = .ok (Cx.ofNum q) st) ∧
    (n.toInt < 0 → a.re * a.re + a.im * a.im = 0 → pow x y u v z n st = .ub .precond) := by
  have hn : a.norm = a.re * a.re + a.im * a.im := by rw [QuadraticAlgebra.norm_def]; ring
  rw [← hn]
  have h0 : n < 0 ↔ n.toInt < 0 := by rw [Int32.lt_iff_toInt_lt]; rfl
  refine ⟨fun h => ?_, fun h ha => ?_, fun h ha => pow_neg_ub hf hz (h0.mpr h) ha⟩
  · have hf' := hf
    obtain ⟨hd, hn0⟩ := hf
    simp at hd hn0
    exact pow_nonneg_ok hd.1.1 hn0.1 hn0.2.1 hz (by rw [h0]; omega)
  · exact ⟨_, quot_mul 1 (norm_pow_ne ha _), pow_neg_ok hf hz (h0.mpr h) ha⟩

end field

section reals
open Classical in
/-- C74 over the real numbers: the results are those of Mathlib's complex numbers `ℂ`, division included. -/
theorem C74_real (st : CSt ℝ) {r x y : Nat} {u v : Cx ℝ} (hr : st.objs r = none)
    (hx : st.objs x = some u) (hy : st.objs y = some v) :
    let c : Cx ℝ → ℂ := fun z => ⟨z.re, z.im⟩
    (∃ p, add r x y st = .ok p st ∧ c p = c u + c v) ∧
    (∃ p, sub r x y st = .ok p st ∧ c p = c u - c v) ∧
    (∃ p, mul r x y st = .ok p st ∧ c p = c u * c v) ∧
    (c v ≠ 0 → ∃ p, div r x y st = .ok p st ∧ c p = c u / c v) := by
  intro c
  have hx' : Holds st x u.num := hx
  have hy' : Holds st y v.num := hy
  refine ⟨⟨_, add_ok hr hx' hy', ?_⟩, ⟨_, sub_ok hr hx' hy', ?_⟩, ⟨_, mul_ok hr hx' hy', ?_⟩, fun h => ?_⟩
  · apply Complex.ext <;> simp [c, Cx.ofNum, Cx.num]
  · apply Complex.ext <;> simp [c, Cx.ofNum, Cx.num]
  · apply Complex.ext <;> simp [c, Cx.ofNum, Cx.num]; ring
  · have hne : v.num.norm ≠ 0 := by
      intro h0
      rw [QuadraticAlgebra.norm_def] at h0
      simp [Cx.num] at h0
      have h1 : v.re = 0 := by nlinarith [mul_self_nonneg v.re, mul_self_nonneg v.im]
      have h2 : v.im = 0 := by nlinarith [mul_self_nonneg v.re, mul_self_nonneg v.im]
      exact h (Complex.ext h1 h2)
    refine ⟨_, div_ok hr hx' hy' hne, ?_⟩
    rw [eq_div_iff h]
    have := quot_mul u.num hne
    have e1 := congrArg QuadraticAlgebra.re this
    have e2 := congrArg QuadraticAlgebra.im this
    rw [QuadraticAlgebra.re_mul] at e1
    rw [QuadraticAlgebra.im_mul] at e2
    have f1 : v.num.re = v.re ∧ v.num.im = v.im ∧ u.num.re = u.re ∧ u.num.im = u.im := ⟨rfl, rfl, rfl, rfl⟩
    rw [f1.1, f1.2.1, f1.2.2.1] at e1
    rw [f1.1, f1.2.1, f1.2.2.2] at e2
    apply Complex.ext <;> simp [c, Cx.ofNum]
    · linear_combination e1
    · linear_combination e2
end reals

/-! ### The hypotheses can be met -/

/-- A state with two complex variables over `ℚ`: 0 holds `3 + 4i`, 1 holds `-2 + 5i`. -/
def exSt : CSt ℚ :=
  ⟨fun k => if k = 0 then some ⟨3, 4⟩ else if k = 1 then some ⟨-2, 5⟩ else none, fun _ => none, 0, none⟩

example : Holds exSt 0 ⟨3, 4⟩ ∧ Holds exSt 1 ⟨-2, 5⟩ ∧ Fresh exSt [2, 3, 4, 5] ∧
    ((-2 : ℚ) * -2 + 5 * 5 ≠ 0) := by
  refine ⟨rfl, rfl, ⟨by decide, by intro k hk; simp at hk; rcases hk with rfl | rfl | rfl | rfl <;> rfl⟩,
    by norm_num⟩

/-- `z *= z` on `3 + 4i` leaves `-7 + 24i`. -/
example : mulAssign 0 0 exSt = .ok () (put exSt 0 ⟨-7, 24⟩) := by
  rw [(C74_compound exSt (z := 0) (w := 0) (a := ⟨3, 4⟩) (b := ⟨3, 4⟩) rfl rfl).2.2.1]
  congr 2; ext <;> norm_num

/-- `INT_MIN` is a negative exponent with absolute value 2³¹. -/
example : (Int32.minValue).toInt < 0 ∧ (Int32.minValue).toInt.natAbs = 2 ^ 31 := by decide

end Cest.Complex.Props
