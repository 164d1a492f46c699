import Verif.Ieee.Cosh
import Verif.Fp.Order

/-! The exact range of arguments `cosh` returns for. -/
namespace Cest.Ieee
open Cest.Cmath (FM IsDouble RoundsToNearest)
open D Classical
open Cest.Fp (u u_pos u_lt)

variable {ρ : ℝ → ℝ}

theorem sinh_fuel {n m : ℕ} {A v : D} (h : sinh ρ n A () = .ok v ()) (hm : n ≤ m) : sinh ρ m A () = .ok v () := by
  unfold sinh at h ⊢
  by_cases c : lt A (fin 0)
  · rw [if_pos c] at h ⊢
    rcases sinhHelper_or (ρ := ρ) n (neg A) with ⟨w, hw⟩ | ht
    · rw [M.bind_of_ok hw] at h
      rw [M.bind_of_ok (sinhHelper_mono hw hm)]
      exact h
    · simp [M.bind_apply, ht] at h
  · rw [if_neg c] at h ⊢
    exact sinhHelper_mono h hm

theorem sinh_or (fuel : ℕ) (A : D) : (∃ v, sinh ρ fuel A () = .ok v ()) ∨ sinh ρ fuel A () = .timeout := by
  unfold sinh
  by_cases c : lt A (fin 0)
  · rw [if_pos c]
    rcases sinhHelper_or (ρ := ρ) fuel (neg A) with ⟨w, hw⟩ | ht
    · exact Or.inl ⟨neg w, by rw [M.bind_of_ok hw]; rfl⟩
    · exact Or.inr (by simp [M.bind_apply, ht])
  · rw [if_neg c]
    exact sinhHelper_or fuel A

/-- Where the square of the computed `sinh` overflows, `cosh` never returns. -/
theorem cosh_overflow (hr : RoundsToNearest ρ) {A : D} {x v : ℝ} (hA : Is A x) (hv : Valid A) (hx : |x| ≤ 702)
    (h : Cmath.sinh ρ 21 x () = .ok v ()) (hl : lim ≤ v * v) (fuel : ℕ) : cosh ρ fuel A () = .timeout := by
  obtain ⟨θ, -, -, hN⟩ := Fp.sinh_val hr hx
  have e : v = Real.sinh θ := by
    have := hN 21 le_rfl
    rw [h] at this
    injection this
  obtain ⟨S, hS, N, hg⟩ := sinh_value hr hA hv hx (v := v) ⟨21, fun f hf => by rw [e]; exact hN f hf⟩
  unfold cosh
  rcases sinh_or (ρ := ρ) fuel A with ⟨w, hw⟩ | ht
  · have hg' : sinh ρ (max N fuel) A () = .ok S () := hg _ (le_max_left _ _)
    rw [sinh_fuel hw (le_max_right N fuel)] at hg'
    have ew : w = S := by injection hg'
    subst ew
    have sq : square ρ w = inf false := by
      rw [square, mul_fin hS.1 hS.1, hS.2, Bool.xor_self]
      exact pack_over (by rw [abs_mul_self]; exact hl)
    simp only [M.bind_apply, hw, sq, add_inf (is_fin 1)]
    exact sqrt_inf _ _
  · simp only [M.bind_apply, ht]

/-- The square of the computed `sinh` depends on the absolute value only, and grows with it. -/
theorem square_mono (hr : RoundsToNearest ρ) {x y v w : ℝ} (hx : |x| ≤ 702) (hy : |y| ≤ 702) (hxy : |x| ≤ |y|)
    (h : Cmath.sinh ρ 21 x () = .ok v ()) (h' : Cmath.sinh ρ 21 y () = .ok w ()) : v * v ≤ w * w := by
  have key : ∀ {x v : ℝ}, |x| ≤ 702 → Cmath.sinh ρ 21 x () = .ok v () →
      Cmath.sinhHelper ρ 21 |x| () = .ok |v| () ∧ 0 ≤ |v| := by
    intro x v hx h
    obtain ⟨θ, t0, -, hN⟩ := Fp.sinhHelper_near hr (abs_nonneg x) hx
    have hs : 0 ≤ Real.sinh θ := Real.sinh_nonneg_iff.mpr t0
    have e := hN 21 le_rfl
    unfold Cmath.sinh at h
    by_cases c : x < 0
    · rw [if_pos c] at h
      rw [abs_of_neg c] at e ⊢
      simp only [M.bind_apply, e, M.pure_apply] at h
      injection h with h
      rw [← h, abs_neg, abs_of_nonneg hs]
      exact ⟨e, hs⟩
    · rw [if_neg c] at h
      rw [abs_of_nonneg (not_lt.mp c)] at e ⊢
      rw [e] at h
      injection h with h
      rw [← h, abs_of_nonneg hs]
      exact ⟨e, hs⟩
  obtain ⟨a, a0⟩ := key hx h
  obtain ⟨b, -⟩ := key hy h'
  have := Fp.sinhHelper_mono hr 21 21 |x| |y| |v| |w| (abs_nonneg x) hxy a b
  rw [← abs_mul_abs_self v, ← abs_mul_abs_self w]
  exact mul_le_mul this this a0 (a0.trans this)

/-- The last argument before the overflow. -/
theorem cosh_threshold (hr : RoundsToNearest ρ) : ∃ c : ℝ, 355 ≤ c ∧ c ≤ 356 ∧ ∀ (A : D) (x : ℝ), Is A x → Valid A →
    (|x| ≤ c → ∀ v, Cmath.sinh ρ 21 x () = .ok v () → v * v < lim) ∧
    (c < |x| → ∀ fuel, cosh ρ fuel A () = .timeout) := by
  let P : ℕ → Prop := fun k => ∀ v, Cmath.sinh ρ 21 ((k : ℝ) / 2 ^ 44) () = .ok v () → v * v < lim
  have h355 : P (355 * 2 ^ 44) := fun v hv => square_355 hr (by
    rw [abs_of_nonneg (by positivity), div_le_iff₀ (by positivity)]; push_cast; norm_num) hv
  set m := Nat.findGreatest P (356 * 2 ^ 44) with hm
  have m1 : 355 * 2 ^ 44 ≤ m := Nat.le_findGreatest (by norm_num) h355
  have m2 : m ≤ 356 * 2 ^ 44 := Nat.findGreatest_le _
  have m3 : P m := Nat.findGreatest_spec (m := 355 * 2 ^ 44) (by norm_num) h355
  have m1' : (355 : ℝ) * 2 ^ 44 ≤ m := by exact_mod_cast m1
  have m2' : (m : ℝ) ≤ 356 * 2 ^ 44 := by exact_mod_cast m2
  have c1 : 355 ≤ (m : ℝ) / 2 ^ 44 := by rw [le_div_iff₀ (by positivity)]; exact m1'
  have c2 : (m : ℝ) / 2 ^ 44 ≤ 356 := by rw [div_le_iff₀ (by positivity)]; exact m2'
  have ca : |(m : ℝ) / 2 ^ 44| = (m : ℝ) / 2 ^ 44 := abs_of_nonneg (by positivity)
  refine ⟨(m : ℝ) / 2 ^ 44, c1, c2, fun A x hA hv => ⟨fun hx v h => ?_, fun hx fuel => ?_⟩⟩
  · obtain ⟨θ, -, -, hN⟩ := Fp.sinh_val hr (x := (m : ℝ) / 2 ^ 44) (by rw [ca]; linarith)
    exact lt_of_le_of_lt (square_mono hr (by linarith) (by rw [ca]; linarith) (by rw [ca]; exact hx) h (hN 21 le_rfl))
      (m3 _ (hN 21 le_rfl))
  · rcases le_total 356 |x| with h | h
    · exact cosh_diverges_big hr hA hv h fuel
    · obtain ⟨n, hn⟩ := Fp.grid (hA.double hv) (k := 8) (by norm_num; linarith)
      have e44 : (2 : ℝ) ^ (8 - 52 : ℤ) = 1 / 2 ^ 44 := by rw [show (8 - 52 : ℤ) = -44 by norm_num, zpow_neg]; norm_num
      rw [e44] at hn
      have hxn : |x| = (n.natAbs : ℝ) / 2 ^ 44 := by
        rw [hn, abs_mul, abs_of_pos (by positivity : (0 : ℝ) < 1 / 2 ^ 44), Nat.cast_natAbs, Int.cast_abs, mul_one_div]
      have lt : m < n.natAbs := by
        rw [hxn] at hx
        have := (div_lt_div_iff_of_pos_right (by positivity : (0 : ℝ) < 2 ^ 44)).mp hx
        exact_mod_cast this
      have le : n.natAbs ≤ 356 * 2 ^ 44 := by
        rw [hxn, div_le_iff₀ (by positivity)] at h
        exact_mod_cast h
      have np : ¬ P n.natAbs := Nat.findGreatest_is_greatest lt le
      obtain ⟨v, hv1, hv2⟩ : ∃ v, Cmath.sinh ρ 21 ((n.natAbs : ℝ) / 2 ^ 44) () = .ok v () ∧ lim ≤ v * v := by
        by_contra hc
        exact np fun v hv => not_le.mp fun hl => hc ⟨v, hv, hl⟩
      obtain ⟨θ, -, -, hN⟩ := Fp.sinh_val hr (x := x) (by linarith)
      refine cosh_overflow hr hA hv (by linarith) (hN 21 le_rfl) (hv2.trans ?_) fuel
      refine square_mono hr (by rw [← hxn, abs_abs]; linarith) (by linarith) (by rw [← hxn, abs_abs]) hv1 (hN 21 le_rfl)

end Cest.Ieee
