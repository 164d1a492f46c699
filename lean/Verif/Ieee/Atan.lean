import Verif.Ieee.Log
import Verif.Fp.Atan

/-! `atan` and `atan2` over all values of `double`. -/
namespace Cest.Ieee
open Cest.Cmath (FM IsDouble RoundsToNearest)
open D Classical
open Cest.Fp (u u_pos u_lt)

variable {ρ : ℝ → ℝ}

theorem round_nine (hr : RoundsToNearest ρ) : ρ (7 + 2) = 9 := by
  rw [show (7 : ℝ) + 2 = 9 by norm_num]; exact hr.exact (by simpa using Fp.isDouble_nat (n := 9) (by norm_num))

theorem helper_pass {RES : D} (h : lt RES (tol ρ)) (NUM DEN DELTA : D) (fuel : ℕ) :
    atanPolyHelper ρ (fuel + 1) RES NUM DEN DELTA () = .ok RES () := by
  rw [atanPolyHelper, if_pos h]; rfl

theorem helper_ref (hr : RoundsToNearest ρ) {RES NUM DELTA : D} {res num delta h : ℝ} (h1 : Bd RES res 100)
    (h2 : Bd NUM num 1) (h3 : Bd DELTA delta 2)
    (hK : Cmath.atanPolyHelper ρ 2 res num 7 delta () = .ok h ()) :
    ∃ H, Bd H h 1000 ∧ ∀ fuel, atanPolyHelper ρ (fuel + 2) RES NUM (fin 7) DELTA () = .ok H () := by
  have hl := lim_big
  norm_num at hl
  have r9 := round_nine hr
  have hr9 : Cmath.fadd ρ 7 2 = 9 := r9
  by_cases hc : res < Cmath.tol ρ
  · rw [Cmath.atanPolyHelper, if_pos hc] at hK
    cases hK
    exact ⟨RES, h1.weaken (by norm_num), fun fuel => helper_pass ((h1.1.lt (is_fin _)).mpr hc) _ _ _ _⟩
  · rw [Cmath.atanPolyHelper, if_neg hc, hr9, M.bind_of_ok (Cmath.fdiv_ok (show (9 : ℝ) ≠ 0 by norm_num)),
      M.bind_of_ok (Cmath.fdiv_ok (show (7 : ℝ) ≠ 0 by norm_num))] at hK
    have n7 : Is (add ρ (fin 7) (fin 2)) 9 := by
      rw [← r9]; exact (is_fin 7).add hr (is_fin 2) (by norm_num; linarith)
    have a1 := (h2.mul hr h3 (by linarith)).div hr n7 (by norm_num) (by linarith)
    have a2 := h2.div hr (is_fin 7) (by norm_num) (by linarith)
    have a3 := a1.sub hr a2 (by linarith)
    set res2 := ρ (ρ (ρ (num * delta) / 9) - ρ (num / 7)) with hres
    by_cases hc2 : res2 < Cmath.tol ρ
    · have e' : Cmath.atanPolyHelper ρ 1 res2 (ρ (ρ (num * delta) * delta)) (ρ (7 + 4)) delta () = .ok res2 () := by
        rw [Cmath.atanPolyHelper, if_pos hc2]; rfl
      have hK' : Res.ok (ρ (res + res2)) () = Res.ok h () := by
        rw [← hK]; exact (M.bind_of_ok (f := fun r => pure (Cmath.fadd ρ res r)) e').symm
      cases hK'
      refine ⟨_, (h1.add hr a3 (by linarith)).weaken (by norm_num), fun fuel => ?_⟩
      have hcD : ¬ lt RES (tol ρ) := fun hcc => hc ((h1.1.lt (is_fin _)).mp hcc)
      rw [atanPolyHelper, if_neg hcD,
        M.bind_of_ok (helper_pass ((a3.1.lt (is_fin _)).mpr hc2) _ _ _ _)]
      rfl
    · exfalso
      have e' : Cmath.atanPolyHelper ρ 1 res2 (ρ (ρ (num * delta) * delta)) (ρ (7 + 4)) delta () = .timeout := by
        rw [Cmath.atanPolyHelper, if_neg hc2, M.bind_apply]
        cases hx : Cmath.fdiv ρ (Cmath.fmul ρ (ρ (ρ (num * delta) * delta)) delta) (Cmath.fadd ρ (ρ (7 + 4)) 2) () with
        | ok a s =>
          simp only [M.bind_apply]
          cases hy : Cmath.fdiv ρ (ρ (ρ (num * delta) * delta)) (ρ (7 + 4)) s with
          | ok b t => rfl
          | throw e s => simp [Cmath.fdiv] at hy; split at hy <;> simp [M.ub] at hy
          | ub w =>
            exfalso
            have : ρ (7 + 4) = 11 := by
              rw [show (7 : ℝ) + 4 = 11 by norm_num]; exact hr.exact (by simpa using Fp.isDouble_nat (n := 11) (by norm_num))
            rw [this] at hy
            cases s
            rw [Cmath.fdiv_ok (by norm_num)] at hy
            cases hy
          | timeout => rfl
        | throw e s => simp [Cmath.fdiv] at hx; split at hx <;> simp [M.ub] at hx
        | ub w =>
          exfalso
          have h11 : ρ (7 + 4) = 11 := by
            rw [show (7 : ℝ) + 4 = 11 by norm_num]; exact hr.exact (by simpa using Fp.isDouble_nat (n := 11) (by norm_num))
          have h13 : Cmath.fadd ρ (ρ (7 + 4)) 2 = 13 := by
            rw [h11, Cmath.fadd, show (11 : ℝ) + 2 = 13 by norm_num]
            exact hr.exact (by simpa using Fp.isDouble_nat (n := 13) (by norm_num))
          rw [h13, Cmath.fdiv_ok (by norm_num)] at hx
          cases hx
        | timeout => rfl
      have hK' : Res.timeout = Res.ok h () := by
        rw [← hK]
        exact (show (Cmath.atanPolyHelper ρ 1 res2 (ρ (ρ (num * delta) * delta)) (ρ (7 + 4)) delta >>= _) () = _ by
          rw [M.bind_apply, e']).symm
      cases hK'

theorem atanPoly_value (hr : RoundsToNearest ρ) {A : D} {y : ℝ} (hA : Is A y) (hy : |y| ≤ 27 / 100) :
    ∃ V v, Bd V v 3000 ∧ (∀ fuel, atanPoly ρ (fuel + 2) A () = .ok V ()) ∧
      (∀ fuel, Cmath.atanPoly ρ (fuel + 2) y () = .ok v ()) := by
  have hl := lim_big
  norm_num at hl
  obtain ⟨v, hv, -⟩ := Fp.atanPoly_fp hr hy
  have b1 : Bd A y 1 := ⟨hA, by linarith⟩
  have p7 := pow_bd hr b1 7
  have dl : Bd (mul ρ A A) (ρ (y * y)) 2 := (b1.mul hr b1 (by linarith)).weaken (by norm_num)
  have rs := (term_bd hr b1 5 (c := 5) (by norm_num)).sub hr (term_bd hr b1 3 (c := 3) (by norm_num)) (by linarith)
  have hK := hv 0
  simp only [Cmath.atanPoly, M.bind_apply, Fp.atan_pow_ok y (by norm_num : (0 : ℤ) ≤ 3),
      Fp.atan_pow_ok y (by norm_num : (0 : ℤ) ≤ 5), Fp.atan_pow_ok y (by norm_num : (0 : ℤ) ≤ 7),
      Cmath.fdiv_ok (by norm_num : (3 : ℝ) ≠ 0), Cmath.fdiv_ok (by norm_num : (5 : ℝ) ≠ 0), Cmath.fsub, Cmath.fmul, Cmath.fadd,
      M.pure_apply] at hK
  cases hh : Cmath.atanPolyHelper ρ 2 (ρ (ρ (Cmath.powNN ρ y 5 / 5) - ρ (Cmath.powNN ρ y 3 / 3))) (Cmath.powNN ρ y 7) 7
      (ρ (y * y)) () with
  | ok h s =>
    cases s
    erw [hh] at hK
    cases hK
    obtain ⟨H, b, hH⟩ := helper_ref hr (rs.weaken (by norm_num)) p7 dl hh
    refine ⟨_, _, (b1.add hr b (by linarith)).weaken (by norm_num), fun fuel => ?_, hv⟩
    simp only [atanPoly, M.bind_apply, pow_ok A (by norm_num : (0 : ℤ) ≤ 3),
      pow_ok A (by norm_num : (0 : ℤ) ≤ 5), pow_ok A (by norm_num : (0 : ℤ) ≤ 7)]
    erw [hH fuel]
    rfl
  | throw e s => erw [hh] at hK; cases hK
  | ub w => erw [hh] at hK; cases hK
  | timeout => erw [hh] at hK; cases hK

theorem mPi2_bd (hr : RoundsToNearest ρ) : Bd (mPi2 ρ) (Cmath.mPi2 ρ) 2 := by
  refine ⟨is_fin _, ?_⟩
  obtain ⟨-, p2⟩ := Fp.mPi_fp hr
  norm_num at p2
  have pg := Real.pi_gt_three
  have pl := Real.pi_lt_d2
  norm_num at pl
  rw [abs_le] at *
  constructor <;> linarith

theorem mPi_bd (hr : RoundsToNearest ρ) : Bd (mPi ρ) (Cmath.mPi ρ) 4 := by
  refine ⟨is_fin _, ?_⟩
  obtain ⟨p1, -⟩ := Fp.mPi_fp hr
  norm_num at p1
  have pg := Real.pi_gt_three
  have pl := Real.pi_lt_d2
  norm_num at pl
  rw [abs_le] at *
  constructor <;> linarith

/-- `sqrt(3)` in both models. -/
theorem sqrt_three (hr : RoundsToNearest ρ) : ∃ s, |s - 97 / 56| ≤ 11 * u ∧ (∀ fuel, Cmath.sqrt ρ (fuel + 4) (3 : ℝ) () = .ok s ()) ∧
    ∃ N, ∀ fuel, N ≤ fuel → sqrt ρ fuel (fin 3) () = .ok (fin s) () := by
  obtain ⟨s, hs, hf⟩ := Fp.sqrt_three_fp hr
  have hT := Fp.T_ge
  norm_num at hT
  obtain ⟨R, r, hR, r0, -, ⟨N1, k1⟩, ⟨N2, k2⟩⟩ := sqrt_small hr (is_fin 3)
    (le_trans (one_div_le_one_div_of_le one_pos (one_le_pow₀ (by norm_num))) (by norm_num)) (by linarith)
  have e1 := hf N1
  have e2 : Cmath.sqrt ρ (N1 + 4) (3 : ℝ) () = .ok r () := k1 (N1 + 4) (by omega)
  rw [e1] at e2
  cases e2
  rw [hR.eq_fin r0.ne'] at k2
  exact ⟨s, hs, hf, N2, k2⟩

theorem atanIdentity_value (hr : RoundsToNearest ρ) {A : D} {x : ℝ} (hA : Is A x) (h0 : 0 ≤ x) (h1 : x ≤ 1) :
    ∃ V v, Bd V v 7000 ∧ Cmath.Gives (fun fuel => atanIdentity ρ fuel A) V ∧ |v - Real.arctan x| ≤ 49 / 1000000 := by
  have hl := lim_big
  norm_num at hl
  have hu := u_pos
  have hu1 := u_lt
  norm_num at hu1
  obtain ⟨v, hv, hb⟩ := Fp.atanIdentity_fp hr h0 h1
  obtain ⟨s, hs, hf, N, hN⟩ := sqrt_three hr
  have hs' := abs_le.mp hs
  have e0 := abs_le.mp (Fp.err1 hr (x := 2 - s) (by rw [abs_le]; constructor <;> linarith))
  have h2s : Is (sub ρ (fin 2) (fin s)) (ρ (2 - s)) :=
    (is_fin 2).sub hr (is_fin s) (by rw [abs_lt]; constructor <;> linarith)
  have hK := hv 0
  rw [Cmath.atanIdentity, M.bind_apply, hf] at hK
  by_cases h : x ≤ ρ (2 - s)
  · obtain ⟨V, w, hV, g1, g2⟩ := atanPoly_value hr hA (by rw [abs_of_nonneg h0]; linarith)
    replace hK : (if x ≤ ρ (2 - s) then Cmath.atanPoly ρ 4 x else _) () = _ := hK
    rw [if_pos h, g2 2] at hK
    cases hK
    refine ⟨V, v, hV.weaken (by norm_num), ⟨max N 2, fun fuel hf' => ?_⟩, hb⟩
    obtain ⟨k, rfl⟩ : ∃ k, fuel = k + 2 := ⟨fuel - 2, by have := (le_max_right N 2).trans hf'; omega⟩
    show atanIdentity ρ (k + 2) A () = _
    rw [atanIdentity, M.bind_of_ok (hN _ ((le_max_left _ _).trans hf'))]
    rw [if_pos ((hA.le h2s).mpr h)]
    exact g1 k
  · have hx : 267 / 1000 ≤ x := by linarith [not_le.mp h]
    have hd : 0 < 97 / 56 + x := by linarith
    obtain ⟨q1, q2⟩ := Fp.atan_quot hr hs hx h1
    have y0 : |(97 / 56 * x - 1) / (97 / 56 + x)| ≤ 269 / 1000 := by
      rw [abs_div, abs_of_pos hd, div_le_iff₀ hd, abs_le]
      constructor <;> nlinarith
    have bx : Bd A x 1 := ⟨hA, by rw [abs_of_nonneg h0]; exact h1⟩
    have bs : Bd (fin s) s 2 := ⟨is_fin s, by rw [abs_le]; constructor <;> linarith⟩
    have b1 : Bd (fin 1) 1 1 := ⟨is_fin 1, by norm_num⟩
    have n1 := (bs.mul hr bx (by linarith)).sub hr b1 (by linarith)
    have d1 := bs.add hr bx (by linarith)
    have d1' : 1 ≤ |ρ (s + x)| := le_trans (hr.ge_of_ge isDouble_one (by linarith)) (le_abs_self _)
    have yq := n1.div hr d1.1 d1' (by linarith)
    set y := ρ (ρ (ρ (s * x) - 1) / ρ (s + x)) with hy
    have hyb : |y| ≤ 27 / 100 := by
      have := abs_sub_abs_le_abs_sub y ((97 / 56 * x - 1) / (97 / 56 + x))
      linarith
    obtain ⟨V, w, hV, g1, g2⟩ := atanPoly_value hr yq.1 hyb
    have c1 := (mPi2_bd hr).div hr (is_fin 3) (by norm_num) (by linarith)
    have c2 := c1.add hr hV (by linarith)
    replace hK := (congrFun (if_neg h) ()).symm.trans hK
    simp only [M.bind_apply, Cmath.fdiv_ok (by norm_num : (3 : ℝ) ≠ 0), hf, Cmath.fadd, Cmath.fsub, Cmath.fmul,
        Cmath.fdiv_ok q1, ← hy, g2 2, M.pure_apply] at hK
    cases hK
    refine ⟨_, _, c2.weaken (by norm_num), ⟨max N 2, fun fuel hf' => ?_⟩, hb⟩
    obtain ⟨k, rfl⟩ : ∃ k, fuel = k + 2 := ⟨fuel - 2, by have := (le_max_right N 2).trans hf'; omega⟩
    have hN' := hN _ ((le_max_left _ _).trans hf')
    show atanIdentity ρ (k + 2) A () = _
    rw [atanIdentity, M.bind_of_ok hN', if_neg (fun hcc => h ((hA.le h2s).mp hcc)), M.bind_of_ok hN', M.bind_of_ok hN',
      M.bind_of_ok (g1 k)]
    rfl

/-- `atan` of a finite double. -/
theorem atan_value (hr : RoundsToNearest ρ) {A : D} {x : ℝ} (hA : Is A x) :
    ∃ V v, Bd V v 20000 ∧ Cmath.Gives (fun fuel => atan ρ fuel A) V ∧ |v - Real.arctan x| ≤ 1 / 20000 := by
  have hl := lim_big
  norm_num at hl
  have hu := u_pos
  have hu1 := u_lt
  norm_num at hu1
  have key : ∀ (A : D) (x : ℝ), Is A x → 0 ≤ x → ∃ V v, Bd V v 20000 ∧ Cmath.Gives (fun fuel => atanCmplmntry ρ fuel A) V ∧
      |v - Real.arctan x| ≤ 1 / 20000 := by
    intro A x hA hx
    by_cases h : x < 1
    · obtain ⟨V, v, a1, ⟨N, hN⟩, a2⟩ := atanIdentity_value hr hA hx h.le
      refine ⟨V, v, a1.weaken (by norm_num), ⟨N, fun fuel hf => ?_⟩, by linarith⟩
      show atanCmplmntry ρ fuel A () = _
      rw [atanCmplmntry, if_pos ((hA.lt (is_fin 1)).mpr h)]; exact hN fuel hf
    · have hx1 : 1 ≤ x := not_lt.mp h
      have hx0 : 0 < x := by linarith
      have i0 : 0 ≤ 1 / x := by positivity
      have i1 : 1 / x ≤ 1 := by rw [div_le_one hx0]; exact hx1
      have r0 : 0 ≤ ρ (1 / x) := hr.ge_of_ge Fp.isDouble_zero i0
      have r1 : ρ (1 / x) ≤ 1 := hr.le_of_le isDouble_one i1
      have re := Fp.err1 hr (x := 1 / x) (by rw [abs_of_nonneg i0]; exact i1)
      have hi : Is (div ρ (fin 1) A) (ρ (1 / x)) := (is_fin 1).div hA hx0.ne' (by rw [abs_of_nonneg i0]; linarith)
      obtain ⟨V, v, a1, ⟨N, hN⟩, a2⟩ := atanIdentity_value hr hi r0 r1
      have lip := (Fp.arctan_lip (ρ (1 / x)) (1 / x)).trans re
      have e : Real.arctan (1 / x) = Real.pi / 2 - Real.arctan x := by
        rw [one_div, Real.arctan_inv_of_pos hx0]
      rw [e] at lip
      obtain ⟨-, p2⟩ := Fp.mPi_fp hr
      norm_num at p2
      have l1 := Real.neg_pi_div_two_lt_arctan x
      have l2 := Real.arctan_lt_pi_div_two x
      have l3 : 0 ≤ Real.arctan x := by
        rw [← Real.arctan_zero]; exact Real.arctan_strictMono.monotone hx0.le
      have pl := Real.pi_lt_d2
      norm_num at pl
      rw [abs_le] at a2 lip p2
      have e2 := abs_le.mp (Fp.err hr (x := Cmath.mPi2 ρ - v) (B := 2) (by rw [abs_le]; constructor <;> linarith)
        (by norm_num) (by norm_num))
      refine ⟨_, _, ((mPi2_bd hr).sub hr a1 (by linarith)).weaken (by norm_num), ⟨N, fun fuel hf => ?_⟩, ?_⟩
      · show atanCmplmntry ρ fuel A () = _
        rw [atanCmplmntry, if_neg (fun hc => h ((hA.lt (is_fin 1)).mp hc)), M.bind_of_ok (hN fuel hf)]; rfl
      · rw [abs_le]
        constructor <;> linarith
  by_cases hx : 0 ≤ x
  · obtain ⟨V, v, a1, ⟨N, hN⟩, a2⟩ := key A x hA hx
    refine ⟨V, v, a1, ⟨N, fun fuel hf => ?_⟩, a2⟩
    show atan ρ fuel A () = _
    rw [atan, if_pos (((is_fin 0).le hA).mpr hx)]; exact hN fuel hf
  · have hx' : x < 0 := not_le.mp hx
    obtain ⟨V, v, a1, ⟨N, hN⟩, a2⟩ := key (neg A) (-x) hA.neg (by linarith)
    refine ⟨neg V, -v, ⟨a1.1.neg, by rw [abs_neg]; exact a1.2⟩, ⟨N, fun fuel hf => ?_⟩, ?_⟩
    · show atan ρ fuel A () = _
      rw [atan, if_neg (fun hc => hx (((is_fin 0).le hA).mp hc)), M.bind_of_ok (hN fuel hf)]; rfl
    · rw [Real.arctan_neg] at a2
      rw [abs_le] at *
      constructor <;> linarith

theorem atan_inf (hr : RoundsToNearest ρ) :
    ∃ V v, Bd V v 20000 ∧ Cmath.Gives (fun fuel => atan ρ fuel (inf false)) V ∧
      Cmath.Gives (fun fuel => atan ρ fuel (inf true)) (neg V) ∧ |v - Real.pi / 2| ≤ 1 / 20000 := by
  have hl := lim_big
  norm_num at hl
  have hu := u_pos
  have hu1 := u_lt
  norm_num at hu1
  obtain ⟨V, v, a1, ⟨N, hN⟩, a2⟩ := atanIdentity_value hr (is_fin 0) le_rfl zero_le_one
  rw [Real.arctan_zero, sub_zero] at a2
  obtain ⟨-, p2⟩ := Fp.mPi_fp hr
  norm_num at p2
  have pl := Real.pi_lt_d2
  have pg := Real.pi_gt_three
  norm_num at pl
  rw [abs_le] at a2 p2
  have e2 := abs_le.mp (Fp.err hr (x := Cmath.mPi2 ρ - v) (B := 2) (by rw [abs_le]; constructor <;> linarith)
    (by norm_num) (by norm_num))
  have hc : ∀ fuel, N ≤ fuel → atanCmplmntry ρ fuel (inf false) () = .ok (sub ρ (mPi2 ρ) V) () := by
    intro fuel hf
    rw [atanCmplmntry, if_neg not_pinf_lt]
    have e : div ρ (fin 1) (inf false) = fin 0 := by
      simp [D.div, D.sign, D.zero]
    rw [e, M.bind_of_ok (hN fuel hf)]; rfl
  refine ⟨_, _, ((mPi2_bd hr).sub hr a1 (by linarith)).weaken (by norm_num), ⟨N, fun fuel hf => ?_⟩,
    ⟨N, fun fuel hf => ?_⟩, ?_⟩
  · show atan ρ fuel (inf false) () = _
    rw [atan, if_pos ⟨by simp, by simp, by simp [D.ext]⟩]; exact hc fuel hf
  · show atan ρ fuel (inf true) () = _
    rw [atan, if_neg (fun h => by have := h.2.2; simp [D.ext] at this)]
    have e : neg (inf true) = inf false := rfl
    rw [e, M.bind_of_ok (hc fuel hf)]; rfl
  · rw [abs_le]; constructor <;> linarith

/-! ### NaN -/

theorem helper_nan (fuel : ℕ) : ∀ NUM DEN DELTA : D, NUM = nan → atanPolyHelper ρ fuel nan NUM DEN DELTA () = .timeout := by
  induction fuel with
  | zero => intros; rfl
  | succ n ih =>
    rintro NUM DEN DELTA rfl
    rw [atanPolyHelper, if_neg (by simp [D.lt])]
    have e := ih nan (add ρ DEN (fin 4)) DELTA rfl
    have e1 : sub ρ (div ρ (mul ρ nan DELTA) (add ρ DEN (fin 2))) (div ρ nan DEN) = nan := by simp [D.sub]
    have e2 : mul ρ (mul ρ nan DELTA) DELTA = nan := by simp
    rw [e1, e2, M.bind_apply, e]

theorem powNN_nan : ∀ k : ℕ, powNN ρ nan (k + 1) = nan
  | 0 => rfl
  | k + 1 => by rw [powNN]; simp

theorem atanPoly_nan (fuel : ℕ) : atanPoly ρ fuel nan () = .timeout := by
  simp only [atanPoly, M.bind_apply, pow_ok nan (by norm_num : (0 : ℤ) ≤ 3),
      pow_ok nan (by norm_num : (0 : ℤ) ≤ 5), pow_ok nan (by norm_num : (0 : ℤ) ≤ 7)]
  have e3 : powNN ρ nan (Int.toNat 3) = nan := powNN_nan 2
  have e5 : powNN ρ nan (Int.toNat 5) = nan := powNN_nan 4
  have e7 : powNN ρ nan (Int.toNat 7) = nan := powNN_nan 6
  rw [e3, e5, e7]
  have e : sub ρ (div ρ nan (fin 5)) (div ρ nan (fin 3)) = nan := by simp [D.sub]
  rw [e, helper_nan fuel _ _ _ rfl]

theorem sqrt_or (fuel : ℕ) : ∀ (A G : D), (∃ v, sqrtHelper ρ fuel A G () = .ok v ()) ∨ sqrtHelper ρ fuel A G () = .timeout := by
  induction fuel with
  | zero => intro A G; exact Or.inr rfl
  | succ n ih =>
    intro A G
    rw [sqrtHelper]
    split
    · exact Or.inl ⟨G, rfl⟩
    · exact ih _ _

theorem atanIdentity_nan (fuel : ℕ) : atanIdentity ρ fuel nan () = .timeout := by
  rw [atanIdentity]
  rcases sqrt_or (ρ := ρ) fuel (fin 3) (fin 1) with ⟨s, h⟩ | h
  · have h' : sqrt ρ fuel (fin 3) () = .ok s () := h
    rw [M.bind_of_ok h', if_neg (by simp [D.le]), M.bind_of_ok h', M.bind_of_ok h']
    have e : div ρ (sub ρ (mul ρ s nan) (fin 1)) (add ρ s nan) = nan := by
      have : mul ρ s nan = nan := by cases s <;> rfl
      rw [this]; simp [D.sub]
    rw [e, M.bind_apply, atanPoly_nan]
  · have h' : sqrt ρ fuel (fin 3) () = .timeout := h
    rw [M.bind_apply, h']

theorem atan_nan (fuel : ℕ) : atan ρ fuel nan () = .timeout := by
  rw [atan, if_neg (by simp [D.le])]
  have e : neg nan = nan := rfl
  have e1 : atanCmplmntry ρ fuel nan () = .timeout := by
    rw [atanCmplmntry, if_neg (by simp [D.lt])]
    have : div ρ (fin 1) nan = nan := rfl
    rw [this, M.bind_apply, atanIdentity_nan]
  rw [e, M.bind_apply, e1]

end Cest.Ieee
