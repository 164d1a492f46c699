import Verif.Ieee.Values
import Verif.Fp.SinAll

/-! `sin` and `cos` of every finite double, with overflow and special values in the model. -/
namespace Cest.Ieee
open Cest.Cmath (FM IsDouble RoundsToNearest RoundsTiesEven)
open D Classical

variable {ρ : ℝ → ℝ}

/-- Nothing overflows in `sin_helper`: the values it works with are at most one. -/
theorem sin_ref_le (ht : RoundsTiesEven ρ) (n : ℕ) : ∀ (A : D) (x v : ℝ), Is A x → Valid A → 0 ≤ x →
    Cmath.sinHelper ρ n x () = .ok v () → ∃ V, Is V v ∧ sinHelper ρ n A () = .ok V () := by
  have hr := ht.toRoundsToNearest
  have hl := lim_big
  norm_num at hl
  induction n with
  | zero => intro A x v _ _ _ h; simp [Cmath.sinHelper, M.timeout] at h
  | succ n ih =>
    intro A x v hA hv h0 h
    by_cases hc : x < Cmath.tol ρ
    · rw [Cmath.sinHelper, if_pos hc] at h
      cases h
      exact ⟨A, hA, sinHelper_stop ((hA.lt (is_fin _)).mpr hc) n⟩
    · obtain ⟨a, ha, rfl⟩ := K_sin_inv h hc
      obtain ⟨t1, t2, t3⟩ := is_third hr hA hv (not_lt.mp hc)
      have y0 : 0 ≤ ρ (x / 3) := by linarith
      have ab := (Fp.sinHelper_le ht _ _ _ (hr.double _) y0 ha).2
      obtain ⟨V, hV, h4⟩ := ih _ _ _ t1 (valid_div hr) y0 ha
      refine ⟨_, ?_, sinHelper_rec (fun hc' => hc ((hA.lt (is_fin _)).mp hc')) h4⟩
      have bV : Bd V a 2 := ⟨hV, by linarith⟩
      have b3 : Bd (fin 3) 3 3 := ⟨is_fin 3, by norm_num⟩
      have b4 : Bd (fin 4) 4 4 := ⟨is_fin 4, by norm_num⟩
      have c := ((bV.mul hr bV (by linarith)).mul hr bV (by linarith))
      exact ((b3.mul hr bV (by linarith)).sub hr (b4.mul hr c (by linarith)) (by linarith)).1

theorem sin_value_all (ht : RoundsTiesEven ρ) {A : D} {x v : ℝ} (hA : Is A x) (hv : Valid A)
    (h : Cmath.Gives (fun fuel => Cmath.sin ρ fuel x) v) : ∃ V, Is V v ∧ Cmath.Gives (fun fuel => sin ρ fuel A) V := by
  have hr := ht.toRoundsToNearest
  obtain ⟨h1, h2⟩ := is_sinArg hr hA hv
  obtain ⟨⟨w, -, N', hN'⟩, -⟩ := helpers_gives hr h1 h2
  obtain ⟨N, hN⟩ := h
  obtain ⟨⟨p0, p1⟩, -⟩ := mPi_lt hr
  have hk := hN (max N N') (le_max_left _ _)
  simp only [Cmath.sin] at hk
  have hb : 0 ≤ (if x < 0 then ρ (-x + Cmath.mPi ρ) else x) := by
    split
    · exact hr.ge_of_ge Fp.isDouble_zero (by linarith)
    · linarith
  obtain ⟨V, hV, h4⟩ := sin_ref_le ht _ _ _ v h1 h2 hb hk
  have h5 : sinHelper ρ (max N N') _ () = .ok w () := hN' _ (le_max_right N N')
  rw [h4] at h5
  cases h5
  exact ⟨_, hV, N', hN'⟩

theorem cos_value_all (ht : RoundsTiesEven ρ) {A : D} {x v : ℝ} (hA : Is A x) (hv : Valid A)
    (h : Cmath.Gives (fun fuel => Cmath.cos ρ fuel x) v) : ∃ V, Is V v ∧ Cmath.Gives (fun fuel => cos ρ fuel A) V :=
  sin_value_all ht (is_cosArg ht.toRoundsToNearest hA hv) (valid_add ht.toRoundsToNearest) h

end Cest.Ieee
