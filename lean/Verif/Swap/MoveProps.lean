import Verif.Swap.Move
import Verif.Swap.Props
import Mathlib.GroupTheory.Perm.List
/-
C162: nary::swap and nary::swapr with moves and with arguments that may name the same object.
-/
namespace Cest.Nary.Move
open Cest
variable {R T : Type} [DecidableEq R]

/-- `s` with `v` in the place of `r`. -/
def plug (s : Objs R T) (r : R) (v : Option T) : Objs R T := fun q => if q = r then v else s q

theorem foldL_eq (tmp : Option T) (rs : List R) : ∀ (r : R) (s : Objs R T), s r = none →
    foldL tmp r rs s = .ok () fun q => plug s r tmp (List.formPerm (r :: rs) q) := by
  induction rs with
  | nil => intro r s _; rfl
  | cons r' rs ih =>
    intro r s h
    rw [foldL, M.bind_apply]
    by_cases e : r = r'
    · subst e
      have : move r r s = .ok () s := by
        simp only [move, if_true]
        congr 1
        funext q
        split
        · rename_i e; rw [e, h]
        · rfl
      rw [this]
      simp only [ih r s h, List.formPerm_cons_cons, Equiv.swap_self]; rfl
    · simp only [move, if_neg e]
      rw [ih r' _ (by simp [Ne.symm e])]
      congr 1
      funext q
      rw [List.formPerm_cons_cons, Equiv.Perm.mul_apply]
      generalize List.formPerm (r' :: rs) q = x
      unfold plug
      by_cases h1 : x = r'
      · subst h1; simp
      · by_cases h2 : x = r
        · subst h2; simp [h1, Ne.symm h1]
        · simp [h1, h2, Equiv.swap_apply_of_ne_of_ne]

theorem foldR_eq (rs : List R) : ∀ (r : R) (s : Objs R T) (tmp : Option T), s ((r :: rs).getLast (by simp)) = none →
    ∃ s', foldR r rs s = .ok () s' ∧ s' r = none ∧
      ∀ q, plug s' r tmp q = plug s ((r :: rs).getLast (by simp)) tmp ((List.formPerm (r :: rs))⁻¹ q) := by
  induction rs with
  | nil => intro r s tmp h; exact ⟨s, rfl, h, fun q => by simp⟩
  | cons r' rs ih =>
    intro r s tmp h
    rw [List.getLast_cons (by simp)] at h
    obtain ⟨s1, e1, h1, k1⟩ := ih r' s tmp h
    rw [foldR, M.bind_apply, e1]
    simp only [List.getLast_cons (List.cons_ne_nil r' rs)]
    have key : ∀ q, plug s ((r' :: rs).getLast (by simp)) tmp ((List.formPerm (r :: r' :: rs))⁻¹ q) =
        plug s1 r' tmp (Equiv.swap r r' q) := fun q => by
      rw [k1, List.formPerm_cons_cons, mul_inv_rev, Equiv.Perm.mul_apply, Equiv.swap_inv]
    by_cases e : r' = r
    · subst e
      refine ⟨s1, ?_, h1, fun q => ?_⟩
      · simp only [move, if_true]
        congr 1
        funext q
        split
        · rename_i e; rw [e, h1]
        · rfl
      · rw [key, Equiv.swap_self, Equiv.refl_apply]
    · refine ⟨_, by simp only [move, if_neg e]; rfl, by simp [Ne.symm e], fun q => ?_⟩
      rw [key]
      unfold plug
      by_cases h3 : q = r
      · subst h3; simp
      · by_cases h2 : q = r'
        · subst h2; simp [h3, Ne.symm h3]
        · simp [h3, h2, Equiv.swap_apply_of_ne_of_ne]

/-- C162: whatever the arguments, `swap` moves the values around by a permutation (the product of the exchanges of
neighbouring arguments, Mathlib's `List.formPerm`): no value is lost or doubled, and no object is
left without one. -/
theorem C162_swap (l : List R) (s : Objs R T) : swap l s = .ok () fun q => s (List.formPerm l q) := by
  cases l with
  | nil => rfl
  | cons r rs =>
    rw [swap, M.bind_apply]
    simp only [take]
    rw [foldL_eq _ _ _ _ (by simp)]
    congr 1
    funext q
    unfold plug
    split
    · rename_i e; rw [e]
    · rename_i e; exact if_neg e

/-- C162: `swapr` does it the other way round. -/
theorem C162_swapr (l : List R) (s : Objs R T) : swapr l s = .ok () fun q => s ((List.formPerm l)⁻¹ q) := by
  match l with
  | [] => rfl
  | [_] => rfl
  | r :: r' :: rs =>
    rw [swapr, M.bind_apply]
    simp only [take]
    obtain ⟨s', e, _, h⟩ := foldR_eq (r' :: rs) r (fun q => if q = (r' :: rs).getLast (by simp) then none else s q)
      (s ((r' :: rs).getLast (by simp))) (by simp)
    rw [M.bind_apply, e]
    simp only [fill]
    congr 1
    funext q
    have := h q
    unfold plug at this
    rw [this, List.getLast_cons (by simp)]
    split
    · rename_i e; rw [e]
    · simp_all

/-- C162: each undoes the other, whatever the arguments. -/
theorem C162_inverse (l : List R) (s : Objs R T) :
    (swap l >>= fun _ => swapr l) s = .ok () s ∧ (swapr l >>= fun _ => swap l) s = .ok () s := by
  constructor <;> rw [M.bind_apply] <;> simp [C162_swap, C162_swapr]

/-- C162: only objects that are named change. -/
theorem C162_others (l : List R) (s s' : Objs R T) (e : swap l s = .ok () s' ∨ swapr l s = .ok () s') (q : R) (h : q ∉ l) :
    s' q = s q := by
  have h1 : List.formPerm l q = q := List.formPerm_apply_of_notMem h
  rcases e with e | e
  · rw [C162_swap] at e
    injection e with _ e
    subst e
    exact congrArg s h1
  · rw [C162_swapr] at e
    injection e with _ e
    subst e
    exact congrArg s (Equiv.Perm.inv_eq_iff_eq.2 h1.symm)

/-- C162: for distinct objects they are the rotations of C50 and C51. -/
theorem C162_rotates (l : List R) (hnd : l.Nodup) (s s' : Objs R T) :
    (swap l s = .ok () s' → RotL l s s') ∧ (swapr l s = .ok () s' → RotR l s s') := by
  have key : ∀ i (h : i < l.length), List.formPerm l l[i] = l[(i + 1) % l.length]'(Nat.mod_lt _ (by omega)) :=
    fun i h => List.formPerm_apply_getElem l hnd i h
  refine ⟨fun e => ⟨fun i h => ?_, fun q hq => C162_others l s s' (.inl e) q hq⟩,
    fun e => ⟨fun i h => ?_, fun q hq => C162_others l s s' (.inr e) q hq⟩⟩
  · rw [C162_swap] at e
    injection e with _ e
    subst e
    exact congrArg s (key i h)
  · rw [C162_swapr] at e
    injection e with _ e
    subst e
    exact congrArg s (Equiv.Perm.inv_eq_iff_eq.2 (key i h).symm)

/-- C162 with values that stay readable after a move (the model of C50): the same permutation, for any arguments. -/
theorem C162_copies (l : List R) (s : R → T) : swapVars l s = .ok () fun q => s (List.formPerm l q) := by
  have key : ∀ (rs : List R) (r : R) (tmp : T) (s : R → T),
      Nary.foldL rd wrt tmp r rs s = .ok () fun q => (fun q => if q = r then tmp else s q) (List.formPerm (r :: rs) q) := by
    intro rs
    induction rs with
    | nil => intro r tmp s; rfl
    | cons r' rs ih =>
      intro r tmp s
      simp only [Nary.foldL, M.bind_apply, rd, wrt]
      rw [ih]
      congr 1
      funext q
      rw [List.formPerm_cons_cons, Equiv.Perm.mul_apply]
      generalize List.formPerm (r' :: rs) q = x
      dsimp only
      by_cases h1 : x = r'
      · subst h1; simp
      · by_cases h2 : x = r
        · subst h2; simp [h1, Ne.symm h1]
        · simp [h1, h2, Equiv.swap_apply_of_ne_of_ne]
  cases l with
  | nil => rfl
  | cons r rs =>
    simp only [swapVars, Nary.swap, M.bind_apply, rd]
    refine (key rs r (s r) s).trans ?_
    congr 1
    funext q
    dsimp only
    split
    · rename_i e; rw [e]
    · rfl

/-- Concrete cases: five arguments with repetitions, and two that are the same. -/
example : (match swap [0, 1, 0, 2, 2] (fun i : Nat => some (i + 10)) with
    | .ok _ s => [s 0, s 1, s 2, s 3]
    | _ => []) = [some 12, some 11, some 10, some 13] := by decide
example : (match swap [0, 0] (fun i : Nat => some (i + 10)) with | .ok _ s => s 0 | _ => none) = some 10 := by decide

end Cest.Nary.Move
