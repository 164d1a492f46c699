import Verif.Swap.Model
/-
Properties C50 and C51 of nary::swap and nary::swapr.
-/
namespace Cest.Nary
open Cest
variable {R T : Type} [DecidableEq R]

/-- Variables as a total store. -/
def rd (r : R) : M (R → T) T := fun s => .ok (s r) s
def wrt (r : R) (v : T) : M (R → T) Unit := fun s => .ok () (fun q => if q = r then v else s q)

/-- `swap` on variables. -/
def swapVars (refs : List R) : M (R → T) Unit := swap rd wrt refs
/-- `swapr` on variables. -/
def swaprVars (refs : List R) : M (R → T) Unit := swapr rd wrt refs

/-- The expected result: the variable at position `i` gets the old value of the one at `i+1` (cyclically). -/
def RotL (refs : List R) (s s' : R → T) : Prop :=
  (∀ i (h : i < refs.length), s' refs[i] = s (refs[(i + 1) % refs.length]'(Nat.mod_lt _ (by omega)))) ∧
  ∀ q, q ∉ refs → s' q = s q

/-- The variable at position `i+1` gets the old value of the one at `i` (cyclically). -/
def RotR (refs : List R) (s s' : R → T) : Prop :=
  (∀ i (h : i < refs.length), s' (refs[(i + 1) % refs.length]'(Nat.mod_lt _ (by omega))) = s refs[i]) ∧
  ∀ q, q ∉ refs → s' q = s q

/-! ### Helper lemmas -/

/-- Effect of the left fold. -/
theorem foldL_spec (tmp : T) : ∀ (rs : List R) (r : R) (s : R → T), (r :: rs).Nodup →
    ∃ s', foldL rd wrt tmp r rs s = .ok () s' ∧
      (∀ i (h : i < rs.length), s' ((r :: rs)[i]'(by simp; omega)) = s rs[i]) ∧
      s' ((r :: rs).getLast (by simp)) = tmp ∧ ∀ q, q ∉ r :: rs → s' q = s q := by
  intro rs
  induction rs with
  | nil =>
    intro r s _
    exact ⟨_, rfl, by simp, by simp, fun q hq => by simp at hq; simp [hq]⟩
  | cons r' rs ih =>
    intro r s hnd
    rw [List.nodup_cons] at hnd
    obtain ⟨s', h1, h2, h3, h4⟩ := ih r' (fun q => if q = r then s r' else s q) hnd.2
    refine ⟨s', by simp only [foldL, M.bind_apply, rd, wrt] at h1 ⊢; exact h1, ?_, ?_, ?_⟩
    · intro i hi
      cases i with
      | zero =>
        show s' r = s r'
        rw [h4 r hnd.1]; simp
      | succ i =>
        have := h2 i (by simpa using hi)
        simp only [List.getElem_cons_succ]
        rw [this]
        have hne : rs[i]'(by simpa using hi) ≠ r := by
          rintro rfl; exact hnd.1 (List.mem_cons_of_mem _ (List.getElem_mem _))
        simp [hne]
    · simpa using h3
    · intro q hq
      simp only [List.mem_cons, not_or] at hq
      rw [h4 q (by simp [hq.2])]
      simp [hq.1]

/-- Effect of the right fold. -/
theorem foldR_spec : ∀ (rs : List R) (r : R) (s : R → T), (r :: rs).Nodup →
    ∃ s', foldR rd wrt r rs s = .ok () s' ∧
      (∀ i (h : i < rs.length), s' rs[i] = s ((r :: rs)[i]'(by simp; omega))) ∧ ∀ q, q ∉ rs → s' q = s q := by
  intro rs
  induction rs with
  | nil => intro r s _; exact ⟨s, rfl, by simp, by simp⟩
  | cons r' rs ih =>
    intro r s hnd
    rw [List.nodup_cons] at hnd
    obtain ⟨s', h1, h2, h3⟩ := ih r' s hnd.2
    have hr : s' r = s r := h3 r (fun h => hnd.1 (List.mem_cons_of_mem _ h))
    refine ⟨fun q => if q = r' then s r else s' q, ?_, ?_, ?_⟩
    · simp only [foldR, M.bind_apply, h1, rd, wrt, hr]
    · intro i hi
      cases i with
      | zero => simp
      | succ i =>
        have hi' : i < rs.length := by simpa using hi
        have hne : rs[i] ≠ r' := by
          rintro rfl; exact (List.nodup_cons.1 hnd.2).1 (List.getElem_mem _)
        simp only [List.getElem_cons_succ]
        rw [if_neg hne]
        exact h2 i hi'
    · intro q hq
      simp only [List.mem_cons, not_or] at hq
      simp [hq.1, h3 q hq.2]

/-! ### C50 -/

/-- **C50.** `nary::swap` of any number of distinct variables rotates their values to the left, and changes
nothing else. -/
theorem C50_swap_rotates (refs : List R) (hnd : refs.Nodup) (s : R → T) :
    ∃ s', swapVars refs s = .ok () s' ∧ RotL refs s s' := by
  cases refs with
  | nil => exact ⟨s, rfl, by simp, fun _ _ => rfl⟩
  | cons r rs =>
    obtain ⟨s', h1, h2, h3, h4⟩ := foldL_spec (s r) rs r s hnd
    refine ⟨s', h1, ?_, h4⟩
    intro i hi
    rcases Nat.lt_or_ge i rs.length with h | h
    · have : (i + 1) % (r :: rs).length = i + 1 := Nat.mod_eq_of_lt (by simpa using h)
      simp only [this, List.getElem_cons_succ]
      exact h2 i h
    · have hi' : i = rs.length := by simp at hi; omega
      subst hi'
      have : (rs.length + 1) % (r :: rs).length = 0 := by simp
      simp only [this, List.getElem_cons_zero]
      rw [← h3, List.getLast_eq_getElem]
      simp

/-- **C50 (two variables).** `nary::swap(x, y)` exchanges the values, also for `swap(x, x)`. -/
theorem C50_swap_two (x y : R) (s : R → T) :
    swapVars [x, y] s = .ok () (fun q => if q = y then s x else if q = x then s y else s q) := by
  simp [swapVars, swap, foldL, rd, wrt]

/-- **C50 (no or one variable).** Nothing changes. -/
theorem C50_swap_trivial (x : R) (s : R → T) :
    swapVars [] s = .ok () s ∧ swapVars [x] s = .ok () s := by
  refine ⟨rfl, ?_⟩
  simp only [swapVars, swap, foldL, M.bind_apply, rd, wrt]
  congr 1; funext q; split
  · rename_i h; rw [h]
  · rfl

example : (match swapVars [1, 5, 3, 2] (fun n : Nat => 10 * n) with
    | .ok _ s => [s 1, s 5, s 3, s 2, s 4] | _ => []) = [50, 30, 20, 10, 40] := by decide

/-! ### C51 -/

/-- **C51 (rotation).** `nary::swapr` rotates to the right. -/
theorem C51_swapr_rotates (refs : List R) (hnd : refs.Nodup) (s : R → T) :
    ∃ s', swaprVars refs s = .ok () s' ∧ RotR refs s s' := by
  match refs, hnd with
  | [], _ => exact ⟨s, rfl, by simp, fun _ _ => rfl⟩
  | [r], _ => exact ⟨s, rfl, by intro i hi; simp at hi; subst hi; simp, fun _ _ => rfl⟩
  | r :: r' :: rs, hnd =>
    obtain ⟨s', h1, h2, h3⟩ := foldR_spec (r' :: rs) r s hnd
    have hr : r ∉ r' :: rs := (List.nodup_cons.1 hnd).1
    refine ⟨fun q => if q = r then s ((r' :: rs).getLast (by simp)) else s' q, ?_, ?_, ?_⟩
    · have e1 : ∀ q, rd (T := T) q s = .ok (s q) s := fun _ => rfl
      simp only [swaprVars, swapr, M.bind_apply, e1, h1]
      rfl
    · intro i hi
      rcases Nat.lt_or_ge i (r' :: rs).length with h | h
      · have hm : (i + 1) % (r :: r' :: rs).length = i + 1 := Nat.mod_eq_of_lt (by simpa using h)
        simp only [hm, List.getElem_cons_succ]
        have hne : (r' :: rs)[i] ≠ r := by
          intro heq; exact hr (heq ▸ List.getElem_mem _)
        rw [if_neg hne]
        exact h2 i h
      · have hi' : i = (r' :: rs).length := by simp at hi h ⊢; omega
        subst hi'
        have hm : ((r' :: rs).length + 1) % (r :: r' :: rs).length = 0 := by simp
        simp only [hm, List.getElem_cons_zero, if_true]
        rw [List.getLast_eq_getElem]
        simp
    · intro q hq
      simp only [List.mem_cons, not_or] at hq
      show (if q = r then _ else s' q) = s q
      rw [if_neg hq.1]
      exact h3 q (by simp [hq.2.1, hq.2.2])

/-- A rotation to the left followed by one to the right, or conversely, restores every variable. -/
theorem rot_inv {refs : List R} {s s' s'' : R → T} :
    (RotL refs s s' → RotR refs s' s'' → s'' = s) ∧ (RotR refs s s' → RotL refs s' s'' → s'' = s) := by
  constructor
  · intro h1 h2
    funext q
    by_cases hq : q ∈ refs
    · obtain ⟨i, hi, rfl⟩ := List.mem_iff_getElem.1 hq
      by_cases h0 : i = 0
      · subst h0
        have a := h2.1 (refs.length - 1) (by omega)
        have b := h1.1 (refs.length - 1) (by omega)
        have hm : (refs.length - 1 + 1) % refs.length = 0 := by
          rw [Nat.sub_add_cancel (by omega)]; exact Nat.mod_self _
        simp only [hm] at a b
        rw [a, b]
      · have a := h2.1 (i - 1) (by omega)
        have b := h1.1 (i - 1) (by omega)
        have hm : (i - 1 + 1) % refs.length = i := by
          rw [Nat.sub_add_cancel (by omega)]; exact Nat.mod_eq_of_lt hi
        simp only [hm] at a b
        rw [a, b]
    · rw [h2.2 q hq, h1.2 q hq]
  · intro h1 h2
    funext q
    by_cases hq : q ∈ refs
    · obtain ⟨i, hi, rfl⟩ := List.mem_iff_getElem.1 hq
      rw [h2.1 i hi, h1.1 i hi]
    · rw [h2.2 q hq, h1.2 q hq]

/-- **C51 (inverse).** `swap` followed by `swapr`, and `swapr` followed by `swap`, restore every variable. -/
theorem C51_swapr_inverse (refs : List R) (hnd : refs.Nodup) (s : R → T) :
    (do swapVars refs; swaprVars refs) s = .ok () s ∧ (do swaprVars refs; swapVars refs) s = .ok () s := by
  constructor
  · obtain ⟨s', h1, h2⟩ := C50_swap_rotates refs hnd s
    obtain ⟨s'', h3, h4⟩ := C51_swapr_rotates refs hnd s'
    simp only [M.bind_apply, h1, h3, rot_inv.1 h2 h4]
  · obtain ⟨s', h1, h2⟩ := C51_swapr_rotates refs hnd s
    obtain ⟨s'', h3, h4⟩ := C50_swap_rotates refs hnd s'
    simp only [M.bind_apply, h1, h3, rot_inv.2 h2 h4]

example : (match swaprVars [1, 5, 3, 2] (fun n : Nat => 10 * n) with
    | .ok _ s => [s 1, s 5, s 3, s 2, s 4] | _ => []) = [20, 10, 50, 30, 40] := by decide

end Cest.Nary
