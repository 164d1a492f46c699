import Verif.Str.FindCostProofs
import Verif.Str.Props
/-
Property C151: what it costs to search and to compare strings.
-/
namespace Cest.Str
open Cest
set_option linter.unusedSectionVars false
variable {V : Type} [DecidableEq V] {t : Traits V} {st : SSt V} {e : Env V}

/-- **C151 (the counters change nothing).** Without the counts, the counted functions are `find`, `compare` and
`==` of C44 and C46, in every state. -/
theorem C151_counts (t : Traits V) (x y : Nat) (p : Ptr V) (pos count : Nat) :
    (do let r ← findPCC t x p pos count; pure r.1 : SM V (Option Nat)) = findPC t x p pos count ∧
    (do let r ← compareCount t x y; pure r.1 : SM V Int) = compare t x y ∧
    (do let r ← eqCount t x y; pure r.1 : SM V Bool) = eq t x y := by
  refine ⟨findPCC_fst t x p pos count, ?_, ?_⟩
  · funext s
    simp only [compareCount, compare, M.bind_apply]
    cases getObj x s with
    | ok o s' =>
      simp only []
      cases getObj y s' with
      | ok o2 s2 =>
        simp only []
        rw [← congrFun (cmpCharsC_fst t _ _ (min o.size o2.size) 0) s2]
        simp only [M.bind_apply]
        cases cmpCharsC t _ _ 0 (min o.size o2.size) s2 with
        | ok r s3 =>
          by_cases h : r.1 = 0
          · simp only [h, if_true, M.pure_apply]
          · simp only [h, if_false, M.pure_apply]
        | throw e s3 => rfl
        | ub u => rfl
        | timeout => rfl
      | throw e s2 => rfl
      | ub u => rfl
      | timeout => rfl
    | throw e s' => rfl
    | ub u => rfl
    | timeout => rfl
  · funext s
    simp only [eqCount, eq, M.bind_apply]
    cases getObj x s with
    | ok o s' =>
      simp only []
      cases getObj y s' with
      | ok o2 s2 =>
        simp only []
        by_cases h : o.size = o2.size
        · simp only [if_pos h, M.bind_apply]
          rw [← congrFun (cmpCharsC_fst t _ _ o.size 0) s2]
          simp only [M.bind_apply]
          cases cmpCharsC t _ _ 0 o.size s2 <;> rfl
        · simp only [if_neg h, M.pure_apply]
      | throw e s2 => rfl
      | ub u => rfl
      | timeout => rfl
    | throw e s' => rfl
    | ub u => rfl
    | timeout => rfl

/-- **C151 (find, exactly).** Every position from `pos` up to the occurrence found, or up to the last one at which
the needle would fit, is tested once; and where the first character of the needle is there, the needle is compared
up to and including the first difference. -/
theorem C151_find (ht : t.Lawful) (h : Reach t st e) {x : Nat} {xs : List V} (hx : e x = some xs)
    {a : Arg V} {count : Nat} {needle : List V} (ha : chars t.nul e a count = some needle) (hne : needle ≠ [])
    (pos : Nat) :
    ∃ p r, a.eval st = .ok p st ∧ IsFirst xs needle pos r ∧
      findPCC t x p pos count st = .ok (r, tried xs.length needle.length pos r,
        ((List.range' pos (tried xs.length needle.length pos r)).map (pairsAt xs needle)).sum) st := by
  obtain ⟨p, r, hp, h1, h2⟩ := C44_string_find ht h hx ha pos
  obtain ⟨σ, W, rfl⟩ := h.world ht
  obtain ⟨s, hs, rfl⟩ := envOf_some rfl hx
  obtain ⟨v, hv, hn, rfl⟩ := chars_view ha
  obtain ⟨p', hp', hsee, _⟩ := arg_sees W rfl hv
  rw [hp] at hp'
  cases hp'
  have e1 : (v.take count).length = count := by simp; omega
  obtain ⟨r', g1, _, g3⟩ := findPCC_ok ht W hs (hsee.take count) hne pos
  rw [e1] at g1 g3 ⊢
  rw [h1] at g1
  cases g1
  exact ⟨p, r, hp, h2, g3⟩

/-- **C151 (find, bound).** With `n` characters in the string and `m` in the needle, at most `n + 1 - m - pos`
tests, at most `m` pairs for each, and at most `m` pairs for each character of the string that equals the first
of the needle. -/
theorem C151_find_bound (ht : t.Lawful) (h : Reach t st e) {x : Nat} {xs : List V} (hx : e x = some xs)
    {a : Arg V} {count : Nat} {needle : List V} (ha : chars t.nul e a count = some needle) {c : V}
    (hc : needle[0]? = some c) (pos : Nat) :
    ∃ p r tests pairs, a.eval st = .ok p st ∧ findPCC t x p pos count st = .ok (r, tests, pairs) st ∧
      tests ≤ xs.length + 1 - needle.length - pos ∧ pairs ≤ tests * needle.length ∧
      pairs ≤ needle.length * xs.count c := by
  have hne : needle ≠ [] := by rintro rfl; simp at hc
  obtain ⟨p, r, hp, h1, h2⟩ := C151_find ht h hx ha hne pos
  refine ⟨p, r, _, _, hp, h2, ?_, ?_, pairs_count_le xs needle hc _ _⟩
  · cases r with
    | none => exact Nat.le_refl _
    | some f =>
      have := h1.1
      have := h1.2.1.1
      simp only [tried]; omega
  · have := sum_map_le (pairsAt_le xs needle) (List.range' pos (tried xs.length needle.length pos r))
    simpa using this

/-- **C151 (find, worst case).** The bound is reached: looking for `k` times `c` followed by another character in
`n > k` times `c` compares `n - k` times all the `k + 1` characters of the needle. -/
theorem C151_find_worst (ht : t.Lawful) (h : Reach t st e) {x n k : Nat} {c d : V} (hcd : c ≠ d) (hk : k < n)
    (hk0 : 0 < k) (hx : e x = some (List.replicate n c)) {a : Arg V}
    (ha : chars t.nul e a (k + 1) = some (List.replicate k c ++ [d])) :
    ∃ p, a.eval st = .ok p st ∧ findPCC t x p 0 (k + 1) st = .ok (none, n - k, (n - k) * (k + 1)) st := by
  obtain ⟨p, r, hp, h1, h2⟩ := C151_find ht h hx ha (by simp) 0
  have hr : r = none := by
    cases r with
    | none => rfl
    | some f =>
      obtain ⟨_, ⟨b1, b2⟩, _⟩ := h1
      have := b2 k (by simp)
      simp only [List.length_replicate, List.length_append, List.length_cons, List.length_nil] at b1
      rw [List.getElem?_replicate, if_pos (by omega), List.getElem?_append_right (by simp)] at this
      simp at this
      exact absurd this hcd
  subst hr
  refine ⟨p, hp, ?_⟩
  rw [h2]
  have e1 : tried (List.replicate n c).length (List.replicate k c ++ [d]).length 0 none = n - k := by
    simp [tried]
  rw [e1, sum_map_eq (m := k + 1), List.length_range']
  intro j hj
  rw [List.mem_range'_1] at hj
  simp only [pairsAt]
  rw [if_pos, List.drop_replicate, lcp_rep c d hcd k (n - j) (by omega)]
  · simp
  · rw [List.getElem?_replicate, if_pos (by omega), List.getElem?_append_left (by simpa using hk0),
      List.getElem?_replicate, if_pos hk0]

/-- **C151 (compare, exactly).** Two strings are compared up to and including the first difference, or to the end of
the shorter; `==` for `char` compares nothing when the lengths differ. -/
theorem C151_compare (ht : t.Lawful) (h : Reach t st e) {x y : Nat} {xs ys : List V}
    (hx : e x = some xs) (hy : e y = some ys) (hlx : xs.length < maxLen) (hly : ys.length < maxLen) :
    (∃ r, sign r = lexCmp t.lt xs ys ∧
      compareCount t x y st = .ok (r, min (min xs.length ys.length) (lcp xs ys + 1)) st) ∧
    eqCount t x y st = .ok (decide (xs = ys),
      if xs.length = ys.length then min xs.length (lcp xs ys + 1) else 0) st := by
  obtain ⟨σ, W, rfl⟩ := h.world ht
  obtain ⟨s, hs, rfl⟩ := envOf_some rfl hx
  obtain ⟨s2, hs2, rfl⟩ := envOf_some rfl hy
  obtain ⟨h1, _, h3⟩ := get_rep W hs
  obtain ⟨g1, _, g3⟩ := get_rep W hs2
  have l1 := SV.val_length h3
  have l2 := SV.val_length g3
  refine ⟨⟨cmpRes t.lt s.val s2.val, cmpRes_sign t.lt _ _ hlx hly, ?_⟩, ?_⟩
  · simp only [compareCount, M.bind_apply, getObj_some h1, getObj_some g1, SV.obj, ← l1, ← l2]
    rw [cmpCharsC_ok ht (sees_val W hs) (sees_val W hs2) _ 0 (by omega) (by omega)]
    simp only [List.drop_zero, cmpRes]
    split <;> rfl
  · have he := eq_spec ht W hs hs2
    rw [← (C151_counts t x y (.ext [] 0) 0 0).2.2] at he
    simp only [eqCount, M.bind_apply, getObj_some h1, getObj_some g1, SV.obj, ← l1, ← l2] at he ⊢
    by_cases hl : s.val.length = s2.val.length
    · simp only [if_pos hl, M.bind_apply] at he ⊢
      rw [cmpCharsC_ok ht (sees_val W hs) (sees_val W hs2) _ 0 (by omega) (by omega)] at he ⊢
      simp only [M.pure_apply, Res.ok.injEq, and_true, List.drop_zero] at he ⊢
      rw [he]
    · simp only [if_neg hl, M.pure_apply, Res.ok.injEq, and_true] at he ⊢
      rw [he]

/-- The hypotheses of the worst case are met: three times `7` and an `8` in five times `7`. -/
example : ∃ st p, findPCC (natTraits true) 0 p 0 4 st = .ok (none, 2, 8) st := by
  obtain ⟨st, h⟩ := Reach.of_spec (natTraits_lawful true) (ops := [.newC 0 (.ext [7, 7, 7, 7, 7, 0] 0)]) rfl
  obtain ⟨p, _, hp⟩ := C151_find_worst (natTraits_lawful true) h (x := 0) (n := 5) (k := 3) (c := 7) (d := 8)
    (by decide) (by decide) (by decide) rfl (a := .ext [7, 7, 7, 8] 0) rfl
  exact ⟨st, p, hp⟩

/-- A partial match, then the occurrence: four tests; one candidate given up after three pairs, one found. -/
example : tried 7 3 0 (some 3) = 4 ∧
    ((List.range' 0 4).map (pairsAt [1, 2, 9, 1, 2, 3, 1] [1, 2, 3])).sum = 6 := by decide

end Cest.Str
