import Verif.Str.Methods
/-
Searching, comparison and the input-iterator constructor (helper lemmas).
-/
namespace Cest.Str
open Cest
set_option linter.unusedSectionVars false
variable {V : Type} [DecidableEq V]

/-- `Traits::lt` is a strict total order (as for every character type). -/
structure Traits.Lawful (t : Traits V) : Prop where
  irrefl : ∀ a, t.lt a a = false
  trans : ∀ a b c, t.lt a b = true → t.lt b c = true → t.lt a c = true
  total : ∀ a b, t.lt a b = false → t.lt b a = false → a = b

/-! ### compare -/

theorem cmpL_range (lt : V → V → Bool) (as bs : List V) :
    cmpL lt as bs = -1 ∨ cmpL lt as bs = 0 ∨ cmpL lt as bs = 1 := by
  induction as generalizing bs with
  | nil => simp [cmpL]
  | cons a as ih =>
    cases bs with
    | nil => simp [cmpL]
    | cons b bs =>
      simp only [cmpL]
      split
      · simp
      · split
        · simp
        · exact ih bs

theorem cmpL_lex (lt : V → V → Bool) (as bs : List V) (n : Nat) (hn : n = min as.length bs.length) :
    lexCmp lt as bs =
      if cmpL lt (as.take n) (bs.take n) < 0 then .lt
      else if cmpL lt (as.take n) (bs.take n) = 0 then Ord.compare as.length bs.length
      else .gt := by
  induction as generalizing bs n with
  | nil =>
    cases bs with
    | nil => simp [cmpL, lexCmp]
    | cons b bs => simp [cmpL, lexCmp, hn, Nat.compare_eq_ite_lt]
  | cons a as ih =>
    cases bs with
    | nil => simp [cmpL, lexCmp, hn, Nat.compare_eq_ite_lt]
    | cons b bs =>
      have e : n = min as.length bs.length + 1 := by simp at hn; omega
      subst e
      simp only [List.take_succ_cons, cmpL, lexCmp, List.length_cons]
      rcases Bool.eq_false_or_eq_true (lt a b) with h | h
      · simp [h]
      · rcases Bool.eq_false_or_eq_true (lt b a) with h' | h'
        · simp [h, h']
        · simp only [h, h']
          rw [ih bs _ rfl]
          simp [Nat.compare_eq_ite_lt]

theorem sCompare_sign (m n : Nat) (hm : m < maxLen) (hn : n < maxLen) :
    sign (sCompare m n) = Ord.compare m n := by
  simp only [maxLen] at hm hn
  have hd : sizeDiff m n = (m : Int) - n := by
    simp only [sizeDiff]
    split <;> omega
  simp only [sCompare, hd, sign, Nat.compare_eq_ite_lt]
  by_cases h1 : m < n
  · rw [if_pos h1]
    split
    · omega
    · split
      · rfl
      · rw [if_pos (by omega)]
  · rw [if_neg h1]
    by_cases h2 : n < m
    · rw [if_pos h2]
      split
      · rfl
      · split
        · omega
        · rw [if_neg (by omega), if_neg (by omega)]
    · rw [if_neg h2]
      have : m = n := by omega
      subst this
      simp

/-- The outcome of a comparison: the character comparison first, then the lengths. -/
def cmpRes (lt : V → V → Bool) (as bs : List V) : Int :=
  let r := cmpL lt (as.take (min as.length bs.length)) (bs.take (min as.length bs.length))
  if r = 0 then sCompare as.length bs.length else r

theorem cmpRes_sign (lt : V → V → Bool) (as bs : List V) (hm : as.length < maxLen)
    (hn : bs.length < maxLen) : sign (cmpRes lt as bs) = lexCmp lt as bs := by
  rw [cmpL_lex lt as bs _ rfl]
  simp only [cmpRes]
  rcases cmpL_range lt (as.take (min as.length bs.length)) (bs.take (min as.length bs.length))
    with h | h | h
  · rw [h]; simp [sign]
  · rw [h]; simp; exact sCompare_sign _ _ hm hn
  · rw [h]; simp [sign]

theorem lexCmp_swap {t : Traits V} (ht : t.Lawful) (as bs : List V) :
    lexCmp t.lt bs as = (lexCmp t.lt as bs).swap := by
  induction as generalizing bs with
  | nil => cases bs <;> rfl
  | cons a as ih =>
    cases bs with
    | nil => rfl
    | cons b bs =>
      simp only [lexCmp]
      rcases Bool.eq_false_or_eq_true (t.lt a b) with h | h
      · rcases Bool.eq_false_or_eq_true (t.lt b a) with h' | h'
        · have := ht.trans a b a h h'
          rw [ht.irrefl] at this
          exact absurd this (by simp)
        · simp [h, h']
      · rcases Bool.eq_false_or_eq_true (t.lt b a) with h' | h'
        · simp [h, h']
        · simp [h, h', ih]

theorem lexCmp_eq {t : Traits V} (ht : t.Lawful) (as bs : List V) :
    lexCmp t.lt as bs = .eq ↔ as = bs := by
  induction as generalizing bs with
  | nil => cases bs <;> simp [lexCmp]
  | cons a as ih =>
    cases bs with
    | nil => simp [lexCmp]
    | cons b bs =>
      simp only [lexCmp]
      rcases Bool.eq_false_or_eq_true (t.lt a b) with h | h
      · simp [h]
        intro hab
        subst hab
        rw [ht.irrefl] at h; simp at h
      · rcases Bool.eq_false_or_eq_true (t.lt b a) with h' | h'
        · simp [h, h']
          intro hab
          subst hab
          rw [ht.irrefl] at h'; simp at h'
        · have := ht.total a b h h'
          subst this
          simp [h, ih]

theorem lexCmp_trans {t : Traits V} (ht : t.Lawful) (as bs cs : List V)
    (h1 : lexCmp t.lt as bs = .lt) (h2 : lexCmp t.lt bs cs = .lt) : lexCmp t.lt as cs = .lt := by
  induction as generalizing bs cs with
  | nil =>
    cases bs with
    | nil => simp [lexCmp] at h1
    | cons b bs => cases cs <;> simp [lexCmp] at h2 ⊢
  | cons a as ih =>
    cases bs with
    | nil => simp [lexCmp] at h1
    | cons b bs =>
      cases cs with
      | nil => simp [lexCmp] at h2
      | cons c cs =>
        simp only [lexCmp] at h1 h2 ⊢
        rcases Bool.eq_false_or_eq_true (t.lt a b) with hab | hab
        · rcases Bool.eq_false_or_eq_true (t.lt b c) with hbc | hbc
          · simp [ht.trans a b c hab hbc]
          · rcases Bool.eq_false_or_eq_true (t.lt c b) with hcb | hcb
            · simp [hbc, hcb] at h2
            · have := ht.total b c hbc hcb
              subst this
              simp [hab]
        · rcases Bool.eq_false_or_eq_true (t.lt b a) with hba | hba
          · simp [hab, hba] at h1
          · have := ht.total a b hab hba
            subst this
            simp [hab] at h1
            rcases Bool.eq_false_or_eq_true (t.lt a c) with hac | hac
            · simp [hac]
            · rcases Bool.eq_false_or_eq_true (t.lt c a) with hca | hca
              · simp [hac, hca] at h2
              · simp [hac, hca] at h2 ⊢
                exact ih bs cs h1 h2

theorem cmpL_zero {t : Traits V} (ht : t.Lawful) (as bs : List V) (hl : as.length = bs.length) :
    cmpL t.lt as bs = 0 ↔ as = bs := by
  induction as generalizing bs with
  | nil => cases bs <;> simp [cmpL] at hl ⊢
  | cons a as ih =>
    cases bs with
    | nil => simp at hl
    | cons b bs =>
      simp only [cmpL]
      rcases Bool.eq_false_or_eq_true (t.lt a b) with h | h
      · simp [h]
        intro hab
        subst hab
        rw [ht.irrefl] at h; simp at h
      · rcases Bool.eq_false_or_eq_true (t.lt b a) with h' | h'
        · simp [h, h']
          intro hab
          subst hab
          rw [ht.irrefl] at h'; simp at h'
        · have := ht.total a b h h'
          subst this
          simp [h]
          exact ih bs (by simpa using hl)

section
variable {t : Traits V} {st : SSt V} {σ : Nat → Option (SV V)}

/-- Character views of a string variable. -/
theorem sees_val (W : SW t st σ) {y : Nat} {s : SV V} (hy : σ y = some s) :
    Sees st (.cell (some s.blk) 0) s.val := by
  have := (sees_data W hy 0).take s.n
  simpa [SV.val] using this

theorem compare_spec (W : SW t st σ) {x y : Nat} {s s2 : SV V} (hx : σ x = some s)
    (hy : σ y = some s2) : compare t x y st = .ok (cmpRes t.lt s.val s2.val) st := by
  obtain ⟨h1, _, h3⟩ := get_rep W hx
  obtain ⟨g1, _, g3⟩ := get_rep W hy
  have l1 := SV.val_length h3
  have l2 := SV.val_length g3
  simp only [compare, M.bind_apply, getObj_some h1, getObj_some g1, SV.obj, ← l1, ← l2]
  rw [cmpChars_ok (sees_val W hx) (sees_val W hy) _ 0 (by omega) (by omega)]
  simp only [List.drop_zero, cmpRes]
  split <;> rfl

theorem compareC_spec (W : SW t st σ) {x : Nat} {s : SV V} (hx : σ x = some s) {p : Ptr V}
    {v : List V} (hp : Sees st p v) (hn : t.nul ∈ v) :
    compareC t x p st = .ok (cmpRes t.lt s.val (v.takeWhile (· ≠ t.nul))) st := by
  obtain ⟨h1, _, h3⟩ := get_rep W hx
  have l1 := SV.val_length h3
  have hlv : (v.takeWhile (· ≠ t.nul)).length < v.length := takeWhile_length_lt ⟨t.nul, hn, by simp⟩
  have htake := take_cstr t.nul v
  have hp' := hp.take (v.takeWhile (· ≠ t.nul)).length
  rw [htake] at hp'
  simp only [compareC, M.bind_apply, getObj_some h1, SV.obj, length_ok hp hn, ← l1]
  rw [cmpChars_ok (sees_val W hx) hp' _ 0 (by omega) (by omega)]
  simp only [List.drop_zero, cmpRes]
  split <;> rfl

theorem eq_spec (ht : t.Lawful) (W : SW t st σ) {x y : Nat} {s s2 : SV V} (hx : σ x = some s)
    (hy : σ y = some s2) : eq t x y st = .ok (decide (s.val = s2.val)) st := by
  obtain ⟨h1, _, h3⟩ := get_rep W hx
  obtain ⟨g1, _, g3⟩ := get_rep W hy
  have l1 := SV.val_length h3
  have l2 := SV.val_length g3
  simp only [eq, M.bind_apply, getObj_some h1, getObj_some g1, SV.obj, ← l1, ← l2]
  by_cases hl : s.val.length = s2.val.length
  · rw [if_pos hl]
    simp only [M.bind_apply]
    rw [cmpChars_ok (sees_val W hx) (sees_val W hy) _ 0 (by omega) (by omega)]
    simp only [List.drop_zero, List.take_length]
    have : s2.val.take s.val.length = s2.val := by rw [hl]; simp
    rw [this]
    have := cmpL_zero ht _ _ hl
    simp only [M.pure_apply]
    congr 1
    rw [Bool.eq_iff_iff]
    simp [this]
  · rw [if_neg hl]
    have : s.val ≠ s2.val := by intro h; exact hl (by rw [h])
    simp [this]

theorem cmpRes_zero (ht : t.Lawful) (as bs : List V) (hm : as.length < maxLen)
    (hn : bs.length < maxLen) : (cmpRes t.lt as bs == 0) = decide (as = bs) := by
  have h := cmpRes_sign t.lt as bs hm hn
  have h2 := lexCmp_eq ht as bs
  rw [← h] at h2
  rw [Bool.eq_iff_iff]
  simp only [beq_iff_eq, decide_eq_true_eq, ← h2]
  simp only [sign]
  split
  · simp; omega
  · split <;> simp_all

theorem cmpRes_neg (as bs : List V) (hm : as.length < maxLen)
    (hn : bs.length < maxLen) : (decide (cmpRes t.lt as bs < 0)) = (lexCmp t.lt as bs == .lt) := by
  rw [← cmpRes_sign t.lt as bs hm hn]
  simp only [sign]
  split
  · next h => simp [h]
  · next h => split <;> simp [h] <;> rfl

theorem cmpRes_pos (ht : t.Lawful) (as bs : List V) (hm : as.length < maxLen)
    (hn : bs.length < maxLen) : (decide (cmpRes t.lt as bs > 0)) = (lexCmp t.lt bs as == .lt) := by
  rw [lexCmp_swap ht, ← cmpRes_sign t.lt as bs hm hn]
  simp only [sign]
  split
  · next h =>
    have : ¬ cmpRes t.lt as bs > 0 := by omega
    simp [this]
  · next h =>
    split
    · next h2 => simp [h2]
    · next h2 =>
      have : cmpRes t.lt as bs > 0 := by omega
      simp [this]

/-! ### find -/

/-- `needle` occurs in `hay` at position `i`. -/
def Occurs (hay needle : List V) (i : Nat) : Prop := needle <+: hay.drop i ∧ i ≤ hay.length

theorem firstMatch_of {hay needle : List V} {pos : Nat} {r : Option Nat}
    (h : match r with
      | some f => pos ≤ f ∧ Occurs hay needle f ∧ ∀ j, pos ≤ j → j < f → ¬ Occurs hay needle j
      | none => ∀ j, pos ≤ j → ¬ Occurs hay needle j) : firstMatch hay needle pos = r := by
  cases r with
  | none =>
    simp only [firstMatch, List.find?_eq_none, List.mem_range]
    intro i hi hc
    simp at hc
    exact h i hc.1 ⟨hc.2, by omega⟩
  | some f =>
    obtain ⟨h1, h2, h3⟩ := h
    simp only [firstMatch, List.find?_range_eq_some]
    refine ⟨by simpa using ⟨h1, h2.1⟩, by have := h2.2; simp; omega, ?_⟩
    intro j hj
    have := h2.2
    by_cases hp : pos ≤ j
    · have := h3 j hp hj
      simp only [Occurs, not_and, Nat.not_le] at this
      have hnp : ¬ needle <+: hay.drop j := by
        intro hc
        have := this hc
        omega
      rw [← List.isPrefixOf_iff_prefix] at hnp
      simp [hp, hnp]
    · simp [hp]

theorem firstMatch_iff {hay needle : List V} {pos : Nat} {r : Option Nat} :
    firstMatch hay needle pos = r ↔ (match r with
      | some f => pos ≤ f ∧ Occurs hay needle f ∧ ∀ j, pos ≤ j → j < f → ¬ Occurs hay needle j
      | none => ∀ j, pos ≤ j → ¬ Occurs hay needle j) := by
  refine ⟨?_, firstMatch_of⟩
  intro h
  cases r with
  | none =>
    simp only [firstMatch, List.find?_eq_none, List.mem_range] at h
    intro j hj ho
    exact h j (by have := ho.2; omega) (by simpa using ⟨hj, ho.1⟩)
  | some f =>
    simp only [firstMatch, List.find?_range_eq_some] at h
    obtain ⟨h1, h2, h3⟩ := h
    simp at h1 h2
    refine ⟨h1.1, ⟨h1.2, by omega⟩, ?_⟩
    intro j hj hjf ho
    have := h3 j hjf
    have h4 := List.isPrefixOf_iff_prefix.2 ho.1
    simp [hj, h4] at this

theorem firstChar_of {hay : List V} {c : V} {r : Option Nat}
    (h : match r with
      | some f => hay[f]? = some c ∧ ∀ j : Nat, j < f → hay[j]? ≠ some c
      | none => ∀ j : Nat, hay[j]? ≠ some c) : firstChar hay c = r := by
  cases r with
  | none =>
    simp only [firstChar, List.find?_eq_none, List.mem_range]
    intro i hi hc
    simp only [decide_eq_true_eq] at hc
    exact h i hc
  | some f =>
    obtain ⟨h1, h2⟩ := h
    simp only [firstChar, List.find?_range_eq_some]
    refine ⟨by simpa using h1, ?_, ?_⟩
    · rw [List.mem_range]
      apply Classical.byContradiction
      intro hc
      rw [List.getElem?_eq_none (by omega)] at h1
      simp at h1
    · intro j hj; simpa using h2 j hj

theorem prefix_iff_take (as bs : List V) : as <+: bs ↔ bs.take as.length = as := by
  rw [List.prefix_iff_eq_take]
  exact eq_comm

theorem occurs_len {hay needle : List V} {i : Nat} (h : Occurs hay needle i) :
    i + needle.length ≤ hay.length := by
  have := h.1.length_le
  have := h.2
  simp at *; omega

theorem findLoop_ok (ht : t.Lawful) {s : SSt V} {a : Nat} {q : Ptr V} {hay needle : List V} {c0 : V}
    (hp : Sees s (.cell (some a) 0) hay) (hq : Sees s q needle) (hc : needle[0]? = some c0)
    (fuel first : Nat) (hfi : first ≤ hay.length) (hf : hay.length - first < fuel) :
    ∃ r, findLoop t (.cell (some a) 0) q c0 hay.length needle.length fuel first
        (hay.length - first) s = .ok r s ∧
      match r with
      | some f => first ≤ f ∧ Occurs hay needle f ∧ ∀ j, first ≤ j → j < f → ¬ Occurs hay needle j
      | none => ∀ j, first ≤ j → ¬ Occurs hay needle j := by
  induction fuel generalizing first with
  | zero => omega
  | succ fuel ih =>
    have hpos : 0 < needle.length := by
      apply Classical.byContradiction
      intro h
      rw [List.getElem?_eq_none (by omega)] at hc; simp at hc
    by_cases hlen : hay.length - first ≥ needle.length
    · obtain ⟨r, hr, hr2⟩ := findChar_ok hp c0 (hay.length - first - needle.length + 1) first
        (by omega)
      -- an occurrence starts with the first character
      have hocc : ∀ j, Occurs hay needle j → hay[j]? = some c0 := by
        intro j hj
        have := (prefix_iff_take _ _).1 hj.1
        have h0 : (needle)[0]? = ((hay.drop j).take needle.length)[0]? := by rw [this]
        rw [List.getElem?_take, if_pos hpos, List.getElem?_drop] at h0
        rw [hc] at h0
        simpa using h0.symm
      cases r with
      | none =>
        refine ⟨none, ?_, ?_⟩
        · simp only [findLoop]
          rw [if_pos hlen]
          simp only [M.bind_apply, hr]
          rfl
        · intro j hj ho
          have := occurs_len ho
          exact hr2 j hj (by omega) (hocc j ho)
      | some f =>
        obtain ⟨b1, b2, b3, b4⟩ := hr2
        have hsh := hp.shift (k := f)
        rw [Nat.zero_add] at hsh
        have hcmp := cmpChars_ok (t := t) hsh hq needle.length 0 (by simp; omega) (by omega)
        simp only [List.drop_zero, List.take_length] at hcmp
        have hz := cmpL_zero ht ((hay.drop f).take needle.length) needle (by simp; omega)
        by_cases hm : (hay.drop f).take needle.length = needle
        · refine ⟨some f, ?_, b1, ⟨(prefix_iff_take _ _).2 hm, by omega⟩, ?_⟩
          · simp only [findLoop]
            rw [if_pos hlen]
            simp only [M.bind_apply, hr, Nat.zero_add, hcmp, hz.2 hm]
            simp
          · intro j hj hjf ho
            exact b4 j hj hjf (hocc j ho)
        · obtain ⟨r, hr3, hr4⟩ := ih (f+1) (by omega) (by omega)
          have hnz : ¬ cmpL t.lt ((hay.drop f).take needle.length) needle = 0 := fun h => hm (hz.1 h)
          refine ⟨r, ?_, ?_⟩
          · simp only [findLoop]
            rw [if_pos hlen]
            simp only [M.bind_apply, hr, Nat.zero_add, hcmp, if_neg hnz]
            exact hr3
          · have hno : ∀ j, first ≤ j → j < f + 1 → ¬ Occurs hay needle j := by
              intro j hj hjf ho
              by_cases h : j = f
              · subst h; exact hm ((prefix_iff_take _ _).1 ho.1)
              · exact b4 j hj (by omega) (hocc j ho)
            cases r with
            | none =>
              intro j hj
              by_cases h : j < f + 1
              · exact hno j hj h
              · exact hr4 j (by omega)
            | some g =>
              obtain ⟨c1, c2, c3⟩ := hr4
              refine ⟨by omega, c2, ?_⟩
              intro j hj hjg
              by_cases h : j < f + 1
              · exact hno j hj h
              · exact c3 j (by omega) hjg
    · refine ⟨none, ?_, ?_⟩
      · simp only [findLoop]
        rw [if_neg hlen]
        rfl
      · intro j hj ho
        have := occurs_len ho
        omega

theorem findPC_spec (ht : t.Lawful) (W : SW t st σ) {x : Nat} {s : SV V} (hx : σ x = some s)
    {p : Ptr V} {v : List V} (hp : Sees st p v) (pos : Nat) :
    findPC t x p pos v.length st = .ok (firstMatch s.val v pos) st := by
  obtain ⟨h1, _, h3⟩ := get_rep W hx
  have l1 := SV.val_length h3
  simp only [findPC, M.bind_apply, getObj_some h1, SV.obj, ← l1]
  by_cases h0 : v.length = 0
  · have : v = [] := List.length_eq_zero_iff.1 h0
    subst this
    rw [if_pos h0]
    simp only [M.pure_apply]
    congr 1
    symm
    apply firstMatch_of
    by_cases hp2 : pos ≤ s.val.length
    · rw [if_pos hp2]
      exact ⟨Nat.le_refl _, ⟨List.nil_prefix, hp2⟩, by intro j h1 h2; omega⟩
    · rw [if_neg hp2]
      intro j hj ho
      have := ho.2
      omega
  · rw [if_neg h0]
    by_cases hp2 : pos ≥ s.val.length
    · simp only [if_pos hp2, M.pure_apply]
      congr 1
      symm
      apply firstMatch_of
      intro j hj ho
      have := occurs_len ho
      omega
    · have hv : v[0]? = some v[0] := by simp
      simp only [if_neg hp2, M.bind_apply, hp.1 0 _ hv]
      obtain ⟨r, hr, hr2⟩ := findLoop_ok ht (sees_val W hx) hp hv (s.val.length + 1) pos (by omega)
        (by omega)
      rw [hr]
      congr 1
      exact (firstMatch_of hr2).symm

theorem findC_spec (ht : t.Lawful) (W : SW t st σ) {x : Nat} {s : SV V} (hx : σ x = some s)
    {p : Ptr V} {v : List V} (hp : Sees st p v) (hn : t.nul ∈ v) (pos : Nat) :
    findC t x p pos st = .ok (firstMatch s.val (v.takeWhile (· ≠ t.nul)) pos) st := by
  have htake := take_cstr t.nul v
  have hp' := hp.take (v.takeWhile (· ≠ t.nul)).length
  rw [htake] at hp'
  simp only [findC, M.bind_apply, length_ok hp hn]
  exact findPC_spec ht W hx hp' pos

theorem findStr_spec (ht : t.Lawful) (W : SW t st σ) {x y : Nat} {s s2 : SV V} (hx : σ x = some s)
    (hy : σ y = some s2) (hnul : t.nul ∉ s2.val) (pos : Nat) :
    findStr t x y pos st = .ok (firstMatch s.val s2.val pos) st := by
  obtain ⟨h1, h2⟩ := SV.cstr_of (get_rep W hy).2.2 hnul
  simp only [findStr, M.bind_apply, data_ok W hy]
  rw [findC_spec ht W hx (by simpa using sees_data W hy 0) h1, h2]

theorem findCh_spec (W : SW t st σ) {x : Nat} {s : SV V} (hx : σ x = some s) (c : V) (pos : Nat) :
    findCh x c pos st = .ok (firstChar s.val c) st := by
  obtain ⟨h1, _, h3⟩ := get_rep W hx
  have l1 := SV.val_length h3
  simp only [findCh, M.bind_apply, getObj_some h1, SV.obj, ← l1]
  obtain ⟨r, hr, hr2⟩ := findChar_ok (sees_val W hx) c s.val.length 0 (by omega)
  rw [hr]
  congr 1
  symm
  apply firstChar_of
  cases r with
  | none =>
    intro j hj
    by_cases hlt : j < s.val.length
    · exact hr2 j (by omega) (by omega) hj
    · rw [List.getElem?_eq_none (by omega)] at hj; simp at hj
  | some f => exact ⟨hr2.2.2.1, fun j hj => hr2.2.2.2 j (by omega) hj⟩

end
end Cest.Str
