import Verif.Str.FindCost
import Verif.Str.FindCostSpec
import Verif.Str.More
/-
What searching and comparing strings costs (helper lemmas for C151).
-/
namespace Cest.Str
open Cest
set_option linter.unusedSectionVars false
variable {V : Type} [DecidableEq V]

/-! ### Without the counters -/

theorem findCharC_fst (p : Ptr V) (c : V) (n k : Nat) :
    (do let r ← findCharC p c k n; pure r.1 : SM V (Option Nat)) = findChar p c k n := by
  induction n generalizing k with
  | zero => rfl
  | succ n ih =>
    funext s
    simp only [findCharC, findChar, M.bind_apply]
    cases h : p.rd k s with
    | ok a s' =>
      by_cases ha : a = c
      · simp only [ha, if_true, M.pure_apply]
      · simp only [ha, if_false, M.bind_apply]
        rw [← congrFun (ih (k+1)) s']
        simp only [M.bind_apply]
        cases findCharC p c (k+1) n s' <;> rfl
    | throw e s' => rfl
    | ub u => rfl
    | timeout => rfl

theorem cmpCharsC_fst (t : Traits V) (p q : Ptr V) (n k : Nat) :
    (do let r ← cmpCharsC t p q k n; pure r.1 : SM V Int) = cmpChars t p q k n := by
  induction n generalizing k with
  | zero => rfl
  | succ n ih =>
    funext s
    simp only [cmpCharsC, cmpChars, M.bind_apply]
    cases h : p.rd k s with
    | ok a s' =>
      simp only []
      cases h' : q.rd k s' with
      | ok b s2 =>
        simp only []
        by_cases h1 : t.lt a b = true
        · simp only [if_pos h1, M.pure_apply]
        · by_cases h2 : t.lt b a = true
          · simp only [if_neg h1, if_pos h2, M.pure_apply]
          · simp only [if_neg h1, if_neg h2, M.bind_apply]
            rw [← congrFun (ih (k+1)) s2]
            simp only [M.bind_apply]
            cases cmpCharsC t p q (k+1) n s2 <;> rfl
      | throw e s2 => rfl
      | ub u => rfl
      | timeout => rfl
    | throw e s' => rfl
    | ub u => rfl
    | timeout => rfl

theorem findLoopC_fst (t : Traits V) (p q : Ptr V) (c0 : V) (size count fuel first len : Nat) :
    (do let r ← findLoopC t p q c0 size count fuel first len; pure r.1 : SM V (Option Nat)) =
      findLoop t p q c0 size count fuel first len := by
  induction fuel generalizing first len with
  | zero => rfl
  | succ fuel ih =>
    funext s
    simp only [findLoopC, findLoop]
    by_cases hl : len ≥ count
    · simp only [if_pos hl, M.bind_apply]
      rw [← congrFun (findCharC_fst p c0 (len - count + 1) first) s]
      simp only [M.bind_apply]
      cases h : findCharC p c0 first (len - count + 1) s with
      | ok d s' =>
        obtain ⟨d1, d2⟩ := d
        cases d1 with
        | none => rfl
        | some f =>
          simp only [M.pure_apply, M.bind_apply]
          rw [← congrFun (cmpCharsC_fst t _ q count 0) s']
          simp only [M.bind_apply]
          cases h2 : cmpCharsC t _ q 0 count s' with
          | ok r s2 =>
            simp only [M.pure_apply]
            by_cases hr : r.1 = 0
            · simp only [if_pos hr, M.pure_apply]
            · simp only [if_neg hr, M.bind_apply]
              rw [← congrFun (ih (f+1) (size - (f+1))) s2]
              simp only [M.bind_apply]
              cases findLoopC t p q c0 size count fuel (f+1) (size - (f+1)) s2 <;> rfl
          | throw e s2 => rfl
          | ub u => rfl
          | timeout => rfl
      | throw e s' => rfl
      | ub u => rfl
      | timeout => rfl
    · simp only [if_neg hl, M.bind_apply, M.pure_apply]

theorem findPCC_fst (t : Traits V) (x : Nat) (q : Ptr V) (pos count : Nat) :
    (do let r ← findPCC t x q pos count; pure r.1 : SM V (Option Nat)) = findPC t x q pos count := by
  funext s
  simp only [findPCC, findPC, M.bind_apply]
  cases h : getObj x s with
  | ok o s' =>
    simp only []
    by_cases h0 : count = 0
    · simp only [if_pos h0, M.pure_apply]
    · simp only [if_neg h0]
      by_cases h1 : pos ≥ o.size
      · simp only [if_pos h1, M.pure_apply]
      · simp only [if_neg h1, M.bind_apply]
        cases h2 : q.rd 0 s' with
        | ok c s2 =>
          have := congrFun (findLoopC_fst t (.cell o.p 0) q c o.size count (o.size + 1) pos (o.size - pos)) s2
          simpa only [M.bind_apply] using this
        | throw e s2 => rfl
        | ub u => rfl
        | timeout => rfl
  | throw e s' => rfl
  | ub u => rfl
  | timeout => rfl

/-! ### The counts -/

theorem cmpCharsC_ok {t : Traits V} (ht : t.Lawful) {s : SSt V} {p q : Ptr V} {v w : List V} (hp : Sees s p v)
    (hq : Sees s q w) (n k : Nat) (hv : k + n ≤ v.length) (hw : k + n ≤ w.length) :
    cmpCharsC t p q k n s =
      .ok (cmpL t.lt ((v.drop k).take n) ((w.drop k).take n), min n (lcp (v.drop k) (w.drop k) + 1)) s := by
  induction n generalizing k with
  | zero => simp [cmpCharsC, cmpL]
  | succ n ih =>
    have e1 : v.drop k = v[k] :: v.drop (k+1) := by simp
    have e2 : w.drop k = w[k] :: w.drop (k+1) := by simp
    have h1 := hp.1 k v[k] (by simp)
    have h2 := hq.1 k w[k] (by simp)
    simp only [cmpCharsC, M.bind_apply, h1, h2, e1, e2, List.take_succ_cons, cmpL, lcp]
    have hir := ht.irrefl w[k]
    rcases Bool.eq_false_or_eq_true (t.lt v[k] w[k]) with h | h
    · have hne : v[k] ≠ w[k] := by intro hc; rw [hc, hir] at h; simp at h
      simp only [h, hne, if_true, if_false, M.pure_apply]
      congr 2; omega
    · rcases Bool.eq_false_or_eq_true (t.lt w[k] v[k]) with h' | h'
      · have hne : v[k] ≠ w[k] := by intro hc; rw [hc, hir] at h'; simp at h'
        simp only [h, h', hne, if_true, if_false, M.pure_apply, Bool.false_eq_true]
        congr 2; omega
      · have he := ht.total _ _ h h'
        rw [if_neg (by simp [h]), if_neg (by simp [h']), if_neg (by simp [h]), if_neg (by simp [h']), if_pos he]
        simp only [M.bind_apply, ih (k+1) (by omega) (by omega), M.pure_apply]
        congr 2; omega

theorem findCharC_ok {s : SSt V} {p : Ptr V} {v : List V} (hp : Sees s p v) (c : V) (n k : Nat)
    (hv : k + n ≤ v.length) :
    ∃ r d, findCharC p c k n s = .ok (r, d) s ∧
      match r with
      | some f => d = f + 1 - k ∧ k ≤ f ∧ f < k + n ∧ v[f]? = some c ∧ ∀ j, k ≤ j → j < f → v[j]? ≠ some c
      | none => d = n ∧ ∀ j, k ≤ j → j < k + n → v[j]? ≠ some c := by
  induction n generalizing k with
  | zero => exact ⟨none, 0, rfl, rfl, fun j h1 h2 => by omega⟩
  | succ n ih =>
    have h1 := hp.1 k v[k] (by simp)
    by_cases hc : v[k] = c
    · refine ⟨some k, 1, ?_, by omega, by omega, by omega, by simp [← hc], fun j h1 h2 => by omega⟩
      simp only [findCharC, M.bind_apply, h1, hc, if_true, M.pure_apply]
    · obtain ⟨r, d, hr, hr2⟩ := ih (k+1) (by omega)
      refine ⟨r, d + 1, ?_, ?_⟩
      · simp only [findCharC, M.bind_apply, h1, hc, if_false, hr, M.pure_apply]
      · have hk : ∀ j, k ≤ j → ¬ k + 1 ≤ j → v[j]? ≠ some c := by
          intro j a b
          have : j = k := by omega
          subst this
          rw [List.getElem?_eq_getElem (by omega)]
          simpa using hc
        cases r with
        | none =>
          refine ⟨by have := hr2.1; omega, fun j a b => ?_⟩
          by_cases h : k + 1 ≤ j
          · exact hr2.2 j h (by omega)
          · exact hk j a h
        | some f =>
          obtain ⟨b0, b1, b2, b3, b4⟩ := hr2
          refine ⟨by omega, by omega, by omega, b3, fun j a b => ?_⟩
          by_cases h : k + 1 ≤ j
          · exact b4 j h b
          · exact hk j a h

theorem sum_range'_zero {f : Nat → Nat} (n k : Nat) (h : ∀ j, k ≤ j → j < k + n → f j = 0) :
    ((List.range' k n).map f).sum = 0 := by
  induction n generalizing k with
  | zero => rfl
  | succ n ih =>
    rw [List.range'_succ, List.map_cons, List.sum_cons, h k (by omega) (by omega),
      ih (k+1) (fun j a b => h j (by omega) (by omega))]

theorem sum_range'_add {f : Nat → Nat} (a b k : Nat) :
    ((List.range' k (a + b)).map f).sum =
      ((List.range' k a).map f).sum + ((List.range' (k + a) b).map f).sum := by
  rw [← List.range'_append_1, List.map_append, List.sum_append]

theorem findLoopC_ok {t : Traits V} (ht : t.Lawful) {s : SSt V} {a : Nat} {q : Ptr V} {hay needle : List V} {c0 : V}
    (hp : Sees s (.cell (some a) 0) hay) (hq : Sees s q needle) (hc : needle[0]? = some c0)
    (fuel first : Nat) (hfi : first ≤ hay.length) (hf : hay.length - first < fuel) :
    ∃ r, (∀ f, r = some f → first ≤ f ∧ f + needle.length ≤ hay.length) ∧
      findLoopC t (.cell (some a) 0) q c0 hay.length needle.length fuel first (hay.length - first) s =
        .ok (r, tried hay.length needle.length first r,
          ((List.range' first (tried hay.length needle.length first r)).map (pairsAt hay needle)).sum) s := by
  induction fuel generalizing first with
  | zero => omega
  | succ fuel ih =>
    have hpos : 0 < needle.length := by
      apply Classical.byContradiction
      intro h
      rw [List.getElem?_eq_none (by omega)] at hc; simp at hc
    by_cases hlen : hay.length - first ≥ needle.length
    · obtain ⟨r, d, hr, hr2⟩ := findCharC_ok hp c0 (hay.length - first - needle.length + 1) first (by omega)
      cases r with
      | none =>
        obtain ⟨hd, hr2⟩ := hr2
        refine ⟨none, by simp, ?_⟩
        have e : tried hay.length needle.length first none = d := by simp only [tried]; omega
        rw [e, sum_range'_zero d first fun j h1 h2 => by
          have := hr2 j h1 (by omega)
          simp only [pairsAt, hc, if_neg this]]
        simp only [findLoopC, if_pos hlen, M.bind_apply, hr, M.pure_apply]
      | some f =>
        obtain ⟨b0, b1, b2, b3, b4⟩ := hr2
        have hsh := hp.shift (k := f)
        rw [Nat.zero_add] at hsh
        have hcmp := cmpCharsC_ok ht hsh hq needle.length 0 (by simp; omega) (by omega)
        simp only [List.drop_zero, List.take_length] at hcmp
        have hat : min needle.length (lcp (hay.drop f) needle + 1) = pairsAt hay needle f := by
          simp only [pairsAt, hc, b3, if_true]
        rw [hat] at hcmp
        have hz0 : ((List.range' first (f - first)).map (pairsAt hay needle)).sum = 0 :=
          sum_range'_zero _ _ fun j h1 h2 => by
            have := b4 j h1 (by omega)
            simp only [pairsAt, hc, if_neg this]
        have hone : ((List.range' first (f + 1 - first)).map (pairsAt hay needle)).sum = pairsAt hay needle f := by
          rw [show f + 1 - first = (f - first) + 1 by omega, sum_range'_add, hz0]
          simp [List.range'_succ, show first + (f - first) = f by omega]
        by_cases hm : cmpL t.lt ((hay.drop f).take needle.length) needle = 0
        · refine ⟨some f, ?_, ?_⟩
          · intro g hg; cases hg; omega
          · simp only [tried, hone]
            simp only [findLoopC, if_pos hlen, M.bind_apply, hr, Nat.zero_add, hcmp, hm, if_true, M.pure_apply, b0]
        · obtain ⟨r, hb, hr3⟩ := ih (f+1) (by omega) (by omega)
          refine ⟨r, fun g hg => by have := hb g hg; omega, ?_⟩
          have e : tried hay.length needle.length first r =
              (f + 1 - first) + tried hay.length needle.length (f+1) r := by
            cases r with
            | none => simp only [tried]; omega
            | some g => have := hb g rfl; simp only [tried]; omega
          rw [e, sum_range'_add, hone, show first + (f + 1 - first) = f + 1 by omega]
          simp only [findLoopC, if_pos hlen, M.bind_apply, hr, Nat.zero_add, hcmp, if_neg hm, hr3, M.pure_apply, b0]
    · refine ⟨none, by simp, ?_⟩
      have e : tried hay.length needle.length first none = 0 := by simp only [tried]; omega
      rw [e]
      simp only [findLoopC, if_neg hlen]
      rfl

section
variable {t : Traits V} {st : SSt V} {σ : Nat → Option (SV V)}

theorem findPCC_ok (ht : t.Lawful) (W : SW t st σ) {x : Nat} {s : SV V} (hx : σ x = some s)
    {p : Ptr V} {v : List V} (hp : Sees st p v) (hv : v ≠ []) (pos : Nat) :
    ∃ r, findPC t x p pos v.length st = .ok r st ∧ (∀ f, r = some f → pos ≤ f ∧ f + v.length ≤ s.val.length) ∧
      findPCC t x p pos v.length st = .ok (r, tried s.val.length v.length pos r,
        ((List.range' pos (tried s.val.length v.length pos r)).map (pairsAt s.val v)).sum) st := by
  obtain ⟨h1, _, h3⟩ := get_rep W hx
  have l1 := SV.val_length h3
  have hpos : 0 < v.length := List.length_pos_iff.2 hv
  have key : ∃ r, (∀ f, r = some f → pos ≤ f ∧ f + v.length ≤ s.val.length) ∧
      findPCC t x p pos v.length st = .ok (r, tried s.val.length v.length pos r,
        ((List.range' pos (tried s.val.length v.length pos r)).map (pairsAt s.val v)).sum) st := by
    simp only [findPCC, M.bind_apply, getObj_some h1, SV.obj, ← l1]
    rw [if_neg (by omega)]
    by_cases hge : pos ≥ s.val.length
    · refine ⟨none, by simp, ?_⟩
      have e : tried s.val.length v.length pos none = 0 := by simp only [tried]; omega
      rw [if_pos hge, e]; rfl
    · rw [if_neg hge]
      have hr0 := hp.1 0 v[0] (by simp)
      simp only [M.bind_apply, hr0]
      exact findLoopC_ok ht (sees_val W hx) hp (by simp) _ pos (by omega) (by omega)
  obtain ⟨r, hb, hr⟩ := key
  refine ⟨r, ?_, hb, hr⟩
  rw [← findPCC_fst]
  simp only [M.bind_apply, hr, M.pure_apply]

end

/-! ### Bounds -/

theorem pairsAt_le (hay needle : List V) (j : Nat) : pairsAt hay needle j ≤ needle.length := by
  simp only [pairsAt]
  split
  · exact Nat.min_le_left _ _
  · omega

theorem sum_map_le {f : Nat → Nat} {m : Nat} (h : ∀ j, f j ≤ m) (l : List Nat) : (l.map f).sum ≤ l.length * m := by
  induction l with
  | nil => simp
  | cons a l ih =>
    have := h a
    simp only [List.map_cons, List.sum_cons, List.length_cons, Nat.add_mul, Nat.one_mul]; omega

theorem sum_map_eq {f : Nat → Nat} {m : Nat} (l : List Nat) (h : ∀ j ∈ l, f j = m) :
    (l.map f).sum = l.length * m := by
  induction l with
  | nil => simp
  | cons a l ih =>
    rw [List.map_cons, List.sum_cons, h a (by simp), ih fun j hj => h j (by simp [hj])]
    simp only [List.length_cons, Nat.add_mul, Nat.one_mul]; omega

theorem lcp_rep (a b : V) (hab : a ≠ b) (k n : Nat) (hk : k ≤ n) :
    lcp (List.replicate n a) (List.replicate k a ++ [b]) = k := by
  induction k generalizing n with
  | zero =>
    cases n with
    | zero => rfl
    | succ n => simp [List.replicate_succ, lcp, hab]
  | succ k ih =>
    obtain ⟨n, rfl⟩ : ∃ n', n = n' + 1 := ⟨n - 1, by omega⟩
    simp only [List.replicate_succ, List.cons_append, lcp, if_true, ih n (by omega)]

theorem count_le (xs : List V) (c : V) (m d k : Nat) :
    ((List.range' k d).map fun j => if xs[j]? = some c then m else 0).sum ≤ m * (xs.drop k).count c := by
  induction d generalizing k with
  | zero => simp
  | succ d ih =>
    rw [List.range'_succ, List.map_cons, List.sum_cons]
    have := ih (k+1)
    by_cases hk : k < xs.length
    · rw [List.drop_eq_getElem_cons hk, List.count_cons, List.getElem?_eq_getElem hk]
      by_cases hc : xs[k] = c
      · simp only [hc, if_true, beq_self_eq_true, Nat.mul_add, Nat.mul_one]; omega
      · simp [hc]; omega
    · rw [List.getElem?_eq_none (by omega)]
      rw [List.drop_eq_nil_of_le (by omega)] at this ⊢
      simpa using this

theorem pairs_count_le (hay needle : List V) {c : V} (hc : needle[0]? = some c) (d k : Nat) :
    ((List.range' k d).map (pairsAt hay needle)).sum ≤ needle.length * hay.count c := by
  have h1 : ((List.range' k d).map (pairsAt hay needle)).sum ≤
      ((List.range' k d).map fun j => if hay[j]? = some c then needle.length else 0).sum := by
    generalize List.range' k d = l
    induction l with
    | nil => simp
    | cons j l ih =>
      simp only [List.map_cons, List.sum_cons]
      have : pairsAt hay needle j ≤ if hay[j]? = some c then needle.length else 0 := by
        simp only [pairsAt, hc]
        split
        · exact Nat.min_le_left _ _
        · omega
      omega
  refine Nat.le_trans h1 (Nat.le_trans (count_le hay c needle.length d k) (Nat.mul_le_mul_left _ ?_))
  exact List.Sublist.count_le c (List.drop_sublist k hay)

end Cest.Str
