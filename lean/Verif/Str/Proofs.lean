import Verif.Core.Arr
import Verif.Str.Run
/-
Helper lemmas about the string model: character loops, and the effect of every member function.
-/
namespace Cest.Str
open Cest
set_option linter.unusedSectionVars false
variable {V : Type} [DecidableEq V]

/-- The pointer can be read at the positions of `v`. -/
def Sees (st : SSt V) (p : Ptr V) (v : List V) : Prop :=
  (∀ k c, v[k]? = some c → p.rd k st = .ok c st) ∧ ∃ n, p.avail st = .ok n st ∧ v.length ≤ n

def Ptr.blk : Ptr V → Option Nat
  | .ext _ _ => none
  | .cell p _ => p

theorem load_congr {s s' : SSt V} {a i : Nat} (h : s'.mem a = s.mem a) {c : V}
    (hl : load (some a) i s = .ok c s) : load (some a) i s' = .ok c s' := by
  cases hm : s.mem a with
  | none => simp [load, withSlot, getC, hm] at hl
  | some b =>
    by_cases hi : i < b.len
    · cases hs : b.slot i with
      | none => simp [load, withSlot, getC, hm, hi, hs] at hl
      | some d =>
        have : d = c := by simpa [load, withSlot, getC, hm, hi, hs] using hl
        subst this
        exact load_ok (by rw [h, hm]) hi hs
    · simp [load, withSlot, getC, hm, hi] at hl

theorem load_inv {s : SSt V} {a i : Nat} {b : Blk V} (hm : s.mem a = some b) {c : V}
    (hl : load (some a) i s = .ok c s) : i < b.len ∧ b.slot i = some c := by
  by_cases hi : i < b.len
  · cases hs : b.slot i with
    | none => simp [load, withSlot, getC, hm, hi, hs] at hl
    | some d =>
      have : d = c := by simpa [load, withSlot, getC, hm, hi, hs] using hl
      subst this
      exact ⟨hi, rfl⟩
  · simp [load, withSlot, getC, hm, hi] at hl

theorem Sees.frame {st st' : SSt V} {p : Ptr V} {v : List V} (h : Sees st p v)
    (hm : ∀ a, p.blk = some a → st'.mem a = st.mem a) : Sees st' p v := by
  obtain ⟨h1, n, h2, h3⟩ := h
  cases p with
  | ext a off =>
    refine ⟨?_, n, ?_, h3⟩
    · intro k c hk
      have := h1 k c hk
      cases ha : a[off+k]? with
      | none => simp [Ptr.rd, ha] at this
      | some d => simp [Ptr.rd, ha] at this ⊢; exact this
    · simpa [Ptr.avail] using h2
  | cell q off =>
    cases q with
    | none => simp [Ptr.avail] at h2
    | some a =>
      have e := hm a rfl
      refine ⟨?_, n, ?_, h3⟩
      · intro k c hk
        exact load_congr e (h1 k c hk)
      · cases hb : st.mem a with
        | none => simp [Ptr.avail, getC, hb] at h2
        | some b =>
          simp [Ptr.avail, getC, hb, e] at h2 ⊢
          exact h2

theorem Sees.alloc {st : SSt V} {p : Ptr V} {v : List V} (h : Sees st p v) {a : Nat}
    (hp : p.blk = some a) : st.mem a ≠ none := by
  obtain ⟨_, n, h2, _⟩ := h
  cases p with
  | ext a off => simp [Ptr.blk] at hp
  | cell q off =>
    simp [Ptr.blk] at hp
    subst hp
    intro hc
    simp [Ptr.avail, getC, hc] at h2

theorem Sees.ext (st : SSt V) (a : List V) (off : Nat) : Sees st (.ext a off) (a.drop off) := by
  refine ⟨?_, a.length - off, rfl, by simp⟩
  intro k c hk
  rw [List.getElem?_drop] at hk
  simp [Ptr.rd, hk]

theorem Sees.cell {st : SSt V} {a N : Nat} {buf : List V} (h : st.mem a = some (arr N buf))
    (hN : buf.length ≤ N) (off : Nat) : Sees st (.cell (some a) off) (buf.drop off) := by
  refine ⟨?_, N - off, ?_, by simp; omega⟩
  · intro k c hk
    rw [List.getElem?_drop] at hk
    exact load_arr h hN hk
  · simp [Ptr.avail, h]

theorem Sees.cell0 {st : SSt V} {a N : Nat} {buf : List V} (h : st.mem a = some (arr N buf))
    (hN : buf.length ≤ N) : Sees st (.cell (some a) 0) buf := by
  simpa using Sees.cell h hN 0

theorem Sees.take {st : SSt V} {p : Ptr V} {v : List V} (h : Sees st p v) (n : Nat) :
    Sees st p (v.take n) := by
  obtain ⟨h1, m, h2, h3⟩ := h
  refine ⟨?_, m, h2, by simp; omega⟩
  intro k c hk
  apply h1
  grind

theorem Sees.shift {st : SSt V} {a off k : Nat} {v : List V}
    (h : Sees st (.cell (some a) off) v) : Sees st (.cell (some a) (off + k)) (v.drop k) := by
  obtain ⟨h1, n, h2, h3⟩ := h
  have hne : st.mem a ≠ none := by
    intro hc; simp [Ptr.avail, getC, hc] at h2
  cases hb : st.mem a with
  | none => exact absurd hb hne
  | some b =>
    simp [Ptr.avail, getC, hb] at h2
    refine ⟨?_, b.len - (off + k), by simp [Ptr.avail, getC, hb], by simp; omega⟩
    intro j c hj
    rw [List.getElem?_drop] at hj
    have := h1 _ _ hj
    simp only [Ptr.rd] at this ⊢
    rwa [Nat.add_assoc]

/-! ### Character primitives -/

theorem putc_ok {s : SSt V} {a i : Nat} {b : Blk V} {v w : V}
    (h : s.mem a = some b) (hi : i < b.len) (hd : b.slot i = some w) : putc (some a) i v s =
      .ok () { s with mem := upd s.mem a (some { b with slot := upd b.slot i (some v) }) } := by
  simp [putc, withSlot, h, hi, hd]

theorem newc_ok {t : Traits V} {s : SSt V} {a i : Nat} {b : Blk V}
    (h : s.mem a = some b) (hi : i < b.len) : newc t (some a) i s =
      .ok () { s with mem := upd s.mem a (some { b with slot := upd b.slot i (some t.nul) }) } := by
  simp [newc, withSlot, h, hi]

theorem putc_arr {s : SSt V} {a n i : Nat} {xs : List V} {v : V}
    (h : s.mem a = some (arr n xs)) (hi : i < xs.length) (hn : xs.length ≤ n) :
    putc (some a) i v s = .ok () { s with mem := upd s.mem a (some (arr n (xs.set i v))) } := by
  have h1 : (arr n xs).slot i = some (xs[i]) := by simp [hi]
  rw [putc_ok h (by simp; omega) h1, arr_set _ _ _ _ hi]

theorem newc_arr {t : Traits V} {s : SSt V} {a n i : Nat} {xs : List V}
    (h : s.mem a = some (arr n xs)) (hi : i = xs.length) (hn : xs.length < n) :
    newc t (some a) i s = .ok () { s with mem := upd s.mem a (some (arr n (xs ++ [t.nul]))) } := by
  subst hi
  rw [newc_ok h (by simpa using hn), arr_push]

theorem newc_loop {t : Traits V} {s : SSt V} {q n i m : Nat} {ys : List V}
    (hq : s.mem q = some (arr n ys)) (hi : i = ys.length) (hn : i + m ≤ n) :
    forN (newc t (some q)) i m s =
      .ok () { s with mem := upd s.mem q (some (arr n (ys ++ List.replicate m t.nul))) } := by
  induction m generalizing i s ys with
  | zero => simp [forN]; rw [St.mem_self hq]
  | succ m ih =>
    unfold forN
    have h2 := newc_arr (t := t) hq hi (by omega)
    simp only [M.bind_apply, h2]
    rw [ih (s := { s with mem := upd s.mem q (some (arr n (ys ++ [t.nul]))) }) (ys := ys ++ [t.nul])
      (by simp) (by simp [hi]) (by omega)]
    simp only [upd_upd]
    simp [List.replicate_succ]

theorem allocInit_ok {t : Traits V} {s : SSt V} (n : Nat) (ht : s.thr = none) :
    allocInit t n s = .ok s.next
      { s with mem := upd s.mem s.next (some (arr n (List.replicate n t.nul))),
               next := s.next + 1 } := by
  have h1 : (⟨n, fun _ => none⟩ : Blk V) = arr n [] := by
    refine Blk.ext' rfl ?_; intro i; simp
  simp only [allocInit, allocArr, M.bind_apply, allocC_none ht, h1]
  rw [newc_loop (ys := []) (i := 0) (n := n) (by simp) rfl (by omega)]
  simp [upd_upd]

theorem freeChars_ok {s : SSt V} {a n : Nat} {xs : List V} (h : s.mem a = some (arr n xs)) :
    freeChars (some a) n s = .ok () { s with mem := upd s.mem a none } := by
  simp [freeChars, h]

/-- Partially copied buffer. -/
def mix (ys v : List V) (i k : Nat) : List V := ys.take i ++ v.take k ++ ys.drop (i + k)

omit [DecidableEq V] in
theorem mix_zero (ys v : List V) (i : Nat) : mix ys v i 0 = ys := by simp [mix]

omit [DecidableEq V] in
theorem mix_length (ys v : List V) (i k : Nat) (h : i + k ≤ ys.length) (hk : k ≤ v.length) :
    (mix ys v i k).length = ys.length := by simp [mix]; omega

omit [DecidableEq V] in
theorem mix_get (ys v : List V) (i k j : Nat) (h : i + k ≤ ys.length) (hk : k ≤ v.length) :
    (mix ys v i k)[j]? = if i ≤ j ∧ j < i + k then v[j - i]? else ys[j]? := by
  have l1 : (ys.take i).length = i := by simp; omega
  have l2 : (v.take k).length = k := by simp; omega
  by_cases h1 : j < i
  · rw [if_neg (by omega), mix, List.append_assoc, List.getElem?_append_left (by omega),
      List.getElem?_take, if_pos h1]
  · by_cases h2 : j < i + k
    · rw [if_pos (by omega), mix, List.append_assoc, List.getElem?_append_right (by omega),
        List.getElem?_append_left (by omega), List.getElem?_take, l1, if_pos (by omega)]
    · rw [if_neg (by omega), mix, List.getElem?_append_right (by simp; omega), List.getElem?_drop]
      congr 1
      simp; omega

theorem copyLoop {s : SSt V} {p : Ptr V} {v ys : List V} {q N i n : Nat}
    (hp : Sees s p v) (hn : n ≤ v.length) (hq : s.mem q = some (arr N ys)) (hN : ys.length ≤ N)
    (hi : i + n ≤ ys.length) (hov : ∀ off, p = .cell (some q) off → off + n ≤ i ∨ i + n ≤ off)
    (m k : Nat) (hk : k + m = n) :
    forN (fun k => do let c ← p.rd k; putc (some q) (i + k) c) k m
        { s with mem := upd s.mem q (some (arr N (mix ys v i k))) } =
      .ok () { s with mem := upd s.mem q (some (arr N (mix ys v i (k + m)))) } := by
  induction m generalizing k with
  | zero => rfl
  | succ m ih =>
    unfold forN
    have hv : v[k]? = some v[k] := by simp
    have hlen := mix_length ys v i k (by omega) (by omega)
    have h1 : p.rd k { s with mem := upd s.mem q (some (arr N (mix ys v i k))) } =
        .ok v[k] { s with mem := upd s.mem q (some (arr N (mix ys v i k))) } := by
      by_cases hb : p.blk = some q
      · cases p with
        | ext a off => simp [Ptr.blk] at hb
        | cell r off =>
          simp [Ptr.blk] at hb
          subst hb
          have := load_inv hq (hp.1 k _ hv)
          simp at this
          have hh := hov off rfl
          simp only [Ptr.rd]
          refine load_arr (n := N) (xs := mix ys v i k) (by simp) (by omega) ?_
          rw [mix_get _ _ _ _ _ (by omega) (by omega)]
          rw [if_neg (by omega)]
          exact this.2
      · have := hp.frame (st' := { s with mem := upd s.mem q (some (arr N (mix ys v i k))) }) (by
          intro a ha
          have : a ≠ q := by intro h; subst h; exact hb ha
          simp [this])
        exact this.1 k _ hv
    have h2 := putc_arr (s := { s with mem := upd s.mem q (some (arr N (mix ys v i k))) })
      (a := q) (n := N) (i := i + k) (xs := mix ys v i k) (v := v[k]) (by simp) (by omega) (by omega)
    simp only [M.bind_apply, h1, h2, upd_upd]
    have h3 : (mix ys v i k).set (i+k) v[k] = mix ys v i (k+1) := by
      apply List.ext_getElem?
      intro j
      rw [List.getElem?_set, mix_get _ _ _ _ _ (by omega) (by omega),
        mix_get _ _ _ _ _ (by omega) (by omega)]
      by_cases hj : i + k = j
      · subst hj
        rw [if_pos rfl, if_pos (by omega), if_pos (by omega)]
        simp
      · rw [if_neg hj]
        by_cases hj2 : i ≤ j ∧ j < i + k
        · rw [if_pos hj2, if_pos (by omega)]
        · rw [if_neg hj2, if_neg (by omega)]
    rw [h3, ih (k+1) (by omega)]
    congr 6; omega

theorem copyChars_ok {t : Traits V} {s : SSt V} {p : Ptr V} {v ys : List V} {q N i n : Nat}
    (hp : Sees s p v) (hn : n ≤ v.length) (hq : s.mem q = some (arr N ys)) (hN : ys.length ≤ N)
    (hi : i + n ≤ ys.length) (hov : ∀ off, p = .cell (some q) off → off + n ≤ i ∨ i + n ≤ off) :
    copyChars t (some q) i p n s =
      .ok () { s with mem := upd s.mem q (some (arr N (mix ys v i n))) } := by
  have h1 : overlaps (some q) i p n = false := by
    cases p with
    | ext a off => rfl
    | cell r off =>
      simp only [overlaps]
      by_cases h : some q = r
      · subst h
        have := hov off rfl
        simp; omega
      · simp [h]
  have h2 := copyLoop hp hn hq hN hi hov n 0 (by omega)
  rw [mix_zero, St.mem_self hq, Nat.zero_add] at h2
  simp only [copyChars, h1, Bool.false_and]
  exact h2

/-! ### Character loops that only read -/

omit [DecidableEq V] in
theorem takeWhile_length_lt {P : V → Bool} {v : List V} (h : ∃ a ∈ v, P a = false) :
    (v.takeWhile P).length < v.length := by
  induction v with
  | nil => simp at h
  | cons a v ih =>
    rw [List.takeWhile_cons]
    cases hp : P a with
    | false => simp
    | true =>
      simp
      apply ih
      obtain ⟨b, hb, hq⟩ := h
      rcases List.mem_cons.1 hb with h | h
      · subst h; rw [hp] at hq; exact absurd hq (by simp)
      · exact ⟨b, h, hq⟩

theorem scan_ok {t : Traits V} {s : SSt V} {p : Ptr V} {v : List V} (hp : Sees s p v)
    (k m : Nat) (hm : v.length ≤ k + m) (hk : t.nul ∈ v.drop k) :
    scan t p k m s = .ok (k + ((v.drop k).takeWhile (· ≠ t.nul)).length) s := by
  induction m generalizing k with
  | zero =>
    exfalso
    rw [List.drop_of_length_le (by omega)] at hk
    simp at hk
  | succ m ih =>
    have hlt : k < v.length := by
      apply Classical.byContradiction
      intro h
      rw [List.drop_of_length_le (by omega)] at hk
      simp at hk
    have e : v.drop k = v[k] :: v.drop (k+1) := by simp
    have h1 := hp.1 k v[k] (by simp)
    simp only [scan, M.bind_apply, h1]
    rw [e, List.takeWhile_cons]
    by_cases hc : v[k] = t.nul
    · simp [hc]
    · rw [e] at hk
      have hk' : t.nul ∈ v.drop (k+1) := by
        rcases List.mem_cons.1 hk with h | h
        · exact absurd h.symm hc
        · exact h
      rw [if_neg hc, ih (k+1) (by omega) hk']
      simp [hc]
      omega

theorem length_ok {t : Traits V} {s : SSt V} {p : Ptr V} {v : List V} (hp : Sees s p v)
    (hk : t.nul ∈ v) : length t p s = .ok (v.takeWhile (· ≠ t.nul)).length s := by
  obtain ⟨n, h1, h2⟩ := hp.2
  simp only [length, M.bind_apply, h1]
  rw [scan_ok hp 0 n (by omega) (by simpa using hk)]
  simp

/-- The characters of a C string are read at its positions. -/
theorem take_cstr (nul : V) (v : List V) :
    v.take (v.takeWhile (· ≠ nul)).length = v.takeWhile (· ≠ nul) := by
  induction v with
  | nil => rfl
  | cons a v ih =>
    rw [List.takeWhile_cons]
    by_cases h : a = nul <;> simp [h]
    simpa using ih

theorem get_cstr_end (nul : V) (v : List V) (h : nul ∈ v) :
    v[(v.takeWhile (· ≠ nul)).length]? = some nul := by
  induction v with
  | nil => simp at h
  | cons a v ih =>
    rw [List.takeWhile_cons]
    by_cases hc : a = nul
    · simp [hc]
    · have : nul ∈ v := by
        rcases List.mem_cons.1 h with h | h
        · exact absurd h.symm hc
        · exact h
      simpa [hc] using ih this

/-- Comparison of two character sequences of the same length. -/
def cmpL (lt : V → V → Bool) : List V → List V → Int
  | a :: as, b :: bs => if lt a b then -1 else if lt b a then 1 else cmpL lt as bs
  | _, _ => 0

theorem cmpChars_ok {t : Traits V} {s : SSt V} {p q : Ptr V} {v w : List V} (hp : Sees s p v)
    (hq : Sees s q w) (n k : Nat) (hv : k + n ≤ v.length) (hw : k + n ≤ w.length) :
    cmpChars t p q k n s = .ok (cmpL t.lt ((v.drop k).take n) ((w.drop k).take n)) s := by
  induction n generalizing k with
  | zero => simp [cmpChars, cmpL]
  | succ n ih =>
    have e1 : v.drop k = v[k] :: v.drop (k+1) := by simp
    have e2 : w.drop k = w[k] :: w.drop (k+1) := by simp
    have h1 := hp.1 k v[k] (by simp)
    have h2 := hq.1 k w[k] (by simp)
    simp only [cmpChars, M.bind_apply, h1, h2, e1, e2, List.take_succ_cons, cmpL]
    rcases Bool.eq_false_or_eq_true (t.lt v[k] w[k]) with h | h
    · simp [h]
    · rcases Bool.eq_false_or_eq_true (t.lt w[k] v[k]) with h' | h'
      · simp [h, h']
      · simp only [h, h']
        exact ih (k+1) (by omega) (by omega)

/-- First position of `c` among `v[k..k+n)`. -/
theorem findChar_ok {s : SSt V} {p : Ptr V} {v : List V} (hp : Sees s p v) (c : V) (n k : Nat)
    (hv : k + n ≤ v.length) :
    ∃ r, findChar p c k n s = .ok r s ∧
      match r with
      | none => ∀ j, k ≤ j → j < k + n → v[j]? ≠ some c
      | some f => k ≤ f ∧ f < k + n ∧ v[f]? = some c ∧ ∀ j, k ≤ j → j < f → v[j]? ≠ some c := by
  induction n generalizing k with
  | zero => exact ⟨none, rfl, by intro j h1 h2; omega⟩
  | succ n ih =>
    have hv0 : v[k]? = some v[k] := by simp
    have h1 := hp.1 k v[k] hv0
    by_cases hc : v[k] = c
    · refine ⟨some k, ?_, Nat.le_refl _, by omega, by rw [hv0, hc], by intro j h1 h2; omega⟩
      simp [findChar, h1, hc]
    · obtain ⟨r, hr, hr2⟩ := ih (k+1) (by omega)
      refine ⟨r, ?_, ?_⟩
      · simp only [findChar, M.bind_apply, h1, if_neg hc]; exact hr
      · cases r with
        | none =>
          intro j h1 h2
          by_cases hj : j = k
          · subst hj; rw [hv0]; simpa using hc
          · exact hr2 j (by omega) (by omega)
        | some f =>
          obtain ⟨a, b, c', d⟩ := hr2
          refine ⟨by omega, by omega, c', ?_⟩
          intro j h1 h2
          by_cases hj : j = k
          · subst hj; rw [hv0]; simpa using hc
          · exact d j (by omega) h2

end Cest.Str
