import Verif.Str.Refine
/-
Lemmas about copies of strings with embedded terminators, self-assignment, `push_back` of the string's
own characters and failing allocations (used by Str/Props.lean).
-/
namespace Cest.Str
open Cest
set_option linter.unusedSectionVars false
variable {V : Type} [DecidableEq V] {t : Traits V} {st : SSt V} {σ : Nat → Option (SV V)}

theorem SV.cstr_gen {s : SV V} (hs : s.Ok t) :
    t.nul ∈ s.buf ∧ s.buf.takeWhile (· ≠ t.nul) = s.val.takeWhile (· ≠ t.nul) := by
  have hl := hs.lt
  have hn := hs.nul
  refine ⟨List.mem_of_getElem? hn, ?_⟩
  have e : s.buf = s.val ++ (t.nul :: s.buf.drop (s.n + 1)) := by
    simp only [SV.val]
    rw [List.getElem?_eq_getElem hl] at hn
    injection hn with hn
    rw [← hn]
    simp
  generalize s.val = w at e ⊢
  rw [e]
  clear e hn hl
  induction w with
  | nil => simp
  | cons a w ih =>
    rw [List.cons_append, List.takeWhile_cons, List.takeWhile_cons, ih]

theorem copyCtor_gen (W : SW t st σ) {x y : Nat} {s : SV V} (hx : σ x = none) (hy : σ y = some s) :
    ∃ st' s', copyCtor t x y st = .ok () st' ∧ SW t st' (upd σ x (some s')) ∧
      s'.val = s.val.takeWhile (· ≠ t.nul) := by
  obtain ⟨h1, h2⟩ := SV.cstr_gen (get_rep W hy).2.2
  obtain ⟨st', s', h3, h4, h5⟩ := ctorC_spec W hx (by simpa using sees_data W hy 0) h1
  refine ⟨st', s', ?_, h4, by rw [h5, h2]⟩
  simp only [copyCtor, M.bind_apply, data_ok W hy]
  exact h3

theorem assign_gen (W : SW t st σ) {x y : Nat} {s s2 : SV V} (hx : σ x = some s)
    (hy : σ y = some s2) (hxy : x ≠ y) :
    ∃ st' s', assign t x y st = .ok () st' ∧ SW t st' (upd σ x (some s')) ∧
      s'.val = s2.val.takeWhile (· ≠ t.nul) := by
  obtain ⟨h1, h2⟩ := SV.cstr_gen (get_rep W hy).2.2
  obtain ⟨st', s', h3, h4, h5⟩ := assignC_spec W hx (by simpa using sees_data W hy 0) h1
    (by simp only [Ptr.blk]; intro h; injection h with h; exact blk_ne W hx hy hxy h.symm)
  refine ⟨st', s', ?_, h4, by rw [h5, h2]⟩
  simp only [assign, M.bind_apply, data_ok W hy]
  exact h3

theorem findStr_gen (ht : t.Lawful) (W : SW t st σ) {x y : Nat} {s s2 : SV V} (hx : σ x = some s)
    (hy : σ y = some s2) (pos : Nat) :
    findStr t x y pos st = .ok (firstMatch s.val (s2.val.takeWhile (· ≠ t.nul)) pos) st := by
  obtain ⟨h1, h2⟩ := SV.cstr_gen (get_rep W hy).2.2
  simp only [findStr, M.bind_apply, data_ok W hy]
  rw [findC_spec ht W hx (by simpa using sees_data W hy 0) h1, h2]

/-! ### Self-assignment -/

theorem forN_first_ub {S : Type} {f : Nat → M S Unit} {n : Nat} {s : S} {u : UB} (h : f 0 s = .ub u) :
    forN f 0 (n + 1) s = .ub u := by
  simp [forN, h]

theorem assign_self_full (W : SW t st σ) {x : Nat} {s : SV V} (hx : σ x = some s) (hnul : t.nul ∉ s.val)
    (hfull : s.n + 1 = s.buf.length) : assign t x x st = .ub .dangling := by
  obtain ⟨h1, h2, h3⟩ := get_rep W hx
  obtain ⟨c1, c2⟩ := SV.cstr_of h3 hnul
  have hl := SV.val_length h3
  have hbl := blk_lt W hx
  have hne : s.blk ≠ st.next := by omega
  have hlen := length_ok (Sees.cell0 h2 (Nat.le_refl _)) c1
  rw [c2, hl] at hlen
  simp only [assign, M.bind_apply, data_ok W hx, assignC, hlen, getObj_some h1, SV.obj]
  rw [if_pos (by omega)]
  simp only [M.bind_apply]
  rw [freeChars_ok (n := s.buf.length - 1 + 1) (xs := s.buf) (by
    rw [h2]; congr 2; omega)]
  simp only []
  rw [setObj_some (o := s.obj) (by exact h1)]
  simp only []
  rw [allocInit_ok _ (by exact W.thr)]
  simp only []
  rw [setObj_some (o := { size := s.n, cap := s.n + 1, p := some s.blk }) (by simp)]
  simp only []
  rw [getObj_some (o := { size := s.n, cap := s.n + 1, p := some st.next }) (by simp)]
  simp only [copyChars]
  have ho : overlaps (some st.next) 0 (Ptr.cell (V := V) (some s.blk) 0) (s.n + 1) = false := by
    simp [overlaps, Ne.symm hne]
  rw [ho]
  simp only [Bool.false_and, Bool.false_eq_true, if_false]
  rw [forN_first_ub (u := .dangling) (by
    simp [Ptr.rd, load, withSlot, getC, hne])]

theorem assign_self_overlap (W : SW t st σ) {x : Nat} {s : SV V} (hx : σ x = some s)
    (hnul : t.nul ∉ s.val) (hfull : s.n + 1 < s.buf.length) (hc : t.copySame = false) :
    assign t x x st = .ub .overlap := by
  obtain ⟨h1, h2, h3⟩ := get_rep W hx
  obtain ⟨c1, c2⟩ := SV.cstr_of h3 hnul
  have hl := SV.val_length h3
  have hlen := length_ok (Sees.cell0 h2 (Nat.le_refl _)) c1
  rw [c2, hl] at hlen
  simp only [assign, M.bind_apply, data_ok W hx, assignC, hlen, getObj_some h1, SV.obj]
  rw [if_neg (by omega)]
  simp only [M.bind_apply]
  rw [getObj_some (o := s.obj) (by exact h1)]
  simp [copyChars, overlaps, hc, SV.obj]

theorem putc_same {s : SSt V} {a n i : Nat} {xs : List V} {c : V}
    (h : s.mem a = some (arr n xs)) (hi : xs[i]? = some c) (hn : xs.length ≤ n) :
    putc (some a) i c s = .ok () s := by
  have hlt : i < xs.length := by
    apply Classical.byContradiction
    intro hc
    rw [List.getElem?_eq_none (by omega)] at hi
    simp at hi
  rw [putc_arr h hlt hn]
  have e : xs.set i c = xs := by
    apply List.ext_getElem?
    intro j
    rw [List.getElem?_set]
    split
    · next hj => subst hj; rw [hi]
    · rfl
  rw [e, St.mem_self h]

theorem selfCopy {s : SSt V} {a N : Nat} {xs : List V} (h : s.mem a = some (arr N xs))
    (hn : xs.length ≤ N) (m k : Nat) (hm : k + m ≤ xs.length) :
    forN (fun k => do
      let c ← (Ptr.cell (V := V) (some a) 0).rd k
      putc (some a) (0 + k) c) k m s = .ok () s := by
  induction m generalizing k with
  | zero => rfl
  | succ m ih =>
    have hk : xs[k]? = some xs[k] := by simp
    have hrd := (Sees.cell0 h hn).1 k _ hk
    unfold forN
    simp only [M.bind_apply, hrd, Nat.zero_add]
    rw [putc_same h hk hn]
    have := ih (k + 1) (by omega)
    simpa using this

theorem assign_self_same (W : SW t st σ) {x : Nat} {s : SV V} (hx : σ x = some s)
    (hnul : t.nul ∉ s.val) (hfull : s.n + 1 < s.buf.length) (hc : t.copySame = true) :
    assign t x x st = .ok () st := by
  obtain ⟨h1, h2, h3⟩ := get_rep W hx
  obtain ⟨c1, c2⟩ := SV.cstr_of h3 hnul
  have hl := SV.val_length h3
  have hlen := length_ok (Sees.cell0 h2 (Nat.le_refl _)) c1
  rw [c2, hl] at hlen
  simp only [assign, M.bind_apply, data_ok W hx, assignC, hlen, getObj_some h1, SV.obj]
  rw [if_neg (by omega)]
  simp only [M.bind_apply]
  rw [getObj_some (o := ⟨s.n, s.buf.length - 1, some s.blk⟩) (by exact h1)]
  have ho : (overlaps (some s.blk) 0 (Ptr.cell (V := V) (some s.blk) 0) (s.n + 1) &&
      !(t.copySame && sameRange (some s.blk) 0 (Ptr.cell (V := V) (some s.blk) 0))) = false := by
    simp [sameRange, hc]
  simp only [copyChars]
  rw [if_neg (by rw [ho]; simp)]
  rw [selfCopy h2 (Nat.le_refl _) _ _ (by omega)]
  simp only []
  rw [setObj_some (o := s.obj) (by exact h1)]
  have : upd st.objs x (some (⟨s.n, s.buf.length - 1, some s.blk⟩ : Obj)) = st.objs :=
    upd_eq_self h1
  simp only [this]

/-! ### push_back of the string's own characters -/

theorem pushBack_own_full (W : SW t st σ) {x i : Nat} {s : SV V} (hx : σ x = some s)
    (hfull : s.n + 1 = s.buf.length) :
    pushBack t x (.cell (some s.blk) i) st = .ub .dangling := by
  obtain ⟨h1, h2, h3⟩ := get_rep W hx
  have hbl := blk_lt W hx
  have htwo := h3.two
  have hne : s.blk ≠ st.next := by omega
  obtain ⟨st1, hr⟩ : ∃ st1 o, reserve t x ((s.buf.length - 1) * 2) st = .ok () st1 ∧
      st1.objs x = some o ∧ st1.mem s.blk = none := by
    simp only [reserve, M.bind_apply, getObj_some h1, SV.obj]
    rw [if_pos (by omega)]
    simp only [M.bind_apply]
    rw [allocInit_ok _ W.thr]
    simp only []
    rw [copyChars_ok (v := s.buf) (N := (s.buf.length - 1) * 2 + 1)
      (ys := List.replicate ((s.buf.length - 1) * 2 + 1) t.nul)
      ((Sees.cell0 h2 (Nat.le_refl _)).frame (by
        intro a ha
        simp [Ptr.blk] at ha
        subst ha
        simp [hne])) (by omega) (by simp) (by simp) (by simp; omega)
      (by intro off h; injection h with h; simp at h; exact absurd h hne)]
    simp only []
    rw [freeChars_ok (n := s.buf.length - 1 + 1) (xs := s.buf) (by
      simp [hne]; rw [h2]; congr 2; omega)]
    simp only []
    rw [setObj_some (o := s.obj) (by exact h1)]
    exact ⟨_, _, rfl, by simp; rfl, by simp⟩
  obtain ⟨o, hr1, hr2, hr3⟩ := hr
  simp only [pushBack, M.bind_apply, getObj_some h1, SV.obj]
  rw [if_pos (by omega)]
  simp only [M.bind_apply, hr1, getObj_some hr2]
  simp [Ptr.rd, load, withSlot, getC, hr3]

/-! ### Failing allocations -/

/-- The machine state with the throw countdown set. -/
def arm (st : SSt V) (k : Option Nat) : SSt V := ⟨st.objs, st.mem, st.next, k⟩

theorem arm_none (h : st.thr = none) : arm st none = st := by
  cases st; simp_all [arm]

theorem allocInit_throw {s : SSt V} (n : Nat) (h : s.thr = some 0) :
    allocInit t n s = .throw .badAlloc ⟨s.objs, s.mem, s.next, none⟩ := by
  simp [allocInit, allocArr, allocC, tick, h]

theorem ctorPC_throw (W : SW t st σ) {x : Nat} (hx : σ x = none) (p : Ptr V) (n : Nat) :
    ctorPC t x p n (arm st (some 0)) = .throw .badAlloc st := by
  have h0 := W.dom x hx
  simp only [ctorPC, M.bind_apply]
  rw [newObj_none (by exact h0)]
  simp only [M.onThrow, M.bind_apply]
  rw [allocInit_throw _ (by rfl)]
  simp only []
  rw [delObj_some (o := ⟨0, 0, none⟩) (by simp [arm])]
  simp only [arm, upd_upd]
  rw [upd_eq_self h0]
  have := W.thr
  cases st; simp_all

theorem reserve_throw (W : SW t st σ) {x : Nat} {s : SV V} (hx : σ x = some s) {n : Nat}
    (hn : s.buf.length - 1 < n) : reserve t x n (arm st (some 0)) = .throw .badAlloc st := by
  obtain ⟨h1, h2, h3⟩ := get_rep W hx
  simp only [reserve, M.bind_apply]
  rw [getObj_some (o := ⟨s.n, s.buf.length - 1, some s.blk⟩) (by exact h1)]
  simp only []
  rw [if_pos hn]
  simp only [M.bind_apply]
  rw [allocInit_throw _ (by rfl)]
  have := W.thr
  cases st; simp_all [arm]

theorem pushBack_throw (W : SW t st σ) {x : Nat} {s : SV V} (hx : σ x = some s) (r : Ptr V)
    (hfull : s.n + 1 = s.buf.length) : pushBack t x r (arm st (some 0)) = .throw .badAlloc st := by
  obtain ⟨h1, h2, h3⟩ := get_rep W hx
  have htwo := h3.two
  simp only [pushBack, M.bind_apply]
  rw [getObj_some (o := ⟨s.n, s.buf.length - 1, some s.blk⟩) (by exact h1)]
  simp only []
  rw [if_pos (by omega)]
  simp only [M.bind_apply]
  rw [reserve_throw W hx (by omega)]

theorem append_throw (W : SW t st σ) {x : Nat} {s : SV V} (hx : σ x = some s) (p : Ptr V) {n : Nat}
    (hfull : s.buf.length ≤ n + s.n) : append t x p n (arm st (some 0)) = .throw .badAlloc st := by
  obtain ⟨h1, h2, h3⟩ := get_rep W hx
  have htwo := h3.two
  simp only [append, M.bind_apply]
  rw [getObj_some (o := ⟨s.n, s.buf.length - 1, some s.blk⟩) (by exact h1)]
  simp only []
  rw [if_neg (by omega)]
  simp only [M.bind_apply]
  rw [allocInit_throw _ (by rfl)]
  have := W.thr
  cases st; simp_all [arm]

theorem assignC_throw (W : SW t st σ) {x : Nat} {s : SV V} (hx : σ x = some s) {a : List V}
    (hn : t.nul ∈ a) (hc : s.buf.length ≤ (a.takeWhile (· ≠ t.nul)).length + 1) :
    ∃ st', assignC t x (.ext a 0) (arm st (some 0)) = .throw .badAlloc st' ∧
      dtor x st' = .ub .badFree := by
  obtain ⟨h1, h2, h3⟩ := get_rep W hx
  have htwo := h3.two
  have hlen := length_ok (t := t) (s := arm st (some 0)) (by simpa using Sees.ext (arm st (some 0)) a 0) hn
  generalize (a.takeWhile (· ≠ t.nul)).length = m at hc hlen
  refine ⟨⟨upd st.objs x (some ⟨s.n, m + 1, some s.blk⟩), upd st.mem s.blk none, st.next, none⟩, ?_, ?_⟩
  · simp only [assignC, M.bind_apply, hlen]
    rw [getObj_some (o := ⟨s.n, s.buf.length - 1, some s.blk⟩) (by exact h1)]
    simp only []
    rw [if_pos (by omega)]
    simp only [M.bind_apply]
    rw [freeChars_ok (n := s.buf.length - 1 + 1) (xs := s.buf) (by
      show st.mem s.blk = _
      rw [h2]; congr 2; omega)]
    simp only []
    rw [setObj_some (o := s.obj) (by exact h1)]
    simp only []
    rw [allocInit_throw _ (by rfl)]
    rfl
  · simp only [dtor, M.bind_apply]
    rw [getObj_some (o := ⟨s.n, m + 1, some s.blk⟩) (by simp)]
    simp [freeChars]

theorem allocInit_tick {s : SSt V} (n : Nat) {k : Nat} (ht : s.thr = some (k + 1)) :
    allocInit t n s = .ok s.next
      ⟨s.objs, upd s.mem s.next (some (arr n (List.replicate n t.nul))), s.next + 1, some k⟩ := by
  have h1 : (⟨n, fun _ => none⟩ : Blk V) = arr n [] := by
    refine Blk.ext' rfl ?_; intro i; simp
  simp only [allocInit, allocArr, M.bind_apply, allocC, tick, ht, h1]
  rw [newc_loop (n := n) (i := 0) (ys := []) (by simp) rfl (by omega)]
  simp [upd_upd]

theorem ctorInput_throw (W : SW t st σ) {x : Nat} (hx : σ x = none) (a b c : V) (cs : List V) :
    ctorInput t x (a :: b :: c :: cs) (arm st (some 1)) = .throw .badAlloc
      ⟨st.objs, upd st.mem st.next (some (arr 3 [a, b, t.nul])), st.next + 1, none⟩ := by
  have h0 := W.dom x hx
  simp only [ctorInput, M.bind_apply]
  rw [newObj_none (by exact h0)]
  simp only [M.onThrow, M.bind_apply]
  rw [getObj_some (o := ⟨0, 0, none⟩) (by simp [arm])]
  simp only [inputLoop1, Nat.lt_irrefl, if_false, M.pure_apply]
  simp only [inputLoop2, M.bind_apply, if_true]
  rw [allocInit_tick _ (k := 0) (by rfl)]
  simp only []
  rw [getObj_some (o := ⟨0, 0, none⟩) (by simp)]
  simp only []
  rw [copyChars_none]
  simp only [freeChars_none]
  rw [setObj_some (o := ⟨0, 0, none⟩) (by simp)]
  simp only [M.pure_apply]
  rw [getObj_some (o := ⟨0, (0+1)*2, some (arm st (some 1)).next⟩) (by simp)]
  simp only []
  rw [putc_arr (n := 3) (xs := [t.nul, t.nul, t.nul]) (by simp [List.replicate]) (by simp) (by simp)]
  simp only [upd_upd]
  rw [if_neg (by omega)]
  simp only [M.bind_apply, M.pure_apply]
  rw [getObj_some (o := ⟨0, (0+1)*2, some (arm st (some 1)).next⟩) (by simp)]
  simp only []
  rw [putc_arr (n := 3) (xs := [a, t.nul, t.nul]) (by simp) (by simp) (by simp)]
  simp only [upd_upd]
  rw [if_pos trivial]
  simp only [M.bind_apply]
  rw [allocInit_throw _ (by rfl)]
  simp only []
  rw [delObj_some (o := ⟨0, (0+1)*2, some (arm st (some 1)).next⟩) (by simp)]
  simp only [arm, upd_upd]
  rw [upd_eq_self h0]
  simp

end Cest.Str
