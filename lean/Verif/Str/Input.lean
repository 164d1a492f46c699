import Verif.Str.Methods
/-
The input-iterator constructor (helper lemmas).
-/
namespace Cest.Str
open Cest
set_option linter.unusedSectionVars false
variable {V : Type} [DecidableEq V]

theorem take_succ_set (ys : List V) (n : Nat) (c : V) (h : n < ys.length) :
    (ys.set n c).take (n + 1) = ys.take n ++ [c] := by
  apply List.ext_getElem?
  intro j
  rw [List.getElem?_take, List.getElem?_set]
  have hl : (ys.take n).length = n := by simp; omega
  by_cases hj : j < n
  · rw [List.getElem?_append_left (by omega), List.getElem?_take, if_pos (by omega),
      if_neg (by omega), if_pos hj]
  · rw [List.getElem?_append_right (by omega), hl]
    by_cases hj2 : j = n
    · subst hj2
      rw [if_pos (by omega), if_pos rfl, if_pos (by omega)]
      simp
    · rw [if_neg (by omega), List.getElem?_eq_none (by simp; omega)]

theorem inputLoop2_ok {t : Traits V} {x : Nat} (cs : List V) {st : SSt V} {q cap len : Nat}
    {buf : List V} (ho : st.objs x = some ⟨0, cap, some q⟩)
    (hm : st.mem q = some (arr (cap + 1) buf)) (hb : buf.length = cap + 1) (hl : len ≤ cap)
    (hq : q < st.next) (hf : ∀ a, st.next ≤ a → st.mem a = none) (ht : st.thr = none) :
    ∃ st' q' buf', inputLoop2 t x cs len cap st = .ok (len + cs.length) st' ∧
      st'.objs = upd st.objs x (some ⟨0, buf'.length - 1, some q'⟩) ∧
      st'.mem q' = some (arr buf'.length buf') ∧
      buf'.take (len + cs.length) = buf.take len ++ cs ∧ len + cs.length < buf'.length ∧
      (q' = q ∨ st.next ≤ q' ∧ st'.mem q = none) ∧
      (∀ a, a ≠ q → a ≠ q' → st'.mem a = st.mem a) ∧ q' < st'.next ∧
      (∀ a, st'.next ≤ a → st'.mem a = none) ∧ st'.thr = none := by
  induction cs generalizing st q cap len buf with
  | nil =>
    refine ⟨st, q, buf, rfl, ?_, by rw [hm, hb], by simp, by simp; omega, Or.inl rfl,
      fun _ _ _ => rfl, hq, hf, ht⟩
    rw [hb]
    exact (upd_eq_self (by rw [ho]; rfl)).symm
  | cons c cs ih =>
    by_cases hc : len = cap
    · subst hc
      have hl1 : (mix (List.replicate ((len+1)*2+1) t.nul) buf 0 len).length = (len+1)*2+1 := by
        rw [mix_length _ _ _ _ (by simp; omega) (by omega)]; simp
      have hne : q ≠ st.next := by omega
      obtain ⟨st', q', buf', h1, h2, h3, h4, h5, h6, h7, h8, h9, h10⟩ := ih
        (st := ⟨upd st.objs x (some ⟨0, (len+1)*2, some st.next⟩),
          upd (upd st.mem st.next (some (arr ((len+1)*2+1)
            (mix (List.replicate ((len+1)*2+1) t.nul) buf 0 len)))) q none |> fun m =>
          upd m st.next (some (arr ((len+1)*2+1)
            ((mix (List.replicate ((len+1)*2+1) t.nul) buf 0 len).set len c))),
          st.next + 1, st.thr⟩)
        (q := st.next) (cap := (len+1)*2) (len := len+1)
        (buf := (mix (List.replicate ((len+1)*2+1) t.nul) buf 0 len).set len c)
        (by simp) (by simp) (by simpa using hl1) (by omega) (by simp)
        (by
          intro a ha
          simp at ha
          have e1 : a ≠ st.next := by omega
          simp [e1]
          intro _
          exact hf a (by omega)) ht
      simp at h7
      refine ⟨st', q', buf', ?_, ?_, h3, ?_, ?_, ?_, ?_, h8, h9, h10⟩
      · simp only [inputLoop2, M.bind_apply, if_true]
        rw [allocInit_ok _ ht]
        simp only []
        rw [getObj_some (o := ⟨0, len, some q⟩) (by exact ho)]
        simp only []
        rw [copyChars_ok (v := buf) (N := (len+1)*2+1) (ys := List.replicate ((len+1)*2+1) t.nul)
          (Sees.cell0 (buf := buf) (N := len + 1) (by simp [hne, hm]) (by omega)) (by omega) (by simp)
          (by simp) (by simp; omega) (fun off h => absurd (Option.some.inj (congrArg Ptr.blk h)) hne)]
        simp only []
        rw [freeChars_ok (n := len + 1) (xs := buf) (by simp [hne]; exact hm)]
        simp only []
        rw [setObj_some (o := ⟨0, len, some q⟩) (by exact ho)]
        simp only [M.pure_apply]
        rw [getObj_some (o := ⟨0, (len+1)*2, some st.next⟩) (by simp)]
        simp only []
        rw [putc_arr (n := (len+1)*2+1) (xs := mix (List.replicate ((len+1)*2+1) t.nul) buf 0 len)
          (by simp [Ne.symm hne]) (by omega) (by omega)]
        simp only [upd_upd] at h1 ⊢
        rw [h1]
        congr 1
        simp; omega
      · rw [h2, upd_upd]
      · have e : len + (c :: cs).length = len + 1 + cs.length := by simp; omega
        rw [e, h4, take_succ_set _ _ _ (by omega), take_mix0 _ _ _ (by simp; omega) (by omega)]
        simp
      · simp; omega
      · right
        have hqq : q ≠ q' := by
          rcases h6 with h | h
          · rw [h]; exact hne
          · simp at h; omega
        refine ⟨?_, ?_⟩
        · rcases h6 with h | h
          · omega
          · simp at h; omega
        · rw [h7 q hne hqq]; simp [hne]
      · intro a ha haq
        by_cases hn : a = st.next
        · subst hn
          rcases h6 with h | h
          · exact absurd h.symm haq
          · rw [h.2, hf _ (Nat.le_refl _)]
        · rw [h7 a hn haq]; simp [ha, hn]
    · obtain ⟨st', q', buf', h1, h2, h3, h4, h5, h6, h7, h8, h9, h10⟩ := ih
        (st := { st with mem := upd st.mem q (some (arr (cap+1) (buf.set len c))) })
        (q := q) (cap := cap) (len := len+1) (buf := buf.set len c)
        (by simpa using ho) (by simp) (by simpa using hb) (by omega) hq
        (by
          intro a ha
          have : a ≠ q := by simp at ha; omega
          simp [this]; exact hf a ha) ht
      simp at h7
      refine ⟨st', q', buf', ?_, h2, h3, ?_, ?_, h6, ?_, h8, h9, h10⟩
      · simp only [inputLoop2, M.bind_apply, if_neg hc, M.pure_apply]
        rw [getObj_some (o := ⟨0, cap, some q⟩) (by exact ho)]
        simp only []
        rw [putc_arr (n := cap+1) (xs := buf) hm (by omega) (by omega)]
        simp only []
        rw [h1]
        congr 1
        simp; omega
      · have e : len + (c :: cs).length = len + 1 + cs.length := by simp; omega
        rw [e, h4, take_succ_set _ _ _ (by omega)]
        simp
      · simp; omega
      · intro a ha haq
        rw [h7 a ha haq]; simp [ha]

theorem copyChars_none {t : Traits V} (s : SSt V) (q : Nat) :
    copyChars t (some q) 0 (.cell none 0) 0 s = .ok () s := by
  simp [copyChars, overlaps, forN]

theorem freeChars_none (s : SSt V) (n : Nat) : freeChars none n s = .ok () s := rfl

theorem ctorInput_spec {t : Traits V} {st : SSt V} {σ : Nat → Option (SV V)} (W : SW t st σ)
    {x : Nat} (hx : σ x = none) (cs : List V) (hcs : cs ≠ []) :
    ∃ st' s', ctorInput t x cs st = .ok () st' ∧ SW t st' (upd σ x (some s')) ∧ s'.val = cs := by
  have h0 := W.dom x hx
  have ht := W.thr
  cases cs with
  | nil => exact absurd rfl hcs
  | cons c cs =>
    obtain ⟨st', q', buf', h1, h2, h3, h4, h5, h6, h7, h8, h9, h10⟩ := inputLoop2_ok (t := t) (x := x) cs
      (st := ⟨upd st.objs x (some ⟨0, 2, some st.next⟩),
        upd st.mem st.next (some (arr 3 [c, t.nul, t.nul])), st.next + 1, st.thr⟩)
      (q := st.next) (cap := 2) (len := 1) (buf := [c, t.nul, t.nul])
      (by simp) (by simp) (by simp) (by omega) (by simp)
      (by
        intro a ha
        simp at ha
        have e1 : a ≠ st.next := by omega
        simp [e1]
        exact W.fresh a (by omega)) ht
    have hq' : st.next ≤ q' := by
      rcases h6 with h | h
      · omega
      · simp at h; omega
    simp at h4 h7
    have hl' : 1 + cs.length < buf'.length := h5
    refine ⟨⟨upd st.objs x (some ⟨1 + cs.length, buf'.length - 1, some q'⟩),
        upd st'.mem q' (some (arr buf'.length (buf'.set (1 + cs.length) t.nul))), st'.next, st.thr⟩,
      ⟨q', buf'.set (1 + cs.length) t.nul, 1 + cs.length⟩, ?_, ?_, ?_⟩
    · simp only [ctorInput, M.bind_apply, newObj_none h0]
      apply M.onThrow_of_ok
      simp only [M.bind_apply]
      rw [getObj_some (o := ⟨0, 0, none⟩) (by simp)]
      simp only [inputLoop1, Nat.lt_irrefl, if_false, M.pure_apply]
      simp only [inputLoop2, M.bind_apply, if_true]
      rw [allocInit_ok _ (by exact ht)]
      simp only []
      rw [getObj_some (o := ⟨0, 0, none⟩) (by simp)]
      simp only []
      rw [copyChars_none]
      simp only [freeChars_none]
      rw [setObj_some (o := ⟨0, 0, none⟩) (by simp)]
      simp only [M.pure_apply]
      rw [getObj_some (o := ⟨0, (0+1)*2, some st.next⟩) (by simp)]
      simp only []
      rw [putc_arr (n := 3) (xs := [t.nul, t.nul, t.nul]) (by simp [List.replicate]) (by simp) (by simp)]
      simp only [upd_upd]
      have e : (List.set [t.nul, t.nul, t.nul] 0 c) = [c, t.nul, t.nul] := rfl
      rw [e]
      simp only [Nat.zero_add, Nat.one_mul, h1]
      rw [getObj_some (o := ⟨0, buf'.length - 1, some q'⟩) (by rw [h2]; simp)]
      simp only []
      rw [setObj_some (o := ⟨0, buf'.length - 1, some q'⟩) (by rw [h2]; simp)]
      simp only []
      rw [putc_arr (n := buf'.length) (xs := buf') (by exact h3) hl' (Nat.le_refl _)]
      simp only [h2, h10, ht, upd_upd]
    · refine made W hx _ hq' ⟨?_, ?_, ?_⟩ ?_ ?_ ?_ ?_ rfl
      · show _ < List.length (List.set _ _ _); simpa using hl'
      · show 2 ≤ List.length (List.set _ _ _); simp; omega
      · show (List.set _ _ _)[1 + cs.length]? = _
        rw [List.getElem?_set_self hl']
      · simp [SV.obj]
      · simp
      · intro a ha
        simp at ha
        simp [ha]
        by_cases hn : a = st.next
        · subst hn
          rcases h6 with h | h
          · exact absurd h.symm ha
          · rw [h.2, W.fresh _ (Nat.le_refl _)]
        · rw [h7 a hn ha]; simp [hn]
      · intro a ha
        have : a ≠ q' := by simp at ha; omega
        simp [this]
        exact h9 a ha
    · show List.take (1 + cs.length) (List.set _ _ _) = _
      rw [take_set_self, h4]

end Cest.Str
