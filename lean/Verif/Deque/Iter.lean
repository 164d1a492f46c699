import Verif.Deque.Methods
/-
Iterators of deques (used by Deque/Refine.lean, Deque/Props.lean).
-/
namespace Cest.Deq
open Cest
variable {V : Type}
variable {K : Nat} {st : DSt V} {σ : Nat → Option (DV V)} {x : Nat} {s : DV V} {v : V}

/-- `it` designates linear position `g`. -/
def IsIt (K : Nat) (ch : List Nat) (g : Nat) (it : It) : Prop :=
  ch[g / K]? = some it.blk ∧ it.off = g % K ∧ it.idx = ((g / K : Nat) : Int)

theorem IsIt.eq {ch : List Nat} {g : Nat} {it it' : It} (h : IsIt K ch g it) (h' : IsIt K ch g it') : it = it' := by
  obtain ⟨h1, h2, h3⟩ := h
  obtain ⟨h1', h2', h3'⟩ := h'
  cases it; cases it'
  simp only [] at *
  rw [h1] at h1'; simp at h1'
  subst h1' h2 h2' h3 h3'; rfl

theorem IsIt.exists (hK : 0 < K) {ch : List Nat} {g : Nat} (h : g < ch.length * K) : ∃ it, IsIt K ch g it := by
  obtain ⟨a, ha⟩ := chunk_some hK h
  exact ⟨⟨a, g % K, (g / K : Nat)⟩, ha, rfl, rfl⟩

theorem IsIt.beq_iff {ch : List Nat} {g g' : Nat} {it it' : It} (hnd : ch.Nodup)
    (h : IsIt K ch g it) (h' : IsIt K ch g' it') : it.beq it' = true ↔ g = g' := by
  obtain ⟨h1, h2, h3⟩ := h
  obtain ⟨h1', h2', h3'⟩ := h'
  simp only [It.beq, Bool.and_eq_true, beq_iff_eq, h2, h2']
  constructor
  · rintro ⟨e1, e2⟩
    rw [e1] at h1
    have := nodup_inj hnd h1 h1'
    rw [← Nat.div_add_mod g K, ← Nat.div_add_mod g' K, this, e2]
  · rintro rfl
    rw [h1] at h1'; simp at h1'
    exact ⟨h1', rfl⟩

theorem IsIt.deref_ok (hK : 0 < K) (H : Heap K st.mem s.chunks (cell s.pos s.xs)) {g : Nat} {it : It}
    (h : IsIt K s.chunks g it) (hv : cell s.pos s.xs g = some v) : it.deref st = .ok v st := by
  obtain ⟨h1, h2, h3⟩ := h
  simp only [It.deref, h2]
  exact heap_load hK H h1 hv

theorem IsIt.deref_dead (hK : 0 < K) (H : Heap K st.mem s.chunks (cell s.pos s.xs)) {g : Nat} {it : It}
    (h : IsIt K s.chunks g it) (hv : cell s.pos s.xs g = none) : it.deref st = .ub .deadRead := by
  obtain ⟨h1, h2, h3⟩ := h
  simp only [It.deref, h2]
  exact heap_loadDead hK H h1 hv

theorem IsIt.inc_ok (hK : 0 < K) {o : Obj} (ho : st.objs x = some o) {g : Nat} {it : It}
    (h : IsIt K o.chunks g it) (hg : g % K = K - 1 → g / K + 1 < o.chunks.length) :
    ∃ it', it.inc K x st = .ok it' st ∧ IsIt K o.chunks (g + 1) it' := by
  obtain ⟨h1, h2, h3⟩ := h
  simp only [It.inc, M.bind_apply, getObj_some ho]
  rw [chunkAt_ok h3 h1]
  simp only []
  by_cases hl : g % K = K - 1
  · rw [if_pos ⟨trivial, by rw [h2, hl]⟩]
    have hlt := hg hl
    simp only [M.bind_apply]
    rw [chunkAt_ok (j := g / K + 1) (a := o.chunks[g / K + 1]) (by rw [h3]; simp) (by simp)]
    obtain ⟨e1, e2⟩ := succ_last hK hl
    exact ⟨_, rfl, by rw [e2]; simp, by rw [e1], by rw [e2, h3]; simp⟩
  · have hlt := Nat.mod_lt g hK
    rw [if_neg (by rw [h2]; exact fun h => hl h.2), if_pos (by rw [h2]; exact hlt)]
    obtain ⟨e1, e2⟩ := succ_mid hK hl
    exact ⟨_, rfl, by rw [e2]; exact h1, by rw [e1, h2], by rw [e2]; exact h3⟩

theorem IsIt.inc_oob {o : Obj} (ho : st.objs x = some o) {g : Nat} {it : It}
    (h : IsIt K o.chunks g it) (hl : g % K = K - 1) (hg : o.chunks.length ≤ g / K + 1) :
    it.inc K x st = .ub .oob := by
  obtain ⟨h1, h2, h3⟩ := h
  simp only [It.inc, M.bind_apply, getObj_some ho]
  rw [chunkAt_ok h3 h1]
  simp only []
  rw [if_pos ⟨trivial, by rw [h2, hl]⟩]
  simp only [M.bind_apply]
  rw [chunkAt_none (j := g / K + 1) (by rw [h3]; simp) (by simp; exact hg)]

theorem begin_ok (hK : 0 < K) (W : DW K st σ) (hx : σ x = some s) (h : s.pos < s.chunks.length * K) :
    ∃ it, begin_ x st = .ok it st ∧ IsIt K s.chunks s.pos it := by
  obtain ⟨a, ha⟩ := chunk_some hK h
  simp only [begin_, M.bind_apply, getObj_some (W_obj W hx)]
  rw [chunkAt_ok (j := s.pos / K) (by rfl) (by exact ha)]
  exact ⟨_, rfl, ha, rfl, rfl⟩

theorem begin_oob (hK : 0 < K) (W : DW K st σ) (hx : σ x = some s) (h : s.chunks.length * K ≤ s.pos) :
    begin_ x st = .ub .oob := by
  simp only [begin_, M.bind_apply, getObj_some (W_obj W hx)]
  rw [chunkAt_none (j := s.pos / K) (by rfl) (by
    simp only [DV.obj, List.getElem?_eq_none_iff]
    exact Nat.le_of_not_lt (fun hc => by have := (lt_chunks hK).1 hc; omega))]

theorem end_ok (hK : 0 < K) (W : DW K st σ) (hx : σ x = some s) (h : s.stop % K ≠ 0) :
    ∃ it, end_ x st = .ok it st ∧ IsIt K s.chunks s.stop it := by
  have hle := W_le W hx
  have hlt : s.stop < s.chunks.length * K := by
    rcases Nat.lt_or_eq_of_le hle with h' | h'
    · exact h'
    · rw [h'] at h; simp at h
  obtain ⟨a, ha⟩ := chunk_some hK hlt
  obtain ⟨h1, h2⟩ := back_pos hK h
  simp only [end_, M.bind_apply, getObj_some (W_obj W hx)]
  have hb : (s.obj K).bchunk = ((s.stop / K : Nat) : Int) := by
    show (((s.stop + K - 1) / K : Nat) : Int) - 1 = _
    rw [h2]; omega
  rw [chunkAt_ok hb (by exact ha)]
  refine ⟨_, rfl, ha, ?_, hb⟩
  show (s.stop + K - 1) % K + 1 = _
  rw [h1]; omega

/-- At a chunk boundary `end()` is one past the end of the chunk before, or unreadable. -/
theorem end_boundary (hK : 0 < K) (W : DW K st σ) (hx : σ x = some s) (h : s.stop % K = 0) :
    end_ x st = .ub .oob ∨ ∃ it, end_ x st = .ok it st ∧ it.off = K := by
  have hle := W_le W hx
  obtain ⟨h1, h2⟩ := back_zero hK h
  have hb : (s.obj K).bchunk = ((s.stop / K : Nat) : Int) - 1 := by
    show (((s.stop + K - 1) / K : Nat) : Int) - 1 = _
    rw [h2]
  simp only [end_, M.bind_apply, getObj_some (W_obj W hx)]
  by_cases h0 : s.stop / K = 0
  · left
    rw [chunkAt_neg (by rw [hb, h0]; simp)]
  · right
    have hlt : s.stop / K - 1 < s.chunks.length := by
      have h3 : s.stop / K ≤ s.chunks.length := by
        have := Nat.div_le_div_right (c := K) hle
        rwa [Nat.mul_div_cancel _ hK] at this
      generalize s.stop / K = q at *
      omega
    have hb' : (s.obj K).bchunk = ((s.stop / K - 1 : Nat) : Int) := by
      rw [hb]; generalize s.stop / K = q at *; omega
    rw [chunkAt_ok (a := s.chunks[s.stop / K - 1]'hlt) hb' (by simp only [DV.obj]; simp [hlt])]
    refine ⟨_, rfl, ?_⟩
    show (s.stop + K - 1) % K + 1 = _
    rw [h1]; omega

theorem collect_ok (hK : 0 < K) (W : DW K st σ) (hx : σ x = some s) (hz : s.stop % K ≠ 0) {e : It}
    (he : IsIt K s.chunks s.stop e) {n i fuel : Nat} {it : It} (hi : i + n = s.xs.length)
    (h : IsIt K s.chunks (s.pos + i) it) (hf : n < fuel) :
    collect K x e fuel it st = .ok (s.xs.drop i) st := by
  have hle := W_le W hx
  have hlt : s.stop < s.chunks.length * K := by
    rcases Nat.lt_or_eq_of_le hle with h' | h'
    · exact h'
    · rw [h'] at hz; simp at hz
  have hob := W_obj W hx
  induction n generalizing i fuel it with
  | zero =>
    obtain ⟨f, rfl⟩ : ∃ f, fuel = f + 1 := ⟨fuel - 1, by omega⟩
    have : it.beq e = true := (h.beq_iff (W_nodup W hx) he).2 (by unfold DV.stop; omega)
    simp only [collect, this]
    rw [List.drop_of_length_le (by omega)]; rfl
  | succ n ih =>
    obtain ⟨f, rfl⟩ : ∃ f, fuel = f + 1 := ⟨fuel - 1, by omega⟩
    have hne : it.beq e = false := by
      rw [← Bool.not_eq_true]
      intro hc
      have := (h.beq_iff (W_nodup W hx) he).1 hc
      unfold DV.stop at this; omega
    simp only [collect, hne]
    simp only [Bool.false_eq_true, if_false, M.bind_apply]
    rw [h.deref_ok hK (W_heap W hx) (v := s.xs[i]) (by rw [cell_at]; simp)]
    simp only []
    obtain ⟨it', h1, h2⟩ := h.inc_ok hK hob (by
      intro hl
      have h1 := (succ_last hK hl).2
      have : s.pos + i + 1 < s.chunks.length * K := by unfold DV.stop at hlt; omega
      have h3 := (lt_chunks hK).2 this
      rw [h1] at h3
      exact h3)
    rw [h1]
    simp only []
    rw [ih (i := i + 1) (it := it') (fuel := f) (by omega) (by exact h2) (by omega)]
    simp

theorem toList_spec (hK : 0 < K) (W : DW K st σ) (hx : σ x = some s) (hz : s.stop % K ≠ 0) {fuel : Nat}
    (hf : s.xs.length < fuel) : toList K x fuel st = .ok s.xs st := by
  have hle := W_le W hx
  have hlt : s.pos < s.chunks.length * K := by
    rcases Nat.lt_or_eq_of_le hle with h' | h'
    · unfold DV.stop at h'; omega
    · rw [h'] at hz; simp at hz
  obtain ⟨b, hb1, hb2⟩ := begin_ok hK W hx hlt
  obtain ⟨e, he1, he2⟩ := end_ok hK W hx hz
  simp only [toList, M.bind_apply, hb1, he1]
  rw [collect_ok hK W hx hz he2 (i := 0) (n := s.xs.length) (by omega) (by simpa using hb2) hf]
  simp

theorem collect_ub (hK : 0 < K) (W : DW K st σ) (hx : σ x = some s) {e : It}
    (he : e.off = K) {n i fuel : Nat} {it : It} (hi : i + n = s.xs.length)
    (h : IsIt K s.chunks (s.pos + i) it) (hf : n < fuel) :
    ∃ u, collect K x e fuel it st = .ub u := by
  have hob := W_obj W hx
  have hne : ∀ g it, IsIt K s.chunks g it → it.beq e = false := by
    intro g it h
    have := Nat.mod_lt g hK
    simp only [It.beq, h.2.1, he, Bool.and_eq_false_iff, beq_eq_false_iff_ne]
    right; omega
  induction n generalizing i fuel it with
  | zero =>
    obtain ⟨f, rfl⟩ : ∃ f, fuel = f + 1 := ⟨fuel - 1, by omega⟩
    simp only [collect, hne _ _ h]
    simp only [Bool.false_eq_true, if_false, M.bind_apply]
    rw [h.deref_dead hK (W_heap W hx) (cell_after (by omega))]
    exact ⟨_, rfl⟩
  | succ n ih =>
    obtain ⟨f, rfl⟩ : ∃ f, fuel = f + 1 := ⟨fuel - 1, by omega⟩
    simp only [collect, hne _ _ h]
    simp only [Bool.false_eq_true, if_false, M.bind_apply]
    rw [h.deref_ok hK (W_heap W hx) (v := s.xs[i]) (by rw [cell_at]; simp)]
    simp only []
    by_cases hend : (s.pos + i) % K = K - 1 ∧ s.chunks.length ≤ (s.pos + i) / K + 1
    · rw [h.inc_oob hob hend.1 hend.2]
      exact ⟨_, rfl⟩
    · obtain ⟨it', h1, h2⟩ := h.inc_ok hK hob (by
        intro hl
        apply Classical.byContradiction
        intro hc
        exact hend ⟨hl, Nat.le_of_not_lt hc⟩)
      rw [h1]
      simp only []
      obtain ⟨u, hu⟩ := ih (i := i + 1) (it := it') (fuel := f) (by omega) (by exact h2) (by omega)
      rw [hu]
      exact ⟨_, rfl⟩

/-- Iterating over a deque whose last element is the last of its chunk is undefined. -/
theorem toList_ub (hK : 0 < K) (W : DW K st σ) (hx : σ x = some s) (hz : s.stop % K = 0) {fuel : Nat}
    (hf : s.xs.length < fuel) : ∃ u, toList K x fuel st = .ub u := by
  simp only [toList, M.bind_apply]
  by_cases hlt : s.pos < s.chunks.length * K
  · obtain ⟨b, hb1, hb2⟩ := begin_ok hK W hx hlt
    rw [hb1]
    rcases end_boundary hK W hx hz with h | ⟨e, he1, he2⟩
    · simp only [h]; exact ⟨_, rfl⟩
    · simp only [he1]
      exact collect_ub hK W hx he2 (i := 0) (n := s.xs.length) (by omega) (by simpa using hb2) hf
  · rw [begin_oob hK W hx (by omega)]
    exact ⟨_, rfl⟩

/-! ### Random positions -/

/-- `it` incremented `n` times. -/
def advance (K x : Nat) : Nat → It → DM V It
  | 0, it => pure it
  | n+1, it => do
    let it' ← it.inc K x
    advance K x n it'

/-- The iterator obtained from `begin()` by `i` increments. -/
def iterAt (K x i : Nat) : DM V It := do
  let b ← begin_ x
  advance K x i b

theorem advance_ok (hK : 0 < K) (W : DW K st σ) (hx : σ x = some s) {n g : Nat} {it : It}
    (h : IsIt K s.chunks g it) (hg : g + n < s.chunks.length * K) :
    ∃ it', advance K x n it st = .ok it' st ∧ IsIt K s.chunks (g + n) it' := by
  induction n generalizing g it with
  | zero => exact ⟨it, rfl, h⟩
  | succ n ih =>
    obtain ⟨it1, h1, h2⟩ := h.inc_ok hK (W_obj W hx) (by
      intro hl
      have h1 := (succ_last hK hl).2
      have h3 := (lt_chunks hK).2 (show g + 1 < s.chunks.length * K by omega)
      rw [h1] at h3
      exact h3)
    obtain ⟨it2, h3, h4⟩ := ih (g := g + 1) h2 (by omega)
    refine ⟨it2, ?_, by rw [show g + (n + 1) = g + 1 + n by omega]; exact h4⟩
    simp only [advance, M.bind_apply, h1, h3]

theorem iterAt_ok (hK : 0 < K) (W : DW K st σ) (hx : σ x = some s) {i : Nat} (hi : i < s.xs.length) :
    ∃ it, iterAt K x i st = .ok it st ∧ IsIt K s.chunks (s.pos + i) it := by
  have hlt := idx_lt W hx hi
  obtain ⟨b, hb1, hb2⟩ := begin_ok hK W hx (by omega)
  obtain ⟨it, h1, h2⟩ := advance_ok hK W hx hb2 hlt
  exact ⟨it, by simp only [iterAt, M.bind_apply, hb1, h1], h2⟩

theorem IsIt.dec_mid (hK : 0 < K) {o : Obj} (ho : st.objs x = some o) {g : Nat} {it : It}
    (h : IsIt K o.chunks g it) (hg : g % K ≠ 0) :
    ∃ it', it.dec x st = .ok it' st ∧ IsIt K o.chunks (g - 1) it' := by
  obtain ⟨h1, h2, h3⟩ := h
  simp only [It.dec, M.bind_apply, getObj_some ho]
  rw [chunkAt_ok h3 h1]
  simp only []
  rw [if_neg (by rw [h2]; exact fun h => hg h.2), if_pos (by rw [h2]; omega)]
  obtain ⟨e1, e2⟩ := pred_pos hK hg
  exact ⟨_, rfl, by rw [e2]; exact h1, by rw [e1, h2], by rw [e2]; exact h3⟩

/-- At the start of a chunk, decrementing goes to the start of the previous one. -/
theorem IsIt.dec_start (hK : 0 < K) {o : Obj} (ho : st.objs x = some o) {g : Nat} {it : It}
    (h : IsIt K o.chunks g it) (hg : g % K = 0) (h0 : K ≤ g) :
    ∃ it', it.dec x st = .ok it' st ∧ IsIt K o.chunks (g - K) it' := by
  obtain ⟨h1, h2, h3⟩ := h
  have hd : (g - K) / K + 1 = g / K := by
    rw [← Nat.add_div_right _ hK, Nat.sub_add_cancel h0]
  have hm : (g - K) % K = 0 := by
    rw [← Nat.add_mod_right, Nat.sub_add_cancel h0, hg]
  have hlt : (g - K) / K < o.chunks.length := by
    have : g / K < o.chunks.length := by
      rw [List.getElem?_eq_some_iff] at h1; exact h1.1
    rw [← hd] at this; exact Nat.lt_of_succ_lt this
  simp only [It.dec, M.bind_apply, getObj_some ho]
  rw [chunkAt_ok h3 h1]
  simp only []
  rw [if_pos ⟨trivial, by rw [h2, hg]⟩]
  simp only [M.bind_apply]
  have hidx : it.idx - 1 = (((g - K) / K : Nat) : Int) := by
    rw [h3, ← hd]; simp
  rw [chunkAt_ok (a := o.chunks[(g - K) / K]) hidx (by simp)]
  exact ⟨_, rfl, by simp, by rw [hm], hidx⟩

theorem IsIt.sub_ok {o : Obj} (ho : st.objs x = some o) {g g' : Nat} {it it' : It}
    (h : IsIt K o.chunks g it) (h' : IsIt K o.chunks g' it') :
    It.sub K x it it' st = .ok (((g % K : Nat) : Int) - (g' % K : Nat)) st := by
  obtain ⟨h1, h2, h3⟩ := h
  obtain ⟨h1', h2', h3'⟩ := h'
  simp only [It.sub, M.bind_apply, getObj_some ho]
  rw [chunkAt_ok h3 h1]
  simp only []
  rw [chunkAt_ok h3' h1']
  simp only []
  rw [if_pos ⟨trivial, trivial⟩, h2, h2']
  simp only [M.pure_apply]
  congr 1
  have : (it.idx - it.idx - 1 : Int) = -1 := by omega
  rw [this]; omega

end Cest.Deq
