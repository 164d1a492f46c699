import Verif.Deque.Proofs
/-
push, clear, construction, copying and destruction of deques (used by Deque/Refine.lean, Deque/Props.lean).
-/
namespace Cest.Deq
open Cest
variable {V : Type}
variable {K : Nat} {st : DSt V} {σ : Nat → Option (DV V)} {x y : Nat} {s sy : DV V} {v : V}

/-- Capacity of `m_chunks` after a push_back. -/
def growCap (c n : Nat) : Nat := if c = n then (if c = 0 then 1 else c * 2) else c

theorem chunksPush_ok {o : Obj} {a : Nat} (ho : st.objs x = some o) (ht : st.thr = none) :
    chunksPush x a st = .ok () { st with objs := upd st.objs x (some { o with
      ccap := growCap o.ccap o.chunks.length, chunks := o.chunks ++ [a] }) } := by
  simp only [chunksPush, M.bind_apply, getObj_some ho, growCap]
  by_cases h : o.ccap = o.chunks.length
  · simp only [if_pos h, M.bind_apply, tick_none ht]
    rw [setObj_some ho]
  · simp only [if_neg h]
    rw [setObj_some ho]

theorem allocArr_ok {n : Nat} (ht : st.thr = none) : (allocArr n : DM V Nat) st =
    .ok st.next { st with mem := upd st.mem st.next (some ⟨n, fun _ => none⟩), next := st.next + 1 } := by
  simp only [allocArr, allocC_none ht]

/-- push_back would continue in the wrong chunk (deque.hpp:328-338). -/
def DV.fault (K : Nat) (s : DV V) : Prop := s.stop % K = 0 ∧ s.stop ≠ s.chunks.length * K

/-- Layout after push_back; `a` is the storage of a new chunk. -/
def DV.pushB (K : Nat) (s : DV V) (v : V) (a : Nat) : DV V :=
  if s.stop = s.chunks.length * K then
    ⟨s.chunks ++ [a], growCap s.ccap s.chunks.length, s.pos, s.xs ++ [v]⟩
  else { s with xs := s.xs ++ [v] }

/-- Layout after push_front. -/
def DV.pushF (K : Nat) (s : DV V) (v : V) (a : Nat) : DV V :=
  if s.pos = 0 then
    ⟨a :: s.chunks, growCap s.ccap s.chunks.length, K - 1, v :: s.xs⟩
  else { s with pos := s.pos - 1, xs := v :: s.xs }

theorem stop_push (s : DV V) : DV.stop { s with xs := s.xs ++ [v] } = s.stop + 1 := by
  simp [DV.stop]; omega

theorem pushBackHelper_ok (hK : 2 ≤ K) (ho : st.objs x = some (s.obj K)) (ht : st.thr = none)
    (hf : ¬ s.fault K) :
    pushBackHelper K x st = .ok () (if s.stop = s.chunks.length * K then
      ⟨upd st.objs x (some ((s.pushB K v st.next).obj K)), upd st.mem st.next (some ⟨K, fun _ => none⟩),
        st.next + 1, st.thr⟩
      else { st with objs := upd st.objs x (some ((s.pushB K v st.next).obj K)) }) := by
  have hK0 : 0 < K := by omega
  by_cases hz : s.stop % K = 0
  · have hfull : s.stop = s.chunks.length * K := by
      apply Classical.byContradiction; intro h; exact hf ⟨hz, h⟩
    obtain ⟨h1, h2⟩ := back_zero hK0 hz
    have h3 : s.stop / K = s.chunks.length := (full_iff hK0 hz).2 hfull
    have e1 : (s.obj K).back = K - 1 := h1
    have e2 : (s.obj K).bchunk = ((s.obj K).chunks.length : Int) - 1 := by
      show (((s.stop + K - 1) / K : Nat) : Int) - 1 = _
      rw [h2, h3]; rfl
    simp only [pushBackHelper, M.bind_apply, getObj_some ho]
    rw [if_pos e1, if_pos e2]
    simp only [M.bind_apply, allocArr_ok ht]
    rw [chunksPush_ok (by exact ho) (by exact ht)]
    simp only []
    rw [getObj_some (by exact upd_same _ _ _)]
    simp only []
    rw [setObj_some (by exact upd_same _ _ _)]
    simp only []
    rw [getObj_some (by exact upd_same _ _ _)]
    simp only []
    rw [setObj_some (by exact upd_same _ _ _)]
    simp only []
    rw [getObj_some (by exact upd_same _ _ _)]
    simp only []
    rw [setObj_some (by exact upd_same _ _ _)]
    simp only [upd_upd, if_pos hfull]
    have : (s.pushB K v st.next).obj K = { s.obj K with
        back := 0, bchunk := (s.obj K).bchunk + 1, size := (s.obj K).size + 1,
        ccap := growCap (s.obj K).ccap (s.obj K).chunks.length, chunks := (s.obj K).chunks ++ [st.next] } := by
      have hs : (s.pushB K v st.next).stop = s.stop + 1 := by
        simp only [DV.pushB, if_pos hfull]; simp [DV.stop]; omega
      unfold DV.obj
      rw [hs]
      rw [show s.stop + 1 + K - 1 = s.stop + K by omega, Nat.add_mod_right, Nat.add_div_right _ hK0, hz, h2]
      simp only [DV.pushB, if_pos hfull]
      simp
    rw [this]
  · have hfull : s.stop ≠ s.chunks.length * K := by
      intro h; rw [h] at hz; simp at hz
    obtain ⟨h1, h2⟩ := back_pos hK0 hz
    have hlt := Nat.mod_lt s.stop hK0
    have e1 : (s.obj K).back ≠ K - 1 := by
      show (s.stop + K - 1) % K ≠ _
      rw [h1]; omega
    simp only [pushBackHelper, M.bind_apply, getObj_some ho]
    rw [if_neg e1]
    simp only [M.bind_apply]
    rw [setObj_some (by exact ho)]
    simp only []
    rw [getObj_some (by exact upd_same _ _ _)]
    simp only []
    rw [setObj_some (by exact upd_same _ _ _)]
    simp only [upd_upd, if_neg hfull]
    have : (s.pushB K v st.next).obj K = { s.obj K with
        back := (s.obj K).back + 1, size := (s.obj K).size + 1 } := by
      simp only [DV.pushB, if_neg hfull]
      unfold DV.obj
      rw [stop_push]
      rw [show s.stop + 1 + K - 1 = s.stop + K by omega, Nat.add_mod_right, Nat.add_div_right _ hK0, h1, h2]
      simp
      omega
    rw [this]

theorem heap_snoc {m : Nat → Option (Blk V)} {ch : List Nat} {c : Nat → Option V} {a : Nat}
    (H : Heap K m ch c) (ha : a ∉ ch) (hc : ∀ g, ch.length * K ≤ g → c g = none) :
    Heap K (upd m a (some ⟨K, fun _ => none⟩)) (ch ++ [a]) c := by
  intro j b hb
  by_cases hj : j < ch.length
  · rw [List.getElem?_append_left hj] at hb
    have : b ≠ a := by rintro rfl; exact ha (List.mem_of_getElem? hb)
    simp [this]; exact H j b hb
  · have hj' : j = ch.length := by
      have : j < (ch ++ [a]).length := by
        rw [List.getElem?_eq_some_iff] at hb; exact hb.1
      simp at this; omega
    subst hj'
    simp at hb
    subst hb
    simp only [upd_same]
    rw [blk_empty]
    intro g h1 h2
    exact hc g (by rw [Nat.mul_comm]; exact h1)

theorem heap_cons {m : Nat → Option (Blk V)} {ch : List Nat} {pos : Nat} {xs : List V} {a : Nat}
    (H : Heap K m ch (cell pos xs)) (ha : a ∉ ch) :
    Heap K (upd m a (some ⟨K, fun _ => none⟩)) (a :: ch) (cell (pos + K) xs) := by
  intro j b hb
  cases j with
  | zero =>
    simp at hb; subst hb
    simp only [upd_same]
    rw [blk_empty]
    intro g _ h2
    exact cell_before (by omega)
  | succ j =>
    simp at hb
    have : b ≠ a := by rintro rfl; exact ha (List.mem_of_getElem? hb)
    simp [this]
    rw [blk_shift]; exact H j b hb

/-- A step of `x` that also allocates the next block. -/
theorem placeNew (W : DW K st σ) (hx : σ x = some s) {m' : Nat → Option (Blk V)} {o' : Obj} {s' : DV V}
    (hch : ∀ c ∈ s'.chunks, c ∈ s.chunks ∨ c = st.next) (hsub : ∀ c ∈ s.chunks, c ∈ s'.chunks)
    (hfr : ∀ c, c ∉ s'.chunks → m' c = st.mem c) (hr : DRep K m' o' s') :
    DW K ⟨upd st.objs x (some o'), m', st.next + 1, st.thr⟩ (upd σ x (some s')) := by
  refine W.step1 x o' s' rfl hr ?_ ?_ ?_ ?_ W.thr
  · intro c _ h2; exact hfr c h2
  · intro c hc
    rcases hch c hc with h | h
    · left; simpa [hx] using h
    · right; omega
  · intro c h1 h2
    simp [hx] at h1
    exact absurd (hsub c h1) h2
  · intro c hc
    simp only [] at hc ⊢
    rw [hfr c]
    · exact W.fresh c (by omega)
    · intro h
      rcases hch c h with h | h
      · have := W.lt_next (x := x) (a := c) (by simpa [hx] using h); omega
      · omega

theorem next_notin (W : DW K st σ) (hx : σ x = some s) : st.next ∉ s.chunks := by
  intro h
  have := W.lt_next (x := x) (a := st.next) (by simpa [hx] using h); omega

theorem mem_ext (W : DW K st σ) {b : Blk V} : ∀ a c, st.mem a = some c →
    (upd st.mem st.next (some b)) a = some c := by
  intro a c h
  have : a ≠ st.next := by
    rintro rfl; rw [W.fresh _ (Nat.le_refl _)] at h; cases h
  simp [this, h]

theorem pushBack_spec (hK : 2 ≤ K) (W : DW K st σ) (hx : σ x = some s) (hf : ¬ s.fault K) {r : Ref V}
    (hr : ∀ st' : DSt V, (∀ a b, st.mem a = some b → st'.mem a = some b) → r.read st' = .ok v st') :
    ∃ st', pushBack K x r st = .ok () st' ∧ DW K st' (upd σ x (some (s.pushB K v st.next))) := by
  have hK0 : 0 < K := by omega
  have hle := W_le W hx
  have hnd := W_nodup W hx
  have hnE := W_ne W hx
  have hH := W_heap W hx
  have hni := next_notin W hx
  have hslot : cell s.pos s.xs s.stop = none := cell_after (by unfold DV.stop; omega)
  simp only [pushBack, M.bind_apply, pushBackHelper_ok (v := v) hK (W_obj W hx) W.thr hf]
  have hbk : ∀ s' : DV V, s'.stop = s.stop + 1 → (s'.obj K).back = s.stop % K ∧
      (s'.obj K).bchunk = ((s.stop / K : Nat) : Int) := by
    intro s' h
    simp only [DV.obj, h]
    rw [show s.stop + 1 + K - 1 = s.stop + K by omega, Nat.add_mod_right, Nat.add_div_right _ hK0]
    exact ⟨rfl, by omega⟩
  by_cases hfull : s.stop = s.chunks.length * K
  · simp only [if_pos hfull]
    have hp : s.pushB K v st.next =
        ⟨s.chunks ++ [st.next], growCap s.ccap s.chunks.length, s.pos, s.xs ++ [v]⟩ := by
      simp [DV.pushB, hfull]
    obtain ⟨hb1, hb2⟩ := hbk (s.pushB K v st.next) (by rw [hp]; simp [DV.stop]; omega)
    rw [getObj_some (by exact upd_same _ _ _)]
    simp only []
    have hq : s.stop / K = s.chunks.length := (full_iff hK0 (by rw [hfull]; simp)).2 hfull
    have ha : (s.chunks ++ [st.next])[s.stop / K]? = some st.next := by rw [hq]; simp
    rw [chunkAt_ok hb2 (by rw [show ((s.pushB K v st.next).obj K).chunks = s.chunks ++ [st.next] by rw [hp]; rfl]; exact ha)]
    simp only []
    rw [hr _ (mem_ext W)]
    simp only []
    have H1 := heap_snoc hH hni (fun g hg => cell_after (pos := s.pos) (xs := s.xs) (by
      have := hle; unfold DV.stop at this; omega))
    rw [hb1, heap_construct (ch := s.chunks ++ [st.next]) hK0 (by exact H1) ha hslot (by exact W.thr)]
    refine ⟨_, rfl, placeNew W hx (s' := s.pushB K v st.next) ?_ ?_ ?_ ?_⟩
    · intro c hc; rw [hp] at hc; simpa using hc
    · intro c hc; rw [hp]; simp [hc]
    · intro c hc; rw [hp] at hc; simp at hc; simp [hc.2]
    · refine ⟨rfl, ?_, ?_, ?_, ?_⟩
      · rw [hp]; simp only [List.nodup_append]; simp [hnd]; grind
      · rw [hp]; simp
      · rw [hp]; simp [DV.stop, Nat.add_mul]; unfold DV.stop at hle; omega
      · rw [hp]; simp only [cell_push]
        refine heap_write hK0 ?_ H1 ha
        simp only [List.nodup_append]; simp [hnd]; grind
  · simp only [if_neg hfull]
    have hp : s.pushB K v st.next = { s with xs := s.xs ++ [v] } := by simp [DV.pushB, hfull]
    obtain ⟨hb1, hb2⟩ := hbk (s.pushB K v st.next) (by rw [hp]; simp [DV.stop]; omega)
    rw [getObj_some (by exact upd_same _ _ _)]
    simp only []
    obtain ⟨a, ha⟩ := chunk_some (ch := s.chunks) (g := s.stop) hK0 (by omega)
    rw [chunkAt_ok hb2 (by rw [show ((s.pushB K v st.next).obj K).chunks = s.chunks by rw [hp]; rfl]; exact ha)]
    simp only []
    rw [hr _ (by exact fun _ _ h => h)]
    simp only []
    rw [hb1, heap_construct (ch := s.chunks) hK0 (by exact hH) ha hslot (by exact W.thr)]
    refine ⟨_, rfl, place W hx (s' := s.pushB K v st.next) (List.mem_of_getElem? ha) (by rw [hp]) ?_⟩
    refine ⟨rfl, ?_, ?_, ?_, ?_⟩
    · rw [hp]; exact hnd
    · rw [hp]; exact hnE
    · rw [hp, stop_push]; simp only []; omega
    · rw [hp]; simp only [cell_push]
      exact heap_write hK0 hnd hH ha

theorem pushFrontHelper_ok (hK : 2 ≤ K) (ho : st.objs x = some (s.obj K)) (ht : st.thr = none) :
    pushFrontHelper K x st = .ok () (if s.pos = 0 then
      ⟨upd st.objs x (some ((s.pushF K v st.next).obj K)), upd st.mem st.next (some ⟨K, fun _ => none⟩),
        st.next + 1, st.thr⟩
      else { st with objs := upd st.objs x (some ((s.pushF K v st.next).obj K)) }) := by
  have hK0 : 0 < K := by omega
  by_cases h0 : s.pos = 0
  · have e1 : (s.obj K).front = 0 := by simp [DV.obj, h0]
    have e2 : (s.obj K).fchunk = 0 := by simp [DV.obj, h0]
    simp only [pushFrontHelper, M.bind_apply, getObj_some ho]
    rw [if_pos e1, if_pos e2]
    simp only [M.bind_apply, allocArr_ok ht]
    rw [chunksPush_ok (by exact ho) (by exact ht)]
    simp only []
    rw [getObj_some (by exact upd_same _ _ _)]
    simp only [List.getLast?_append, List.getLast?_singleton, Option.some_or, List.dropLast_concat, M.bind_apply]
    rw [setObj_some (by exact upd_same _ _ _)]
    simp only []
    rw [getObj_some (by exact upd_same _ _ _)]
    simp only []
    rw [setObj_some (by exact upd_same _ _ _)]
    simp only []
    rw [getObj_some (by exact upd_same _ _ _)]
    simp only []
    rw [setObj_some (by exact upd_same _ _ _)]
    simp only [upd_upd, if_pos h0]
    have : (s.pushF K v st.next).obj K = { s.obj K with
        front := K - 1, bchunk := (s.obj K).bchunk + 1, size := (s.obj K).size + 1,
        ccap := growCap (s.obj K).ccap (s.obj K).chunks.length, chunks := st.next :: (s.obj K).chunks } := by
      have hs : (s.pushF K v st.next).stop = s.stop + K := by
        simp only [DV.pushF, if_pos h0]; simp [DV.stop, h0]; omega
      unfold DV.obj
      rw [hs]
      rw [show s.stop + K + K - 1 = (s.stop + K - 1) + K by omega, Nat.add_mod_right, Nat.add_div_right _ hK0]
      simp only [DV.pushF, if_pos h0]
      simp [h0, Nat.mod_eq_of_lt (show K - 1 < K by omega), Nat.div_eq_of_lt (show K - 1 < K by omega)]
    rw [this]
  · have hs : (s.pushF K v st.next).stop = s.stop := by
      simp only [DV.pushF, if_neg h0]; simp [DV.stop]; omega
    by_cases hz : s.pos % K = 0
    · obtain ⟨h1, h2, h3⟩ := pred_zero hK0 hz h0
      have e1 : (s.obj K).front = 0 := hz
      have e2 : (s.obj K).fchunk ≠ 0 := h3
      simp only [pushFrontHelper, M.bind_apply, getObj_some ho]
      rw [if_pos e1, if_neg e2]
      simp only [M.bind_apply]
      rw [setObj_some (by exact ho)]
      simp only []
      rw [getObj_some (by exact upd_same _ _ _)]
      simp only []
      rw [setObj_some (by exact upd_same _ _ _)]
      simp only []
      rw [getObj_some (by exact upd_same _ _ _)]
      simp only []
      rw [setObj_some (by exact upd_same _ _ _)]
      simp only [upd_upd, if_neg h0]
      have : (s.pushF K v st.next).obj K = { s.obj K with
          front := K - 1, fchunk := (s.obj K).fchunk - 1, size := (s.obj K).size + 1 } := by
        unfold DV.obj
        rw [hs]
        simp only [DV.pushF, if_neg h0, h1, h2]
        simp
      rw [this]
    · obtain ⟨h1, h2⟩ := pred_pos hK0 hz
      have e1 : (s.obj K).front ≠ 0 := hz
      simp only [pushFrontHelper, M.bind_apply, getObj_some ho]
      rw [if_neg e1]
      simp only [M.bind_apply]
      rw [setObj_some (by exact ho)]
      simp only []
      rw [getObj_some (by exact upd_same _ _ _)]
      simp only []
      rw [setObj_some (by exact upd_same _ _ _)]
      simp only [upd_upd, if_neg h0]
      have : (s.pushF K v st.next).obj K = { s.obj K with
          front := (s.obj K).front - 1, size := (s.obj K).size + 1 } := by
        unfold DV.obj
        rw [hs]
        simp only [DV.pushF, if_neg h0, h1, h2]
        simp
      rw [this]

theorem pushFront_spec (hK : 2 ≤ K) (W : DW K st σ) (hx : σ x = some s) {r : Ref V}
    (hr : ∀ st' : DSt V, (∀ a b, st.mem a = some b → st'.mem a = some b) → r.read st' = .ok v st') :
    ∃ st', pushFront K x r st = .ok () st' ∧ DW K st' (upd σ x (some (s.pushF K v st.next))) := by
  have hK0 : 0 < K := by omega
  have hle := W_le W hx
  have hnd := W_nodup W hx
  have hnE := W_ne W hx
  have hH := W_heap W hx
  have hni := next_notin W hx
  simp only [pushFront, M.bind_apply, pushFrontHelper_ok (v := v) hK (W_obj W hx) W.thr]
  by_cases h0 : s.pos = 0
  · simp only [if_pos h0]
    have hp : s.pushF K v st.next =
        ⟨st.next :: s.chunks, growCap s.ccap s.chunks.length, K - 1, v :: s.xs⟩ := by
      simp [DV.pushF, h0]
    have hm : (K - 1) % K = K - 1 := Nat.mod_eq_of_lt (by omega)
    have hd : (K - 1) / K = 0 := Nat.div_eq_of_lt (by omega)
    rw [getObj_some (by exact upd_same _ _ _)]
    simp only []
    have ha : (st.next :: s.chunks)[(K - 1) / K]? = some st.next := by rw [hd]; simp
    rw [chunkAt_ok (j := (K - 1) / K) (by rw [hp]; rfl)
      (by rw [show ((s.pushF K v st.next).obj K).chunks = st.next :: s.chunks by rw [hp]; rfl]; exact ha)]
    simp only []
    rw [hr _ (mem_ext W)]
    simp only []
    have H1 := heap_cons hH hni
    rw [show ((s.pushF K v st.next).obj K).front = (K - 1) % K by rw [hp]; rfl,
      heap_construct (ch := st.next :: s.chunks) hK0 (by exact H1) ha (cell_before (by omega)) (by exact W.thr)]
    refine ⟨_, rfl, placeNew W hx (s' := s.pushF K v st.next) ?_ ?_ ?_ ?_⟩
    · intro c hc; rw [hp] at hc; simp at hc; exact hc.symm
    · intro c hc; rw [hp]; simp [hc]
    · intro c hc; rw [hp] at hc; simp at hc; simp [hc.1]
    · refine ⟨rfl, ?_, ?_, ?_, ?_⟩
      · rw [hp]; simp [hnd, hni]
      · rw [hp]; simp
      · rw [hp]; simp [DV.stop, Nat.add_mul]; unfold DV.stop at hle; omega
      · rw [hp]; simp only []
        have := cell_cons (s.pos + K) s.xs v (by omega)
        rw [h0, Nat.zero_add] at this
        rw [this]
        rw [h0, Nat.zero_add] at H1
        have := heap_write (w := some v) (g := K - 1) hK0 (by simp [hnd, hni]) H1 ha
        rw [h0, Nat.zero_add]
        exact this
  · simp only [if_neg h0]
    have hp : s.pushF K v st.next = { s with pos := s.pos - 1, xs := v :: s.xs } := by simp [DV.pushF, h0]
    rw [getObj_some (by exact upd_same _ _ _)]
    simp only []
    obtain ⟨a, ha⟩ := chunk_some (ch := s.chunks) (g := s.pos - 1) hK0 (by unfold DV.stop at hle; omega)
    rw [chunkAt_ok (j := (s.pos - 1) / K) (by rw [hp]; rfl)
      (by rw [show ((s.pushF K v st.next).obj K).chunks = s.chunks by rw [hp]; rfl]; exact ha)]
    simp only []
    rw [hr _ (by exact fun _ _ h => h)]
    simp only []
    rw [show ((s.pushF K v st.next).obj K).front = (s.pos - 1) % K by rw [hp]; rfl,
      heap_construct (ch := s.chunks) hK0 (by exact hH) ha (cell_before (by omega)) (by exact W.thr)]
    refine ⟨_, rfl, place W hx (s' := s.pushF K v st.next) (List.mem_of_getElem? ha) (by rw [hp]) ?_⟩
    refine ⟨rfl, ?_, ?_, ?_, ?_⟩
    · rw [hp]; exact hnd
    · rw [hp]; exact hnE
    · rw [hp]; simp [DV.stop] at hle ⊢; omega
    · rw [hp]; simp only []
      rw [cell_cons _ _ _ (by omega)]
      exact heap_write hK0 hnd hH ha

/-! ### clear, construction, destruction -/

theorem destroyLoop {n i : Nat} (hK : 0 < K) (ho : st.objs x = some (s.obj K)) (hnd : s.chunks.Nodup)
    (hle : s.stop ≤ s.chunks.length * K) (hn : i + n = s.xs.length)
    (H : Heap K st.mem s.chunks (cell (s.pos + i) (s.xs.drop i))) :
    ∃ m', forN (fun i => do
        let (a, j) ← locate K x i
        destroyAt (some a) j) i n st = .ok () { st with mem := m' } ∧
      Heap K m' s.chunks (fun _ => none) ∧ ∀ c, c ∉ s.chunks → m' c = st.mem c := by
  induction n generalizing i st with
  | zero =>
    refine ⟨st.mem, rfl, ?_, fun _ _ => rfl⟩
    rw [List.drop_of_length_le (by omega), cell_nil] at H
    exact H
  | succ n ih =>
    have hi : i < s.xs.length := by omega
    have hlt : s.pos + i < s.chunks.length * K := by unfold DV.stop at hle; omega
    obtain ⟨a, ha⟩ := chunk_some hK hlt
    have hl := locate_pos (K := K) (p := s.pos) (i := i) hK
    have h1 : locate K x i st = .ok (a, (s.pos + i) % K) st := by
      simp only [locate, M.bind_apply, getObj_some ho, DV.obj]
      rw [chunkAt_ok (j := (s.pos + i) / K) (by rw [← hl.1]) ha]
      simp [hl.2]
    have hc : cell (s.pos + i) (s.xs.drop i) (s.pos + i) = some s.xs[i] := by simp [cell, hi]
    unfold forN
    simp only [M.bind_apply, h1]
    rw [heap_destroy hK H ha hc]
    simp only []
    have H' := heap_write (w := none) hK hnd H ha
    rw [← cell_tail, List.tail_drop] at H'
    obtain ⟨m', h2, h3, h4⟩ := ih (i := i + 1)
      (st := { st with mem := upd st.mem a (some { blk K (cell (s.pos + i) (s.xs.drop i)) ((s.pos + i) / K) with slot := upd (blk K (cell (s.pos + i) (s.xs.drop i)) ((s.pos + i) / K)).slot ((s.pos + i) % K) none }) })
      ho (by omega) H'
    refine ⟨m', h2, h3, ?_⟩
    intro c hcn
    rw [h4 c hcn]
    have : c ≠ a := by rintro rfl; exact hcn (List.mem_of_getElem? ha)
    simp [this]

/-- Layout after clear. -/
def DV.cleared (K : Nat) (s : DV V) : DV V :=
  { s with pos := K * (s.chunks.length / 2) + K / 2, xs := [] }

theorem cleared_obj (hK : 2 ≤ K) (s : DV V) : (s.cleared K).obj K =
    ⟨K / 2, K / 2 - 1, s.chunks.length / 2, (s.chunks.length / 2 : Nat), 0, s.ccap, s.chunks⟩ := by
  have h1 := dm (K := K) (q := s.chunks.length / 2) (r := K / 2) (by omega)
  have h2 := back_pos (K := K) (e := K * (s.chunks.length / 2) + K / 2) (by omega) (by rw [h1.2]; omega)
  have hs : (s.cleared K).stop = K * (s.chunks.length / 2) + K / 2 := by simp [DV.stop, DV.cleared]
  simp only [DV.obj, hs, h2, h1]
  simp [DV.cleared, h1]

theorem clear_raw (hK : 2 ≤ K) (ho : st.objs x = some (s.obj K)) (hnd : s.chunks.Nodup)
    (hle : s.stop ≤ s.chunks.length * K) (H : Heap K st.mem s.chunks (cell s.pos s.xs)) :
    ∃ m', clear K x st = .ok () ⟨upd st.objs x (some ((s.cleared K).obj K)), m', st.next, st.thr⟩ ∧
      Heap K m' s.chunks (fun _ => none) ∧ ∀ c, c ∉ s.chunks → m' c = st.mem c := by
  obtain ⟨m', h1, h2, h3⟩ := destroyLoop (n := s.xs.length) (i := 0) (by omega) ho hnd hle (by omega)
    (by simpa using H)
  refine ⟨m', ?_, h2, h3⟩
  simp only [clear, size, M.bind_apply, getObj_some ho, M.pure_apply]
  rw [show (s.obj K).size = s.xs.length from rfl, h1]
  simp only []
  rw [getObj_some (by exact ho)]
  simp only []
  rw [setObj_some (by exact ho), cleared_obj hK]
  rfl

theorem clear_spec (hK : 2 ≤ K) (W : DW K st σ) (hx : σ x = some s) :
    ∃ st', clear K x st = .ok () st' ∧ DW K st' (upd σ x (some (s.cleared K))) := by
  have hnE := W_ne W hx
  have hnd := W_nodup W hx
  obtain ⟨m', h1, h2, h3⟩ := clear_raw hK (W_obj W hx) hnd (W_le W hx) (W_heap W hx)
  refine ⟨_, h1, W.step1 x ((s.cleared K).obj K) (s.cleared K) rfl ?_ ?_ ?_ ?_ ?_ W.thr⟩
  · refine ⟨rfl, hnd, hnE, ?_, ?_⟩
    · have : 0 < s.chunks.length := List.length_pos_iff.2 hnE
      simp only [DV.stop, DV.cleared, List.length_nil]
      have h4 : s.chunks.length / 2 + 1 ≤ s.chunks.length := by omega
      have h5 := Nat.mul_le_mul_right K h4
      rw [Nat.add_mul, Nat.mul_comm _ K] at h5
      omega
    · simp only [DV.cleared, cell_nil]; exact h2
  · intro a h1 _; simp [hx] at h1; exact h3 a h1
  · intro a ha; left; simpa [hx, DV.cleared] using ha
  · intro a h1 h2; simp [hx] at h1; exact absurd h1 h2
  · intro a ha
    simp only [] at ha ⊢
    rw [h3 a]
    · exact W.fresh a ha
    · intro hc
      have := W.lt_next (x := x) (a := a) (by simpa [hx] using hc); omega

theorem ctor_spec (hK : 2 ≤ K) (W : DW K st σ) (hx : σ x = none) :
    ∃ st', ctor K x st = .ok () st' ∧ DW K st' (upd σ x (some ⟨[st.next], 1, K / 2, []⟩)) := by
  have hd := W.dom x hx
  unfold ctor
  simp only [M.bind_apply, newObj_none hd]
  have hobj : DV.obj K (⟨[st.next], 1, K / 2, []⟩ : DV V) = ⟨K / 2, K / 2 - 1, 0, 0, 0, 1, [st.next]⟩ := by
    have h1 := Nat.mod_eq_of_lt (show K / 2 < K by omega)
    have h2 := Nat.div_eq_of_lt (show K / 2 < K by omega)
    have h3 := back_pos (K := K) (e := K / 2) (by omega) (by omega)
    simp [DV.obj, DV.stop, h1, h2]
    rw [h3.1, h1]
    refine ⟨rfl, ?_⟩
    have := h3.2
    rw [h2] at this
    rw [← Int.natCast_ediv] at *
    omega
  rw [M.onThrow_of_ok (s' := ⟨upd st.objs x (some (DV.obj K (⟨[st.next], 1, K / 2, []⟩ : DV V))),
    upd st.mem st.next (some ⟨K, fun _ => none⟩), st.next + 1, st.thr⟩) (a := ())]
  · refine ⟨_, rfl, W.step1 x _ _ rfl ?_ ?_ ?_ ?_ ?_ W.thr⟩
    · refine ⟨rfl, by simp, by simp, by simp [DV.stop]; omega, ?_⟩
      intro j a ha
      cases j with
      | zero =>
        simp at ha; subst ha
        simp only [upd_same, cell_nil]
        rw [blk_empty (fun _ _ _ => rfl)]
      | succ j => simp at ha
    · intro a _ h; simp at h; simp [h]
    · intro a h; simp at h; right; omega
    · intro a h; simp [hx] at h
    · intro a ha; simp only [] at ha; simp [show a ≠ st.next by omega]; exact W.fresh a (by omega)
  · simp only [M.bind_apply, hobj]
    rw [allocArr_ok (by exact W.thr)]
    simp only []
    rw [getObj_some (by exact upd_same _ _ _)]
    simp only []
    rw [setObj_some (by exact upd_same _ _ _)]
    simp only []
    rw [chunksPush_ok (by exact upd_same _ _ _) (by exact W.thr)]
    simp only []
    rw [getObj_some (by exact upd_same _ _ _)]
    simp only []
    rw [setObj_some (by exact upd_same _ _ _)]
    simp only [upd_upd]
    simp [growCap]

theorem freeChunks_ok {ch : List Nat} (hnd : ch.Nodup)
    (h : ∀ a ∈ ch, st.mem a = some ⟨K, fun _ => none⟩) :
    ∃ m', freeChunks K ch st = .ok () { st with mem := m' } ∧ (∀ a ∈ ch, m' a = none) ∧
      ∀ a, a ∉ ch → m' a = st.mem a := by
  induction ch generalizing st with
  | nil => exact ⟨st.mem, rfl, by simp, fun _ _ => rfl⟩
  | cons b ch ih =>
    simp only [List.nodup_cons] at hnd
    obtain ⟨m', h1, h2, h3⟩ := ih (st := { st with mem := upd st.mem b none }) hnd.2 (by
      intro a ha
      have : a ≠ b := by rintro rfl; exact hnd.1 ha
      simp [this]; exact h a (by simp [ha]))
    refine ⟨m', ?_, ?_, ?_⟩
    · simp only [freeChunks, M.bind_apply]
      rw [freeArr_ok (h b (by simp)) rfl (fun _ _ => rfl)]
      exact h1
    · intro a ha
      by_cases hab : a ∈ ch
      · exact h2 a hab
      · have : a = b := by simpa [hab] using ha
        subst this
        rw [h3 a hab]; simp
    · intro a ha
      simp at ha
      rw [h3 a ha.2]; simp [ha.1]

theorem dtor_spec (hK : 2 ≤ K) (W : DW K st σ) (hx : σ x = some s) :
    ∃ st', dtor K x st = .ok () st' ∧ DW K st' (upd σ x none) := by
  have hnd := W_nodup W hx
  obtain ⟨m', h1, h2, h3⟩ := clear_raw hK (W_obj W hx) hnd (W_le W hx) (W_heap W hx)
  obtain ⟨m2, h4, h5, h6⟩ := freeChunks_ok (K := K) (ch := s.chunks)
    (st := ⟨upd st.objs x (some ((s.cleared K).obj K)), m', st.next, st.thr⟩) hnd (by
      intro a ha
      obtain ⟨j, hj⟩ := List.mem_iff_getElem?.1 ha
      simp only []
      rw [h2 j a hj, blk_empty (fun _ _ _ => rfl)])
  have : dtor K x st = .ok () ⟨upd st.objs x none, m2, st.next, st.thr⟩ := by
    simp only [dtor, M.bind_apply, h1]
    rw [getObj_some (by exact upd_same _ _ _)]
    simp only []
    rw [show ((s.cleared K).obj K).chunks = s.chunks from rfl, h4]
    simp only []
    rw [delObj_some (by exact upd_same _ _ _)]
    simp only [upd_upd]
  refine ⟨_, this, W.stepDel x rfl ?_ ?_ ?_ W.thr⟩
  · intro a ha; simp [hx] at ha; simp only []; rw [h6 a ha]; exact h3 a ha
  · intro a ha; simp [hx] at ha; exact h5 a ha
  · intro a ha
    simp only [] at ha ⊢
    have hn : a ∉ s.chunks := by
      intro hc
      have := W.lt_next (x := x) (a := a) (by simpa [hx] using hc); omega
    rw [h6 a hn]; simp only []; rw [h3 a hn]; exact W.fresh a ha

/-! ### Sequences of push_back -/

/-- The back chunk is the last one. -/
def DV.lastC (K : Nat) (s : DV V) : Prop := s.chunks.length * K < s.stop + K

theorem DV.lastC.noFault (hK : 0 < K) (h : s.lastC K) (hle : s.stop ≤ s.chunks.length * K) : ¬ s.fault K := by
  rintro ⟨h1, h2⟩
  unfold DV.lastC at h
  obtain ⟨q, r, he, hr, _, h3⟩ := split K s.stop hK
  have : r = 0 := by omega
  subst this
  have hq : q < s.chunks.length := by
    apply Classical.byContradiction; intro hc
    have := Nat.mul_le_mul_right K (show s.chunks.length ≤ q by omega)
    rw [Nat.mul_comm q] at this; omega
  have := Nat.mul_le_mul_right K (show q + 1 ≤ s.chunks.length by omega)
  rw [Nat.add_mul, Nat.mul_comm q] at this
  omega

theorem pushB_stop (s : DV V) (v : V) (a : Nat) : (s.pushB K v a).stop = s.stop + 1 := by
  unfold DV.pushB; split <;> simp [DV.stop] <;> omega
theorem pushB_xs (s : DV V) (v : V) (a : Nat) : (s.pushB K v a).xs = s.xs ++ [v] := by
  unfold DV.pushB; split <;> rfl

theorem DV.lastC.push (h : s.lastC K) (a : Nat) : (s.pushB K v a).lastC K := by
  unfold DV.lastC at *
  rw [pushB_stop]
  unfold DV.pushB
  split
  · simp [Nat.add_mul]; omega
  · simp only []; omega

theorem pushAll_spec (hK : 2 ≤ K) (P : Nat → DV V → Prop)
    (hP : ∀ k s v a, s.stop ≤ s.chunks.length * K → P (k+1) s → ¬ s.fault K ∧ P k (s.pushB K v a))
    {vs : List V} (W : DW K st σ) (hx : σ x = some s) (h : P vs.length s) :
    ∃ st' s', pushAll K x vs st = .ok () st' ∧ DW K st' (upd σ x (some s')) ∧ s'.xs = s.xs ++ vs ∧ P 0 s' := by
  induction vs generalizing st σ s with
  | nil => exact ⟨st, s, rfl, by rw [upd_eq_self hx]; exact W, by simp, h⟩
  | cons v vs ih =>
    obtain ⟨h1, _⟩ := hP vs.length s v 0 (W_le W hx) h
    obtain ⟨st1, h2, W1⟩ := pushBack_spec (v := v) (r := .ext v) hK W hx h1 (fun _ _ => rfl)
    obtain ⟨st2, s2, h3, W2, h4, h5⟩ := ih W1 (upd_same _ _ _) (hP vs.length s v st.next (W_le W hx) h).2
    refine ⟨st2, s2, by simp [pushAll, h2, h3], by rwa [upd_upd] at W2, ?_, h5⟩
    rw [h4, pushB_xs]; simp

/-- A reference to an element stays readable while storage is only added. -/
theorem cell_read (hK : 0 < K) (W : DW K st σ) (hy : σ y = some sy) {i : Nat} (hv : sy.xs[i]? = some v) :
    ∃ a, locate K y i st = .ok (a, (sy.pos + i) % K) st ∧
      ∀ st' : DSt V, (∀ a b, st.mem a = some b → st'.mem a = some b) →
        (Ref.cell a ((sy.pos + i) % K) : Ref V).read st' = .ok v st' := by
  have hi : i < sy.xs.length := by grind
  obtain ⟨a, ha, hl⟩ := locate_spec hK W hy (idx_lt W hy hi)
  refine ⟨a, hl, ?_⟩
  intro st' h
  refine load_ok (h _ _ (W_heap W hy _ _ ha)) (Nat.mod_lt _ hK) ?_
  rw [blk_slot hK, cell_at, hv]

theorem pushFrom_le (hK : 2 ≤ K) (P : Nat → DV V → Prop)
    (hP : ∀ k s v a, s.stop ≤ s.chunks.length * K → P (k+1) s → ¬ s.fault K ∧ P k (s.pushB K v a))
    {n i : Nat} (W : DW K st σ) (hx : σ x = some s) (hy : σ y = some sy) (hxy : x ≠ y)
    (hn : i + n ≤ sy.xs.length) (h : P n s) :
    ∃ st' s', pushFrom K x y i n st = .ok () st' ∧ DW K st' (upd σ x (some s')) ∧
      s'.xs = s.xs ++ (sy.xs.drop i).take n ∧ P 0 s' := by
  induction n generalizing st σ s i with
  | zero => exact ⟨st, s, rfl, by rw [upd_eq_self hx]; exact W, by simp, h⟩
  | succ n ih =>
    have hi : i < sy.xs.length := by omega
    obtain ⟨h1, _⟩ := hP n s sy.xs[i] 0 (W_le W hx) h
    obtain ⟨a, hl, hr⟩ := cell_read (i := i) (v := sy.xs[i]) (by omega) W hy (by simp)
    obtain ⟨st1, h2, W1⟩ := pushBack_spec hK W hx h1 hr
    obtain ⟨st2, s2, h3, W2, h4, h5⟩ := ih (i := i + 1) W1 (upd_same _ _ _)
      (by simp [Ne.symm hxy, hy]) (by omega) (hP n s sy.xs[i] st.next (W_le W hx) h).2
    refine ⟨st2, s2, by simp only [pushFrom, M.bind_apply, hl, h2, h3], by rwa [upd_upd] at W2, ?_, h5⟩
    rw [h4, pushB_xs, List.append_assoc]
    have : sy.xs.drop i = sy.xs[i] :: sy.xs.drop (i+1) := by simp
    rw [this]; rfl

theorem pushFrom_spec (hK : 2 ≤ K) (P : Nat → DV V → Prop)
    (hP : ∀ k s v a, s.stop ≤ s.chunks.length * K → P (k+1) s → ¬ s.fault K ∧ P k (s.pushB K v a))
    {n i : Nat} (W : DW K st σ) (hx : σ x = some s) (hy : σ y = some sy) (hxy : x ≠ y)
    (hn : i + n = sy.xs.length) (h : P n s) :
    ∃ st' s', pushFrom K x y i n st = .ok () st' ∧ DW K st' (upd σ x (some s')) ∧
      s'.xs = s.xs ++ sy.xs.drop i ∧ P 0 s' := by
  obtain ⟨st', s', h1, h2, h3, h4⟩ := pushFrom_le hK P hP W hx hy hxy (Nat.le_of_eq hn) h
  refine ⟨st', s', h1, h2, ?_, h4⟩
  rw [h3, List.take_of_length_le (by rw [List.length_drop]; omega)]

theorem lastC_step (hK : 0 < K) : ∀ (_ : Nat) (s : DV V) (v : V) (a : Nat), s.stop ≤ s.chunks.length * K →
    s.lastC K → ¬ s.fault K ∧ (s.pushB K v a).lastC K :=
  fun _ _ _ a h1 h2 => ⟨h2.noFault hK h1, h2.push a⟩

theorem ctor_lastC (hK : 2 ≤ K) (a : Nat) : (⟨[a], 1, K / 2, []⟩ : DV V).lastC K := by
  simp [DV.lastC, DV.stop]; omega

theorem ctorList_spec (hK : 2 ≤ K) {vs : List V} (W : DW K st σ) (hx : σ x = none) :
    ∃ st' s', ctorList K x vs st = .ok () st' ∧ DW K st' (upd σ x (some s')) ∧ s'.xs = vs ∧ s'.lastC K := by
  obtain ⟨st1, h1, W1⟩ := ctor_spec hK W hx
  obtain ⟨st2, s2, h2, W2, h3, h4⟩ := pushAll_spec hK (fun _ s => s.lastC K)
    (lastC_step (by omega)) (vs := vs) W1 (upd_same _ _ _) (ctor_lastC hK _)
  refine ⟨st2, s2, ?_, by rwa [upd_upd] at W2, by simpa using h3, h4⟩
  simp only [ctorList, M.bind_apply, h1]
  exact M.onThrow_of_ok h2

theorem copyCtor_spec (hK : 2 ≤ K) (W : DW K st σ) (hx : σ x = none) (hy : σ y = some sy) :
    ∃ st' s', copyCtor K x y st = .ok () st' ∧ DW K st' (upd σ x (some s')) ∧ s'.xs = sy.xs ∧ s'.lastC K := by
  have hxy : x ≠ y := by rintro rfl; rw [hx] at hy; cases hy
  obtain ⟨st1, h1, W1⟩ := ctor_spec hK W hx
  have hy1 : (upd σ x (some (⟨[st.next], 1, K / 2, []⟩ : DV V))) y = some sy := by simp [Ne.symm hxy, hy]
  obtain ⟨st2, s2, h2, W2, h3, h4⟩ := pushFrom_spec hK (fun _ s => s.lastC K)
    (lastC_step (by omega)) (n := sy.xs.length) (i := 0) W1 (upd_same _ _ _) hy1 hxy (by omega) (ctor_lastC hK _)
  refine ⟨st2, s2, ?_, by rwa [upd_upd] at W2, by simpa using h3, h4⟩
  simp only [copyCtor, M.bind_apply, h1]
  refine M.onThrow_of_ok ?_
  simp only [M.bind_apply, size_spec W1 hy1, h2]

/-- Copy assignment works when the cleared target keeps its back chunk last (at most two chunks) or the
source fits into the second half of the middle chunk. -/
def DV.roomFor (K : Nat) (s : DV V) (n : Nat) : Prop := s.chunks.length ≤ 2 ∨ n ≤ K - K / 2

theorem cleared_lastC (hK : 2 ≤ K) (hne : s.chunks ≠ []) (h : s.chunks.length ≤ 2) : (s.cleared K).lastC K := by
  have h0 : 0 < s.chunks.length := List.length_pos_iff.2 hne
  simp only [DV.lastC, DV.stop, DV.cleared, List.length_nil]
  rcases (show s.chunks.length = 1 ∨ s.chunks.length = 2 by omega) with h | h <;> rw [h] <;> simp <;> omega

theorem room_step (hK : 0 < K) : ∀ (k : Nat) (s : DV V) (v : V) (a : Nat), s.stop ≤ s.chunks.length * K →
    (k + 1 = 0 ∨ (s.stop % K ≠ 0 ∧ s.stop % K + (k + 1) ≤ K)) →
    ¬ s.fault K ∧ (k = 0 ∨ ((s.pushB K v a).stop % K ≠ 0 ∧ (s.pushB K v a).stop % K + k ≤ K)) := by
  intro k s v a _ h
  rcases h with h | ⟨h1, h2⟩
  · omega
  · refine ⟨fun hf => h1 hf.1, ?_⟩
    by_cases hk : k = 0
    · left; exact hk
    · right
      rw [pushB_stop, (succ_mid hK (show s.stop % K ≠ K - 1 by omega)).1]
      omega

theorem assign_spec (hK : 2 ≤ K) (W : DW K st σ) (hx : σ x = some s) (hy : σ y = some sy) (hxy : x ≠ y)
    (hroom : s.roomFor K sy.xs.length) :
    ∃ st' s', assign K x y st = .ok () st' ∧ DW K st' (upd σ x (some s')) ∧ s'.xs = sy.xs ∧
      (s.chunks.length ≤ 2 → s'.lastC K) := by
  obtain ⟨st1, h1, W1⟩ := clear_spec hK W hx
  have hy1 : (upd σ x (some (s.cleared K))) y = some sy := by simp [Ne.symm hxy, hy]
  by_cases h2 : s.chunks.length ≤ 2
  · obtain ⟨st2, s2, h3, W2, h4, h5⟩ := pushFrom_spec hK (fun _ s => s.lastC K)
      (lastC_step (by omega)) (n := sy.xs.length) (i := 0) W1 (upd_same _ _ _) hy1 hxy (by omega)
      (cleared_lastC hK (W_ne W hx) h2)
    refine ⟨st2, s2, ?_, by rwa [upd_upd] at W2, by rw [h4]; simp [DV.cleared], fun _ => h5⟩
    simp only [assign, M.bind_apply, h1, size_spec W1 hy1, h3]
  · have hlen : sy.xs.length ≤ K - K / 2 := by
      rcases hroom with h | h
      · exact absurd h h2
      · exact h
    have hmod : (s.cleared K).stop % K = K / 2 := by
      have := dm (K := K) (q := s.chunks.length / 2) (r := K / 2) (by omega)
      simp only [DV.stop, DV.cleared, List.length_nil, Nat.add_zero]; exact this.2
    obtain ⟨st2, s2, h3, W2, h4, h5⟩ := pushFrom_spec hK
      (fun k s => k = 0 ∨ (s.stop % K ≠ 0 ∧ s.stop % K + k ≤ K))
      (room_step (by omega)) (n := sy.xs.length) (i := 0) W1 (upd_same _ _ _) hy1 hxy (by omega)
      (by rw [hmod]; omega)
    refine ⟨st2, s2, ?_, by rwa [upd_upd] at W2, by rw [h4]; simp [DV.cleared], fun h => absurd h h2⟩
    simp only [assign, M.bind_apply, h1, size_spec W1 hy1, h3]

/-- Self-assignment empties the deque. -/
theorem assign_self (hK : 2 ≤ K) (W : DW K st σ) (hx : σ x = some s) :
    ∃ st', assign K x x st = .ok () st' ∧ DW K st' (upd σ x (some (s.cleared K))) := by
  obtain ⟨st1, h1, W1⟩ := clear_spec hK W hx
  refine ⟨st1, ?_, W1⟩
  simp only [assign, M.bind_apply, h1, size_spec W1 (upd_same _ _ _)]
  simp [DV.cleared, pushFrom]

/-! ### push_back at the fault -/

theorem pushBack_fault (hK : 2 ≤ K) (W : DW K st σ) (hx : σ x = some s) (hf : s.fault K) {r : Ref V}
    (hr : ∀ st' : DSt V, (∀ a b, st.mem a = some b → st'.mem a = some b) → r.read st' = .ok v st') :
    ∃ u, (do pushBack K x r; get K x s.xs.length : DM V V) st = .ub u := by
  have hK0 : 0 < K := by omega
  obtain ⟨hz, hne⟩ := hf
  have hle := W_le W hx
  have ho := W_obj W hx
  obtain ⟨h1, h2⟩ := back_zero hK0 hz
  have e1 : (s.obj K).back = K - 1 := h1
  have e2 : ¬ (s.obj K).bchunk = ((s.obj K).chunks.length : Int) - 1 := by
    show ¬ (((s.stop + K - 1) / K : Nat) : Int) - 1 = (s.chunks.length : Int) - 1
    rw [h2]
    intro h
    exact hne ((full_iff hK0 hz).1 (by omega))
  have hh : pushBackHelper K x st = .ok () { st with objs := upd st.objs x (some { s.obj K with back := 0, size := s.xs.length + 1 }) } := by
    simp only [pushBackHelper, M.bind_apply, getObj_some ho]
    rw [if_pos e1, if_neg e2]
    simp only [M.bind_apply, getObj_some ho]
    rw [setObj_some (by exact ho)]
    simp only []
    rw [getObj_some (by exact upd_same _ _ _)]
    simp only []
    rw [setObj_some (by exact upd_same _ _ _)]
    simp only [upd_upd]
    rfl
  simp only [pushBack, M.bind_apply, hh]
  rw [getObj_some (by exact upd_same _ _ _)]
  simp only []
  have hb : (s.obj K).bchunk = ((s.stop / K : Nat) : Int) - 1 := by
    show (((s.stop + K - 1) / K : Nat) : Int) - 1 = _
    rw [h2]
  by_cases hq : s.stop / K = 0
  · rw [chunkAt_neg (by simp only [hb, hq]; omega)]
    exact ⟨_, rfl⟩
  · have hqn : s.stop / K < s.chunks.length := (lt_chunks hK0).2 (by omega)
    obtain ⟨a0, ha⟩ : ∃ a0, s.chunks[s.stop / K - 1]? = some a0 :=
      ⟨s.chunks[s.stop / K - 1]'(Nat.lt_of_le_of_lt (Nat.sub_le _ _) hqn), by simp⟩
    have hb' : (s.obj K).bchunk = ((s.stop / K - 1 : Nat) : Int) := by
      rw [hb]; generalize s.stop / K = q at hq; omega
    rw [chunkAt_ok (j := s.stop / K - 1) (by exact hb') (by exact ha)]
    simp only []
    rw [hr _ (by exact fun _ _ h => h)]
    simp only []
    have hH := W_heap W hx
    have hd := dm (K := K) (q := s.stop / K - 1) (r := 0) hK0
    have ha' : s.chunks[(K * (s.stop / K - 1) + 0) / K]? = some a0 := by rw [hd.1]; exact ha
    cases hc : cell s.pos s.xs (K * (s.stop / K - 1) + 0) with
    | some w =>
      refine ⟨.liveConstruct, ?_⟩
      have hb := hH _ _ ha
      have hs : (blk K (cell s.pos s.xs) (s.stop / K - 1)).slot 0 = some w := by
        simp [blk, hK0]; exact hc
      simp [constructAt, withSlot, getC, hb, hs, show 0 < (blk K (cell s.pos s.xs) (s.stop / K - 1)).len from hK0]
    | none =>
      have := heap_construct (v := v) (ch := s.chunks) (g := K * (s.stop / K - 1) + 0)
        (st := { st with objs := upd st.objs x (some { s.obj K with back := 0, size := s.xs.length + 1 }) })
        hK0 (by exact hH) ha' hc W.thr
      rw [hd.2] at this
      rw [this]
      simp only []
      have H2 := heap_write (w := some v) hK0 (W_nodup W hx) hH ha'
      rw [hd.2] at H2
      obtain ⟨c, hcc⟩ := chunk_some (ch := s.chunks) (g := s.stop) hK0 (by omega)
      refine ⟨.deadRead, ?_⟩
      have hl := locate_pos (K := K) (p := s.pos) (i := s.xs.length) hK0
      simp only [get, locate, M.bind_apply]
      rw [getObj_some (by exact upd_same _ _ _)]
      simp only []
      rw [chunkAt_ok (j := s.stop / K) (by simp only [DV.obj]; rw [hl.1]; rfl) (by exact hcc)]
      simp only [M.pure_apply]
      rw [show ((s.obj K).front + s.xs.length) % K = s.stop % K by simp only [DV.obj]; exact hl.2]
      refine heap_loadDead hK0 H2 hcc ?_
      simp only [upd_apply]
      rw [if_neg, cell_after (by unfold DV.stop; omega)]
      intro hc
      rw [hc, hd.1] at hq
      have := congrArg (· / K) hc
      simp only [hd.1] at this
      omega

end Cest.Deq
