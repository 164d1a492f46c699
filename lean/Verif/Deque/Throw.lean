import Verif.Deque.Props
/-
Exceptions inside deque members: properties C82–C84.
-/
namespace Cest.Deq
open Cest
variable {V : Type}
variable {K : Nat} {st : DSt V} {σ : Nat → Option (DV V)} {x y : Nat} {s sy : DV V} {v : V}

theorem pushBackHelper_mid (hK : 2 ≤ K) (ho : st.objs x = some (s.obj K)) (hz : s.stop % K ≠ 0) :
    pushBackHelper K x st =
      .ok () { st with objs := upd st.objs x (some (DV.obj K { s with xs := s.xs ++ [v] })) } := by
  have hK0 : 0 < K := by omega
  obtain ⟨h1, h2⟩ := back_pos hK0 hz
  have hlt := Nat.mod_lt s.stop hK0
  have e1 : (s.obj K).back ≠ K - 1 := by
    show (s.stop + K - 1) % K ≠ _
    rw [h1]; omega
  simp only [pushBackHelper, M.bind_apply, getObj_some ho]
  rw [if_neg e1]
  simp only [M.bind_apply]
  rw [setObj_some (by exact ho)]
  simp only []
  rw [getObj_some (by exact upd_same _ _ _)]
  simp only []
  rw [setObj_some (by exact upd_same _ _ _)]
  simp only [upd_upd]
  have : DV.obj K ({ s with xs := s.xs ++ [v] } : DV V) = { s.obj K with
      back := (s.obj K).back + 1, size := (s.obj K).size + 1 } := by
    unfold DV.obj
    rw [stop_push]
    rw [show s.stop + 1 + K - 1 = s.stop + K by omega, Nat.add_mod_right, Nat.add_div_right _ hK0, h1, h2]
    simp
    omega
  rw [this]

theorem heap_construct_throw {g a : Nat} {ch : List Nat} {c : Nat → Option V}
    (hK : 0 < K) (H : Heap K st.mem ch c) (ha : ch[g / K]? = some a) (hv : c g = none) (ht : st.thr = some 0) :
    constructAt (some a) (g % K) v st = .throw .elem { st with thr := none } := by
  have h1 : (blk K c (g / K)).slot (g % K) = none := by rw [blk_slot hK, hv]
  simp [constructAt, withSlot, getC_some (H _ _ ha), h1, show g % K < (blk K c (g/K)).len from Nat.mod_lt _ hK,
    tick, ht]

theorem heap_destroyDead {g a : Nat} {ch : List Nat} {c : Nat → Option V}
    (hK : 0 < K) (H : Heap K st.mem ch c) (ha : ch[g / K]? = some a) (hv : c g = none) :
    destroyAt (some a) (g % K) st = .ub .deadDestroy := by
  have h1 : (blk K c (g / K)).slot (g % K) = none := by rw [blk_slot hK, hv]
  simp [destroyAt, withSlot, getC_some (H _ _ ha), h1, show g % K < (blk K c (g/K)).len from Nat.mod_lt _ hK]

/-- Destroying the elements of a deque whose size is one too large. -/
theorem destroyLoop_dead {n i : Nat} {o : Obj} (hK : 0 < K) (ho : st.objs x = some o)
    (h1 : o.front = s.pos % K) (h2 : o.fchunk = s.pos / K) (h3 : o.chunks = s.chunks) (hnd : s.chunks.Nodup)
    (hle : s.stop < s.chunks.length * K) (hn : i + n = s.xs.length)
    (H : Heap K st.mem s.chunks (cell (s.pos + i) (s.xs.drop i))) :
    forN (fun i => do
        let (a, j) ← locate K x i
        destroyAt (some a) j) i (n + 1) st = .ub .deadDestroy := by
  induction n generalizing i st with
  | zero =>
    obtain ⟨a, ha⟩ := chunk_some (ch := s.chunks) (g := s.pos + i) hK (by unfold DV.stop at hle; omega)
    have hl := locate_pos (K := K) (p := s.pos) (i := i) hK
    have hloc : locate K x i st = .ok (a, (s.pos + i) % K) st := by
      simp only [locate, M.bind_apply, getObj_some ho]
      rw [chunkAt_ok (j := (s.pos + i) / K) (by rw [← hl.1, h1, h2]) (by rw [h3]; exact ha)]
      simp [h1, hl.2]
    unfold forN
    simp only [M.bind_apply, hloc]
    rw [heap_destroyDead hK H ha (cell_after (by simp; omega))]
  | succ n ih =>
    have hi : i < s.xs.length := by omega
    have hlt : s.pos + i < s.chunks.length * K := by unfold DV.stop at hle; omega
    obtain ⟨a, ha⟩ := chunk_some hK hlt
    have hl := locate_pos (K := K) (p := s.pos) (i := i) hK
    have hloc : locate K x i st = .ok (a, (s.pos + i) % K) st := by
      simp only [locate, M.bind_apply, getObj_some ho]
      rw [chunkAt_ok (j := (s.pos + i) / K) (by rw [← hl.1, h1, h2]) (by rw [h3]; exact ha)]
      simp [h1, hl.2]
    have hc : cell (s.pos + i) (s.xs.drop i) (s.pos + i) = some s.xs[i] := by simp [cell, hi]
    unfold forN
    simp only [M.bind_apply, hloc]
    rw [heap_destroy hK H ha hc]
    simp only []
    have H' := heap_write (w := none) hK hnd H ha
    rw [← cell_tail, List.tail_drop] at H'
    exact ih (i := i + 1)
      (st := { st with mem := upd st.mem a (some { blk K (cell (s.pos + i) (s.xs.drop i)) ((s.pos + i) / K) with slot := upd (blk K (cell (s.pos + i) (s.xs.drop i)) ((s.pos + i) / K)).slot ((s.pos + i) % K) none }) })
      ho (by omega) H'

theorem pushBack_throw (hK : 2 ≤ K) {σ} (W : DW K st σ) {s : DV V} (hx' : σ x = some s) (hz : s.stop % K ≠ 0) :
    pushBack K x (.ext v) { st with thr := some 0 } = .throw .elem
      { st with objs := upd st.objs x (some (DV.obj K { s with xs := s.xs ++ [v] })), thr := none } := by
  have hK0 : 0 < K := by omega
  have hle := W_le W hx'
  have hob := W_obj W hx'
  have hH := W_heap W hx'
  have hlt : s.stop < s.chunks.length * K := by
    apply Nat.lt_of_le_of_ne hle
    intro h; rw [h] at hz; simp at hz
  obtain ⟨a, ha⟩ := chunk_some hK0 hlt
  have hs1 : DV.stop ({ s with xs := s.xs ++ [v] } : DV V) = s.stop + 1 := stop_push s
  have hbk : (DV.obj K ({ s with xs := s.xs ++ [v] } : DV V)).back = s.stop % K := by
    unfold DV.obj
    rw [hs1, show s.stop + 1 + K - 1 = s.stop + K by omega]
    simp only [Nat.add_mod_right]
  have hbc : (DV.obj K ({ s with xs := s.xs ++ [v] } : DV V)).bchunk = ((s.stop / K : Nat) : Int) := by
    unfold DV.obj
    rw [hs1, show s.stop + 1 + K - 1 = s.stop + K by omega]
    simp only [Nat.add_div_right _ hK0]
    generalize s.stop / K = q
    omega
  have hdead : cell s.pos s.xs s.stop = none := cell_after (by unfold DV.stop; omega)
  simp only [pushBack, M.bind_apply]
  rw [pushBackHelper_mid (v := v) hK (by exact hob) hz]
  simp only []
  rw [getObj_some (by exact upd_same _ _ _)]
  simp only []
  rw [chunkAt_ok (j := s.stop / K) hbc (by exact ha)]
  simp only [Ref.read, M.pure_apply]
  rw [hbk, heap_construct_throw hK0 (by exact hH) ha hdead (by rfl)]

/-- **C82 (the part that holds).** If copying the element throws in a push_back that needs no new chunk, the elements
that were there can still be read, and no other deque and no block of memory changes. -/
theorem C82_deque_push_throw_partial (hK : 2 ≤ K) {e : Env V} (h : Reach K st e) {xs : List V}
    (hx : e x = some xs) {o : Obj} (ho : st.objs x = some o) (hb : o.back ≠ K - 1) :
    ∃ st', pushBack K x (.ext v) { st with thr := some 0 } = .throw .elem st' ∧
      (∀ i w, xs[i]? = some w → get K x i st' = .ok w st') ∧
      st'.mem = st.mem ∧ ∀ y, y ≠ x → st'.objs y = st.objs y := by
  have hK0 : 0 < K := by omega
  obtain ⟨σ, W, he⟩ := reach_world hK h
  obtain ⟨s, hx', rfl⟩ := envOf_some he hx
  rw [W_obj W hx'] at ho; cases ho
  have hz : s.stop % K ≠ 0 := fun h => hb ((back_last_iff hK s).2 h)
  refine ⟨_, pushBack_throw hK W hx' hz, fun i w hw => ?_, rfl, fun y hy => by simp [upd, hy]⟩
  have hi : i < s.xs.length := by grind
  obtain ⟨a, ha⟩ := chunk_some hK0 (idx_lt W hx' hi)
  have hl := locate_pos (K := K) (p := s.pos) (i := i) hK0
  simp only [get, locate, M.bind_apply]
  rw [getObj_some (by exact upd_same _ _ _)]
  simp only []
  rw [chunkAt_ok (j := (s.pos + i) / K) (by simp only [DV.obj]; rw [hl.1]) (by exact ha)]
  simp only [M.pure_apply, DV.obj]
  rw [hl.2]
  have hH := W_heap W hx'
  exact heap_load hK0 hH ha (by rw [cell_at, hw])

/-- **C82 (refuted).** push_back has no effect if copying the element throws — fails: in every reachable
state in which no new chunk is needed, the exception leaves a deque that claims one element more, and
pop_back as well as the destructor are then undefined behaviour. -/
theorem C82_deque_push_throw_refuted (hK : 2 ≤ K) {e : Env V} (h : Reach K st e) {xs : List V}
    (hx : e x = some xs) {o : Obj} (ho : st.objs x = some o) (hb : o.back ≠ K - 1) :
    ∃ st', pushBack K x (.ext v) { st with thr := some 0 } = .throw .elem st' ∧
      size x st' = .ok (xs.length + 1) st' ∧
      popBack K x st' = .ub .deadDestroy ∧ dtor K x st' = .ub .deadDestroy := by
  have hK0 : 0 < K := by omega
  obtain ⟨σ, W, he⟩ := reach_world hK h
  obtain ⟨s, hx', rfl⟩ := envOf_some he hx
  rw [W_obj W hx'] at ho; cases ho
  have hz : s.stop % K ≠ 0 := fun h => hb ((back_last_iff hK s).2 h)
  have hle := W_le W hx'
  have hob := W_obj W hx'
  have hH := W_heap W hx'
  have hlt : s.stop < s.chunks.length * K := by
    apply Nat.lt_of_le_of_ne hle
    intro h; rw [h] at hz; simp at hz
  obtain ⟨a, ha⟩ := chunk_some hK0 hlt
  have hs1 : DV.stop ({ s with xs := s.xs ++ [v] } : DV V) = s.stop + 1 := stop_push s
  have hbk : (DV.obj K ({ s with xs := s.xs ++ [v] } : DV V)).back = s.stop % K := by
    unfold DV.obj
    rw [hs1, show s.stop + 1 + K - 1 = s.stop + K by omega]
    simp only [Nat.add_mod_right]
  have hbc : (DV.obj K ({ s with xs := s.xs ++ [v] } : DV V)).bchunk = ((s.stop / K : Nat) : Int) := by
    unfold DV.obj
    rw [hs1, show s.stop + 1 + K - 1 = s.stop + K by omega]
    simp only [Nat.add_div_right _ hK0]
    generalize s.stop / K = q
    omega
  have hdead : cell s.pos s.xs s.stop = none := cell_after (by unfold DV.stop; omega)
  have hpb := pushBack_throw (v := v) hK W hx' hz
  refine ⟨_, hpb, ?_, ?_, ?_⟩
  · simp only [size, M.bind_apply]
    rw [getObj_some (by exact upd_same _ _ _)]
    simp [DV.obj]
  · simp only [popBack, empty, M.bind_apply]
    rw [getObj_some (by exact upd_same _ _ _)]
    simp only [M.pure_apply]
    rw [if_pos (by simp [DV.obj])]
    simp only [M.bind_apply]
    rw [getObj_some (by exact upd_same _ _ _)]
    simp only []
    rw [chunkAt_ok (j := s.stop / K) hbc (by exact ha)]
    simp only []
    rw [hbk, heap_destroyDead hK0 (by exact hH) ha hdead]
  · simp only [dtor, clear, size, M.bind_apply]
    rw [getObj_some (by exact upd_same _ _ _)]
    simp only [M.pure_apply]
    have hsz : (DV.obj K ({ s with xs := s.xs ++ [v] } : DV V)).size = s.xs.length + 1 := by simp [DV.obj]
    rw [hsz]
    rw [destroyLoop_dead (s := s) (n := s.xs.length) (i := 0) hK0 (by exact upd_same _ _ _) rfl rfl rfl (W_nodup W hx') hlt
      (by omega) (by simpa using hH)]

/-- The hypotheses hold for a deque of 2000 elements. -/
example : ∃ st : DSt Nat, ∃ e o, Reach 1024 st e ∧ e 0 = some (List.replicate 2000 7) ∧ st.objs 0 = some o ∧
    o.back ≠ 1024 - 1 := by
  obtain ⟨st, s, σ, hR, W, hs, _, h1, h2, _⟩ := fill_reach (K := 1024) (by omega) 2000 7
  refine ⟨st, _, _, hR, Env.set_eq _ _ _, W_obj W hs, ?_⟩
  simp only [DV.obj, DV.stop, h1, h2, List.length_replicate]
  omega

/-! ### C83, C84: failed allocations -/

/-- **C83.** If the allocation of a new chunk fails, push_back and push_front have no effect. -/
theorem C83_deque_push_bad_alloc (hK : 2 ≤ K) {e : Env V} (h : Reach K st e) {o : Obj} (ho : st.objs x = some o) :
    (o.back = K - 1 → o.bchunk + 1 = o.chunks.length →
      pushBack K x (.ext v) { st with thr := some 0 } = .throw .badAlloc st) ∧
    (o.front = 0 → o.fchunk = 0 →
      pushFront K x (.ext v) { st with thr := some 0 } = .throw .badAlloc st) := by
  obtain ⟨σ, W, he⟩ := reach_world hK h
  have hst : ({ st with thr := none } : DSt V) = st := by
    have := W.thr
    cases st; simp at this ⊢; exact this.symm
  refine ⟨fun h1 h2 => ?_, fun h1 h2 => ?_⟩
  · simp only [pushBack, pushBackHelper, M.bind_apply]
    rw [getObj_some (by exact ho)]
    simp only []
    rw [if_pos h1, if_pos (by omega)]
    simp only [M.bind_apply, allocArr, allocC, tick]
    rw [hst]
  · simp only [pushFront, pushFrontHelper, M.bind_apply]
    rw [getObj_some (by exact ho)]
    simp only []
    rw [if_pos h1, if_pos h2]
    simp only [M.bind_apply, allocArr, allocC, tick]
    rw [hst]

/-- **C84 (the part that holds).** If `m_chunks` cannot grow, the exception leaves every deque and every allocated
block as it was; only the new chunk is left over. -/
theorem C84_deque_push_leak_partial (hK : 2 ≤ K) {e : Env V} (h : Reach K st e) {o : Obj}
    (ho : st.objs x = some o) (h1 : o.back = K - 1)
    (h2 : o.bchunk + 1 = o.chunks.length) (h3 : o.ccap = o.chunks.length) :
    ∃ st' a, pushBack K x (.ext v) { st with thr := some 1 } = .throw .badAlloc st' ∧
      st'.objs = st.objs ∧ st.mem a = none ∧ ∀ b, b ≠ a → st'.mem b = st.mem b := by
  obtain ⟨σ, W, he⟩ := reach_world hK h
  refine ⟨{ st with mem := upd st.mem st.next (some ⟨K, fun _ => none⟩), next := st.next + 1, thr := none },
    st.next, ?_, rfl, W.fresh _ (Nat.le_refl _), fun b hb => by simp [upd, hb]⟩
  simp only [pushBack, pushBackHelper, M.bind_apply]
  rw [getObj_some (by exact ho)]
  simp only []
  rw [if_pos h1, if_pos (by omega)]
  simp only [M.bind_apply, allocArr, allocC, tick, chunksPush]
  rw [getObj_some (by exact ho)]
  simp only []
  rw [if_pos h3]
  simp only [M.bind_apply, tick]

/-- **C84 (refuted).** No storage leaks when push_back throws — fails: if the new chunk is allocated but
`m_chunks` cannot grow, the chunk stays allocated and belongs to no deque (for every reachable state in
which this can happen). -/
theorem C84_deque_push_leak_refuted (hK : 2 ≤ K) {e : Env V} (h : Reach K st e) {o : Obj}
    (ho : st.objs x = some o) (h1 : o.back = K - 1)
    (h2 : o.bchunk + 1 = o.chunks.length) (h3 : o.ccap = o.chunks.length) :
    ∃ st' a, pushBack K x (.ext v) { st with thr := some 1 } = .throw .badAlloc st' ∧
      st'.objs = st.objs ∧ st.mem a = none ∧ st'.mem a ≠ none ∧
      ∀ y oy, st'.objs y = some oy → a ∉ oy.chunks := by
  obtain ⟨σ, W, he⟩ := reach_world hK h
  refine ⟨{ st with mem := upd st.mem st.next (some ⟨K, fun _ => none⟩), next := st.next + 1, thr := none },
    st.next, ?_, rfl, W.fresh _ (Nat.le_refl _), by simp, ?_⟩
  · simp only [pushBack, pushBackHelper, M.bind_apply]
    rw [getObj_some (by exact ho)]
    simp only []
    rw [if_pos h1, if_pos (by omega)]
    simp only [M.bind_apply, allocArr, allocC, tick, chunksPush]
    rw [getObj_some (by exact ho)]
    simp only []
    rw [if_pos h3]
    simp only [M.bind_apply, tick]
  · intro y oy hy hmem
    cases hsy : σ y with
    | none => simp only [] at hy; rw [W.dom y hsy] at hy; cases hy
    | some sy =>
      simp only [] at hy
      rw [W_obj W hsy] at hy; cases hy
      exact next_notin W hsy hmem

/-- The hypotheses of C83 (push_back) and C84 hold after 512 times push_back. -/
example : ∃ st : DSt Nat, ∃ e o, Reach 1024 st e ∧ e 0 = some (List.replicate 512 7) ∧ st.objs 0 = some o ∧
    o.back = 1024 - 1 ∧ o.bchunk + 1 = o.chunks.length ∧ o.ccap = o.chunks.length := by
  obtain ⟨st, s, h1, W, hA, hxs, hpos, hf, hc⟩ := fill_run (x := 0) (K := 1024) (by omega) 512 7
    (World.init (I := dqI 1024 Nat)) (fun _ _ h => by cases h) rfl
  obtain ⟨h2, h3⟩ := hc (by omega)
  refine ⟨st, _, _, ⟨_, _, fill_spec 0 _ 7 rfl, hf, h1⟩, Env.set_eq _ _ _, W_obj W (upd_same _ _ _), ?_, ?_, ?_⟩
  all_goals simp only [DV.obj, DV.stop, hxs, hpos, List.length_replicate, h2, h3]
  all_goals omega

end Cest.Deq
