import Verif.Deque.RefProps
/-
Property C137 for cest::deque: pushing an element that is given by reference and may be in the deque itself.
-/
namespace Cest.Deq
open Cest
variable {V : Type} {K : Nat} {st : DSt V} {x y : Nat} {v : V}

/-! ### Model -/

/-- What moving from element `p[i]` leaves in it; the move itself is `constructAt`. -/
def moveOut (mv : V → V) (p i : Nat) : DM V Unit :=
  withSlot (some p) i fun a b =>
    match b.slot i with
    | none => M.ub .deadRead
    | some v => setC a { b with slot := upd b.slot i (some (mv v)) }

/-- deque.hpp:219-223 `push_back(T&&)`, the argument being slot `i` of chunk `a`. -/
def pushBackMove (mv : V → V) (K x a i : Nat) : DM V Unit := do
  pushBack K x (.cell a i)
  moveOut mv a i

/-- deque.hpp:207-211 `push_front(T&&)`, the argument being slot `i` of chunk `a`. -/
def pushFrontMove (mv : V → V) (K x a i : Nat) : DM V Unit := do
  pushFront K x (.cell a i)
  moveOut mv a i

/-! ### Proofs -/

/-- Allocated blocks other than the next fresh one are unchanged when `m` returns. -/
def Keeps (m : DM V α) : Prop := ∀ st r s, m st = .ok r s →
  (∀ a, a ≠ st.next → s.mem a = st.mem a)

/-- Memory is unchanged when `m` returns. -/
def Still (m : DM V α) : Prop := ∀ st r s, m st = .ok r s → s.mem = st.mem

theorem Still.bind {α β : Type} {m : DM V α} {f : α → DM V β} (h : Still m) (hf : ∀ a, Still (f a)) :
    Still (m >>= f) := by
  intro st r s hs
  rw [M.bind_apply] at hs
  cases hm : m st with
  | ok a s1 => rw [hm] at hs; rw [hf a _ _ _ hs, h _ _ _ hm]
  | throw _ _ => simp [hm] at hs
  | ub _ => simp [hm] at hs
  | timeout => simp [hm] at hs
theorem Keeps.bind {α β : Type} {m : DM V α} {f : α → DM V β} (h : Keeps m) (hf : ∀ a, Still (f a)) :
    Keeps (m >>= f) := by
  intro st r s hs a ha
  rw [M.bind_apply] at hs
  cases hm : m st with
  | ok b s1 => rw [hm] at hs; rw [hf b _ _ _ hs, h _ _ _ hm a ha]
  | throw _ _ => simp [hm] at hs
  | ub _ => simp [hm] at hs
  | timeout => simp [hm] at hs
theorem Keeps.seq {α β : Type} {m : DM V α} {f : α → DM V β} (h : ∀ st r s, m st = .ok r s → s = st)
    (hf : ∀ a, Keeps (f a)) : Keeps (m >>= f) := by
  intro st r s hs a ha
  rw [M.bind_apply] at hs
  cases hm : m st with
  | ok b s1 =>
    rw [hm] at hs
    obtain rfl := h _ _ _ hm
    exact hf b _ _ _ hs a ha
  | throw _ _ => simp [hm] at hs
  | ub _ => simp [hm] at hs
  | timeout => simp [hm] at hs
theorem Still.keeps {α : Type} {m : DM V α} (h : Still m) : Keeps m := fun _ _ _ hs _ _ => by rw [h _ _ _ hs]

theorem getObj_same : ∀ (st : DSt V) r s, getObj x st = .ok r s → s = st := by
  intro st r s h
  cases ho : st.objs x <;> simp_all [getObj]
theorem getObj_still : Still (getObj x : DM V Obj) := fun st r s h => by rw [getObj_same st r s h]
theorem setObj_still (o : Obj) : Still (setObj x o : DM V Unit) := by
  intro st r s h
  cases ho : st.objs x <;> simp [setObj, ho] at h
  rw [← h]
theorem pure_still {α : Type} (a : α) : Still (pure a : DM V α) := by
  intro st r s h; simp at h; rw [← h.2]
theorem ub_still {α : Type} (u : UB) : Still (M.ub u : DM V α) := by
  intro st r s h; cases h
theorem tick_still (e : Exc) : Still (tick e : DM V Unit) := by
  intro st r s h
  cases ht : st.thr with
  | none => simp [tick, ht] at h; rw [← h]
  | some k => cases k <;> simp [tick, ht] at h; rw [← h]
theorem allocArr_keeps (n : Nat) : Keeps (allocArr n : DM V Nat) := by
  intro st r s h a ha
  simp only [allocArr, allocC] at h
  cases ht : st.thr with
  | none => simp [tick, ht] at h; rw [← h.2]; simp [ha]
  | some k => cases k <;> simp [tick, ht] at h; rw [← h.2]; simp [ha]
theorem chunksPush_still (a : Nat) : Still (chunksPush x a : DM V Unit) := by
  unfold chunksPush
  refine Still.bind getObj_still fun o => ?_
  split
  · exact Still.bind (tick_still _) fun _ => setObj_still _
  · exact setObj_still _

theorem pushBackHelper_keeps : Keeps (pushBackHelper K x : DM V Unit) := by
  unfold pushBackHelper
  refine Keeps.seq getObj_same fun o => ?_
  have tail : Still (do let o ← getObj x; setObj x { o with size := o.size + 1 } : DM V Unit) :=
    Still.bind getObj_still fun o => setObj_still _
  have back : Still (do let o ← getObj x; setObj x { o with back := 0 } : DM V Unit) :=
    Still.bind getObj_still fun o => setObj_still _
  split
  · split
    · refine Keeps.bind (allocArr_keeps K) fun a => ?_
      refine Still.bind (chunksPush_still a) fun _ => Still.bind getObj_still fun o =>
        Still.bind (setObj_still _) fun _ => Still.bind getObj_still fun _ => Still.bind (setObj_still _) fun _ => tail
    · exact (Still.bind getObj_still fun _ => Still.bind (setObj_still _) fun _ => tail).keeps
  · exact (Still.bind (setObj_still _) fun _ => tail).keeps

theorem pushFrontHelper_keeps : Keeps (pushFrontHelper K x : DM V Unit) := by
  unfold pushFrontHelper
  refine Keeps.seq getObj_same fun o => ?_
  have tail : Still (do let o ← getObj x; setObj x { o with size := o.size + 1 } : DM V Unit) :=
    Still.bind getObj_still fun o => setObj_still _
  split
  · split
    · refine Keeps.bind (allocArr_keeps K) fun a => ?_
      refine Still.bind (chunksPush_still a) fun _ => Still.bind getObj_still fun o => ?_
      split
      · exact Still.bind (ub_still _) fun _ => Still.bind getObj_still fun _ =>
          Still.bind (setObj_still _) fun _ => tail
      · exact Still.bind (setObj_still _) fun _ => Still.bind getObj_still fun _ =>
          Still.bind (setObj_still _) fun _ => tail
    · exact (Still.bind (setObj_still _) fun _ => Still.bind getObj_still fun _ =>
        Still.bind (setObj_still _) fun _ => tail).keeps
  · exact (Still.bind (setObj_still _) fun _ => tail).keeps

theorem chunkAt_same {o : Obj} {i : Int} {r : Nat} {s : DSt V} (h : chunkAt o i st = .ok r s) : s = st := by
  unfold chunkAt at h
  split at h
  · cases ho : o.chunks[i.toNat]? with
    | some c => rw [ho] at h; simp at h; exact h.2.symm
    | none => rw [ho] at h; cases h
  · cases h

theorem bind_congr {S α β : Type} {m : M S α} {f f' : α → M S β} {st : S}
    (hf : ∀ a s, m st = .ok a s → f a s = f' a s) : (m >>= f) st = (m >>= f') st := by
  rw [M.bind_apply, M.bind_apply]
  cases hm : m st with
  | ok a s => exact hf a s hm
  | throw _ _ => rfl
  | ub _ => rfl
  | timeout => rfl

/-- Reading slot `i` of block `a` in `st` gives `v`. -/
def Slot (st : DSt V) (a i : Nat) (v : V) : Prop := ∃ b, st.mem a = some b ∧ i < b.len ∧ b.slot i = some v

theorem Slot.read {a i : Nat} {s : DSt V} (h : Slot st a i v) (hs : s.mem a = st.mem a) :
    (Ref.cell a i : Ref V).read s = .ok v s := by
  obtain ⟨b, h1, h2, h3⟩ := h
  exact load_ok (by rw [hs, h1]) h2 h3

theorem pushBack_cell {a i : Nat} (h : Slot st a i v) (hn : a ≠ st.next) :
    pushBack K x (.cell a i) st = pushBack K x (.ext v) st := by
  refine bind_congr fun _ s1 h1 => bind_congr fun o s2 h2 => bind_congr fun c s3 h3 => ?_
  obtain rfl := getObj_same _ _ _ h2
  obtain rfl := chunkAt_same h3
  rw [M.bind_of_ok (h.read (pushBackHelper_keeps _ _ _ h1 a hn))]
  rfl

theorem pushFront_cell {a i : Nat} (h : Slot st a i v) (hn : a ≠ st.next) :
    pushFront K x (.cell a i) st = pushFront K x (.ext v) st := by
  refine bind_congr fun _ s1 h1 => bind_congr fun o s2 h2 => bind_congr fun c s3 h3 => ?_
  obtain rfl := getObj_same _ _ _ h2
  obtain rfl := chunkAt_same h3
  rw [M.bind_of_ok (h.read (pushFrontHelper_keeps _ _ _ h1 a hn))]
  rfl

theorem slot_of_index (hK : 0 < K) {σ : Nat → Option (DV V)} (W : DW K st σ) {sy : DV V} (hy : σ y = some sy) {i : Nat}
    (hv : sy.xs[i]? = some v) : ∃ a k, locate K y i st = .ok (a, k) st ∧ Slot st a k v ∧ a ≠ st.next := by
  have hi : i < sy.xs.length := by grind
  obtain ⟨a, ha, hl⟩ := locate_spec hK W hy (idx_lt W hy hi)
  have hm := W_heap W hy _ _ ha
  refine ⟨a, _, hl, ⟨_, hm, Nat.mod_lt _ hK, by rw [blk_slot hK, cell_at, hv]⟩, ?_⟩
  intro e; rw [e, W.fresh _ (Nat.le_refl _)] at hm; cases hm

theorem moveOut_eq {a k : Nat} (mv : V → V) (h : Slot st a k v) (ht : st.thr = none) :
    moveOut mv a k st = store (some a) k (mv v) st := by
  obtain ⟨b, h1, h2, h3⟩ := h
  simp [moveOut, store, withSlot, h1, h2, h3, tick, ht]

theorem addr_locate (hK : 0 < K) {σ : Nat → Option (DV V)} (W : DW K st σ) {s : DV V} (hy : σ y = some s) {i a k : Nat}
    (hi : i < s.xs.length) : addr K s i = (some a, k) ↔ locate K y i st = .ok (a, k) st := by
  obtain ⟨b, hb, hl⟩ := locate_spec hK W hy (idx_lt W hy hi)
  rw [hl]
  simp [addr, hb]

/-- The moved-from element after a push that took place. -/
theorem move_after (hK : 2 ≤ K) {e : Env V} (h : Reach K st e) {ys : List V} (hy : e y = some ys) {i : Nat}
    (hv : ys[i]? = some v) (mv : V → V) {a k : Nat} (hl : locate K y i st = .ok (a, k) st) :
    ∃ st', moveOut mv a k st = .ok () st' ∧ Reach K st' (e.set y (some (ys.set i (mv v)))) := by
  obtain ⟨σ, W, he⟩ := reach_world hK h
  obtain ⟨s, hy', rfl⟩ := envOf_some he hy
  obtain ⟨a', k', h1, h2, -⟩ := slot_of_index (by omega) W hy' hv
  rw [h1] at hl; cases hl
  have hi : i < s.xs.length := by grind
  obtain ⟨-, h3⟩ := C13_deque_index hK h hy hi
  obtain ⟨st', h4, h5, -⟩ := h3 (mv v)
  refine ⟨st', ?_, h5⟩
  rw [moveOut_eq mv h2 W.thr, ← h4]
  simp [set, h1]

/-! ### C137 -/

/-- **C137 (deque).** For an element `y[i]` of any deque, this one included, `x.push_back(y[i])` and
`x.push_front(y[i])` are the pushes of its value, whatever throws on the way: the reference is still valid when it is
read, after the new chunk was allocated. -/
theorem C137_deque_push_ref (hK : 2 ≤ K) {e : Env V} (h : Reach K st e) {ys : List V} (hy : e y = some ys) {i : Nat}
    (hv : ys[i]? = some v) : ∃ a k, locate K y i st = .ok (a, k) st ∧ ∀ x n,
      pushBack K x (.cell a k) { st with thr := n } = pushBack K x (.ext v) { st with thr := n } ∧
      pushFront K x (.cell a k) { st with thr := n } = pushFront K x (.ext v) { st with thr := n } := by
  obtain ⟨σ, W, he⟩ := reach_world hK h
  obtain ⟨s, hy', rfl⟩ := envOf_some he hy
  obtain ⟨a, k, h1, h2, h3⟩ := slot_of_index (by omega) W hy' hv
  exact ⟨a, k, h1, fun x n => ⟨pushBack_cell (st := { st with thr := n }) h2 h3,
    pushFront_cell (st := { st with thr := n }) h2 h3⟩⟩

/-- **C137 (deque, contents).** Provided the fault of C11 does not strike, pushing `y[i]` gives the state of a program
that pushed its value. -/
theorem C137_deque_push_contents (hK : 2 ≤ K) {e : Env V} (h : Reach K st e) {xs ys : List V} (hx : e x = some xs)
    (hy : e y = some ys) {i : Nat} (hv : ys[i]? = some v) :
    ∃ a k, locate K y i st = .ok (a, k) st ∧
      (¬ opFault K st (.pushBack x v) → ∃ st', pushBack K x (.cell a k) st = .ok () st' ∧
        Reach K st' (e.set x (some (xs ++ [v])))) ∧
      ∃ st', pushFront K x (.cell a k) st = .ok () st' ∧ Reach K st' (e.set x (some (v :: xs))) := by
  obtain ⟨a, k, h1, h2⟩ := C137_deque_push_ref hK h hy hv
  obtain ⟨σ, W, he⟩ := reach_world hK h
  obtain ⟨s, hx', rfl⟩ := envOf_some he hx
  refine ⟨a, k, h1, fun hf => ?_, ?_⟩
  · obtain ⟨st', h3, -⟩ := pushBack_spec (v := v) (r := .ext v) hK W hx' (fun hc => hf ((fault_iff hK W hx').1 hc))
      (fun _ _ => rfl)
    refine ⟨st', ((h2 x st.thr).1).trans h3, h.run (ops := [.pushBack x v]) (os := [.unit])
      (by simp [specRun, specStep, hx]) ⟨hf, fun _ _ _ => trivial⟩ (by simp [runOps, runOp, h3])⟩
  · obtain ⟨st', h3, -⟩ := pushFront_spec (v := v) (r := .ext v) hK W hx' (fun _ _ => rfl)
    refine ⟨st', ((h2 x st.thr).2).trans h3, h.run (ops := [.pushFront x v]) (os := [.unit])
      (by simp [specRun, specStep, hx]) ⟨fun h => h, fun _ _ _ => trivial⟩ (by simp [runOps, runOp, h3])⟩

/-- **C137 (deque, rvalues).** Pushing `std::move(y[i])`: the new element is the old value, and `y[i]` is left moved
from; all other elements of all deques are unchanged. -/
theorem C137_deque_push_move (hK : 2 ≤ K) {e : Env V} (h : Reach K st e) {xs ys : List V} (hx : e x = some xs)
    (hy : e y = some ys) {i : Nat} (hv : ys[i]? = some v) (mv : V → V) :
    ∃ a k, locate K y i st = .ok (a, k) st ∧
      (¬ opFault K st (.pushBack x v) → ∃ st', pushBackMove mv K x a k st = .ok () st' ∧
        Reach K st' (if x = y then e.set x (some (xs.set i (mv v) ++ [v]))
          else (e.set x (some (xs ++ [v]))).set y (some (ys.set i (mv v))))) ∧
      ∃ st', pushFrontMove mv K x a k st = .ok () st' ∧
        Reach K st' (if x = y then e.set x (some (v :: xs.set i (mv v)))
          else (e.set x (some (v :: xs))).set y (some (ys.set i (mv v)))) := by
  have hK0 : 0 < K := by omega
  obtain ⟨a, k, h1, h2, h3⟩ := C137_deque_push_contents hK h hx hy hv
  obtain ⟨σ, W, he⟩ := reach_world hK h
  obtain ⟨s, hx', hxs⟩ := envOf_some he hx
  obtain ⟨t, hy', hys⟩ := envOf_some he hy
  have hi : i < ys.length := by grind
  have hr : ∀ st' : DSt V, (∀ a b, st.mem a = some b → st'.mem a = some b) →
      (Ref.cell a k : Ref V).read st' = .ok v st' := by
    obtain ⟨b, hb1, hb2⟩ := cell_read hK0 W hy' (i := i) (v := v) (by rw [hys]; exact hv)
    rw [h1] at hb1; cases hb1
    exact hb2
  have hP : ∀ x, pushBack K x (.cell a k) st = pushBack K x (.ext v) st ∧
      pushFront K x (.cell a k) st = pushFront K x (.ext v) st := by
    obtain ⟨a', k', hl, hP⟩ := C137_deque_push_ref hK h hy hv
    rw [h1] at hl; cases hl
    exact fun x => hP x st.thr
  refine ⟨a, k, h1, fun hf => ?_, ?_⟩
  · obtain ⟨st1, h4, R1⟩ := h2 hf
    have hl : locate K y i st1 = .ok (a, k) st1 := by
      have hnf : ¬ s.fault K := fun hc => hf ((fault_iff hK W hx').1 hc)
      by_cases hxy : x = y
      · subst hxy
        rw [hx'] at hy'; cases hy'
        obtain ⟨o, st2, s', h5, W', h6, h7, h8⟩ := end_step hK W hx' (i := i) (v := v) (by rw [hys]; exact hv)
          (op := .pushBack v) hf rfl
        rw [(hP x).1] at h4
        simp only [EndOp.op, runOp, M.bind_apply, h4, M.pure_apply, Res.ok.injEq] at h5
        obtain ⟨-, rfl⟩ := h5
        rw [← addr_locate hK0 W' (upd_same _ _ _) (by rw [h6, hys]; omega), h8]
        exact (addr_locate hK0 W hx' (by rw [hys]; exact hi)).2 h1
      · obtain ⟨st2, h5, W'⟩ := pushBack_spec hK W hx' hnf hr
        rw [h4] at h5; cases h5
        rw [← addr_locate hK0 W' (s := t) (by simp [Ne.symm hxy, hy']) (by rw [hys]; exact hi)]
        exact (addr_locate hK0 W hy' (by rw [hys]; exact hi)).2 h1
    by_cases hxy : x = y
    · subst hxy
      rw [hx] at hy; cases hy
      obtain ⟨st2, h5, R2⟩ := move_after hK R1 (Env.set_eq _ _ _) (i := i) (v := v)
        (by rw [List.getElem?_append_left hi, hv]) mv hl
      refine ⟨st2, by simp [pushBackMove, h4, h5], ?_⟩
      rw [if_pos rfl]
      rw [Env.set_set, List.set_append_left _ _ hi] at R2
      exact R2
    · obtain ⟨st2, h5, R2⟩ := move_after hK R1 (y := y) (ys := ys) (by simp [Env.set, Ne.symm hxy, hy]) hv mv hl
      exact ⟨st2, by simp [pushBackMove, h4, h5], by rw [if_neg hxy]; exact R2⟩
  · obtain ⟨st1, h4, R1⟩ := h3
    by_cases hxy : x = y
    · subst hxy
      rw [hx] at hy; cases hy
      obtain ⟨o, st2, s', h5, W', h6, h7, h8⟩ := end_step hK W hx' (i := i) (v := v) (by rw [hxs]; exact hv)
        (op := .pushFront v) (fun hc => hc) rfl
      have h4' := h4
      rw [(hP x).2] at h4'
      simp only [EndOp.op, runOp, M.bind_apply, h4', M.pure_apply, Res.ok.injEq] at h5
      obtain ⟨-, rfl⟩ := h5
      have hl : locate K x (i + 1) st1 = .ok (a, k) st1 := by
        rw [← addr_locate hK0 W' (upd_same _ _ _) (by rw [h6, hxs]; omega), h8]
        exact (addr_locate hK0 W hx' (by rw [hxs]; exact hi)).2 h1
      obtain ⟨st2, h9, R2⟩ := move_after hK R1 (Env.set_eq _ _ _) (i := i + 1) (v := v) (by simpa using hv) mv hl
      refine ⟨st2, by simp [pushFrontMove, h4, h9], ?_⟩
      rw [if_pos rfl]
      rw [Env.set_set] at R2
      exact R2
    · obtain ⟨st2, h5, W'⟩ := pushFront_spec hK W hx' hr
      rw [h4] at h5; cases h5
      have hl : locate K y i st1 = .ok (a, k) st1 := by
        rw [← addr_locate hK0 W' (s := t) (by simp [Ne.symm hxy, hy']) (by rw [hys]; exact hi)]
        exact (addr_locate hK0 W hy' (by rw [hys]; exact hi)).2 h1
      obtain ⟨st2, h5, R2⟩ := move_after hK R1 (y := y) (ys := ys) (by simp [Env.set, Ne.symm hxy, hy]) hv mv hl
      exact ⟨st2, by simp [pushFrontMove, h4, h5], by rw [if_neg hxy]; exact R2⟩

/-- The hypotheses are met by `d.push_back(std::move(d[3]))` on a deque whose last chunk is full, so that a new one has
to be allocated. -/
example : ∃ st : DSt Nat, ∃ e, Reach 1024 st e ∧ e 0 = some (List.replicate 512 7) ∧
    (List.replicate 512 7)[3]? = some 7 ∧ ¬ opFault 1024 st (.pushBack 0 7) := by
  obtain ⟨st, s, σ, hR, W, hs, hA, hxs, -⟩ := fill_reach (K := 1024) (by omega) 512 7
  refine ⟨st, _, hR, Env.set_eq _ _ _, by rw [List.getElem?_replicate, if_pos (by omega)], fun hc => ?_⟩
  exact (hA 0 s hs).noFault (by omega) (W_le W hs) ((fault_iff (by omega) W hs).2 hc)

end Cest.Deq
