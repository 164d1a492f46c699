import Verif.Deque.Hist
/-
Lemmas for C142: what one deque operation does when the `k`-th allocation or element copy throws.
-/
namespace Cest.Deq
open Cest
variable {V α : Type}
variable {K : Nat} {st : DSt V} {σ : Nat → Option (DV V)} {x y : Nat} {s sy : DV V} {v : V}

/-- The number of throwing operations is known from where the last one throws. -/
theorem cost_exact {m : DM V α} {s s' : DSt V} {a : α} {b : Nat} (h : CostAt m s b) (hm : m s = .ok a s')
    (hb : 0 < b → ∀ a' t, m { s with thr := some (b - 1) } ≠ .ok a' t) (k : Nat) :
    m { s with thr := some (k + b) } = .ok a { s' with thr := some k } := by
  obtain ⟨_, c, hc, h2⟩ := h.ok hm
  by_cases hcb : c = b
  · subst hcb; exact h2 k
  · have := h2 (b - 1 - c)
    rw [show b - 1 - c + c = b - 1 by omega] at this
    exact absurd this (hb (by omega) _ _)

/-- Code without throwing operations. -/
theorem cost_zero {m : DM V α} {s s' : DSt V} {a : α} (h : CostAt m s 0) (hm : m s = .ok a s') (k : Nat) :
    m { s with thr := some k } = .ok a { s' with thr := some k } :=
  cost_exact h hm (fun h => by omega) k

theorem set_thr (h : st.thr = none) : ({ st with thr := none } : DSt V) = st := by
  cases st; simp at h ⊢; exact h.symm

/-! ### Garbage -/

/-- A single leaked block. -/
def one (a : Nat) (b : Blk V) : Nat → Option (Blk V) := fun c => if c = a then some b else none

theorem lost_one {a : Nat} {b : Blk V} (h1 : st.mem a = none) (h2 : a < st.next) :
    Lost (one a b) st 1 := by
  refine ⟨fun c hc => ?_, [a], by simp, rfl, fun c => ?_⟩
  · simp only [one] at hc
    split at hc
    · rename_i h; subst h; exact ⟨h1, h2⟩
    · exact absurd rfl hc
  · simp only [one, List.mem_singleton]
    split <;> simp_all

theorem ext_one {a : Nat} {b : Blk V} : st.ext (one a b) = { st with mem := upd st.mem a (some b) } := by
  simp only [St.ext, one]
  congr 1
  funext c
  simp only [upd]
  split <;> simp_all

/-- What an operation that throws leaves behind. -/
def Left (K : Nat) (t : DSt V) (σ : Nat → Option (DV V)) (n : Nat) : Prop :=
  ∃ h s0, t = s0.ext h ∧ DW K s0 σ ∧ Lost h s0 n

theorem left_world (W : DW K st σ) : Left K st σ 0 := ⟨noGarbage, st, rfl, W, lost_none st⟩

/-- A fresh block is leaked. -/
theorem left_fresh (W : DW K st σ) (b : Blk V) :
    Left K { st with mem := upd st.mem st.next (some b), next := st.next + 1 } σ 1 := by
  refine ⟨one st.next b, { st with next := st.next + 1 }, by rw [ext_one], ?_, lost_one ?_ ?_⟩
  · exact ⟨W.dom, W.rep, W.disj, W.own, fun a ha => W.fresh a (by have : st.next + 1 ≤ a := ha; omega), W.thr⟩
  · exact W.fresh _ (Nat.le_refl _)
  · exact Nat.lt_succ_self _

/-- The destructor of a deque, with garbage around. -/
theorem left_dtor (hK : 2 ≤ K) {t : DSt V} {n : Nat} (L : Left K t σ n) (hx : σ x = some s) :
    ∃ t', dtor K x t = .ok () t' ∧ Left K t' (upd σ x none) n := by
  obtain ⟨g, s0, rfl, W, L⟩ := L
  obtain ⟨s1, h1, W1⟩ := dtor_spec hK W hx
  obtain ⟨h2, h3⟩ := (dtor_loc K x).ok L.1 h1
  exact ⟨_, h2, g, s1, rfl, W1, h3, L.2⟩

/-! ### The helpers of push_back and push_front -/

theorem chunksPush_at {o : Obj} {a : Nat} (ho : st.objs x = some o) (ht : st.thr = none) :
    CostAt (chunksPush x a : DM V Unit) st (if o.ccap = o.chunks.length then 1 else 0) := by
  unfold chunksPush
  refine ((CostLe.getObj x st ht).bind_ok (getObj_some ho) ?_).mono (Nat.le_of_eq (Nat.zero_add _))
  by_cases h : o.ccap = o.chunks.length
  · rw [if_pos h, if_pos h]
    exact CostLe.bind (b₁ := 1) (b₂ := 0) (CostLe.tick _) (fun _ => CostLe.setObj _ _) st ht
  · rw [if_neg h, if_neg h]
    exact CostLe.setObj _ _ st ht

/-- A new chunk and then the table. -/
theorem grow_at {o : Obj} (ho : st.objs x = some o) (ht : st.thr = none) {β : Type} {f : Unit → DM V β}
    (hf : ∀ u, CostLe (f u) 0) :
    CostAt (do let a ← allocArr K; let u ← chunksPush x a; f u) st (if o.ccap = o.chunks.length then 2 else 1) := by
  refine ((CostLe.allocArr K st ht).bind_ok (allocArr_ok ht)
    (b₂ := (if o.ccap = o.chunks.length then 1 else 0) + 0) ?_).mono (by split <;> omega)
  have hc := chunksPush_at (st := { st with
      mem := upd st.mem st.next (some { len := K, slot := fun _ => none }), next := st.next + 1 }) (a := st.next) ho ht
  exact hc.bind fun u s' h => hf u s' (hc.calm h)

theorem grow_throw {o : Obj} (W : DW K st σ) (ho : st.objs x = some o) {β : Type} {f : Unit → DM V β} {k : Nat}
    (hk : k < if o.ccap = o.chunks.length then 2 else 1) :
    ∃ t, (do let a ← allocArr K; let u ← chunksPush x a; f u) { st with thr := some k } = .throw .badAlloc t ∧
      Left K t σ k := by
  match k with
  | 0 =>
    refine ⟨_, ?_, left_world W⟩
    simp only [M.bind_apply, allocArr, allocC, tick]
    rw [set_thr W.thr]
  | 1 =>
    have h : o.ccap = o.chunks.length := by
      apply Classical.byContradiction; intro h; rw [if_neg h] at hk; omega
    refine ⟨_, ?_, left_fresh W ⟨K, fun _ => none⟩⟩
    simp only [M.bind_apply, allocArr, allocC, tick, chunksPush]
    rw [getObj_some (by exact ho)]
    simp only []
    rw [if_pos h]
    simp only [M.bind_apply, tick]
    congr 2
    exact W.thr.symm
  | k+2 => split at hk <;> omega

/-- Number of allocations of push_back. -/
def backAllocs (K : Nat) (s : DV V) : Nat := (layOf s).allocs ((layOf s).backFull K s.xs.length)
/-- Number of allocations of push_front. -/
def frontAllocs (s : DV V) : Nat := (layOf s).allocs ((layOf s).first == 0)

theorem backAllocs_full (h : s.stop = s.chunks.length * K) :
    backAllocs K s = if s.ccap = s.chunks.length then 2 else 1 := by
  unfold backAllocs Lay.allocs
  rw [if_pos ((backFull_iff s).2 h)]
  rfl
theorem backAllocs_not (h : s.stop ≠ s.chunks.length * K) : backAllocs K s = 0 := by
  unfold backAllocs Lay.allocs
  rw [if_neg (fun hc => h ((backFull_iff s).1 hc))]
theorem frontAllocs_zero (h : s.pos = 0) : frontAllocs s = if s.ccap = s.chunks.length then 2 else 1 := by
  unfold frontAllocs Lay.allocs
  rw [if_pos (by simpa [layOf] using h)]
  rfl
theorem frontAllocs_pos (h : s.pos ≠ 0) : frontAllocs s = 0 := by
  unfold frontAllocs Lay.allocs
  rw [if_neg (by simpa [layOf] using h)]

/-- The back chunk is full and the last one. -/
theorem full_obj (hK : 2 ≤ K) (h : s.stop = s.chunks.length * K) :
    (s.obj K).back = K - 1 ∧ (s.obj K).bchunk = ((s.obj K).chunks.length : Int) - 1 := by
  have hK0 : 0 < K := by omega
  have hz : s.stop % K = 0 := by rw [h]; simp
  obtain ⟨h1, h2⟩ := back_zero hK0 hz
  refine ⟨h1, ?_⟩
  show (((s.stop + K - 1) / K : Nat) : Int) - 1 = _
  rw [h2, (full_iff hK0 hz).2 h]
  rfl

theorem pushBackHelper_at (hK : 2 ≤ K) (W : DW K st σ) (hx : σ x = some s) (hf : ¬ s.fault K) :
    CostAt (pushBackHelper K x : DM V Unit) st (backAllocs K s) := by
  have ho := W_obj W hx
  unfold pushBackHelper
  refine ((CostLe.getObj x st W.thr).bind_ok (getObj_some ho) ?_).mono (Nat.le_of_eq (Nat.zero_add _))
  have tl : ∀ f : Obj → Obj, CostLe (do
      let o ← getObj x
      setObj x (f o) : DM V Unit) 0 := fun f => by cost0
  have tl2 : ∀ f g : Obj → Obj, CostLe (do
      let o ← getObj x
      setObj x (f o)
      let o ← getObj x
      setObj x (g o) : DM V Unit) 0 := fun f g => by cost0
  dsimp only
  by_cases h : s.stop = s.chunks.length * K
  · obtain ⟨h1, h2⟩ := full_obj hK h
    rw [backAllocs_full h, if_pos h1, if_pos h2]
    refine grow_at ho W.thr (fun _ => ?_)
    exact CostLe.bind (b₁ := 0) (b₂ := 0) (CostLe.getObj x) (fun o =>
      CostLe.bind (b₁ := 0) (b₂ := 0) (CostLe.setObj _ _) (fun _ => tl2 _ _))
  · have h1 : (s.obj K).back ≠ K - 1 := fun hc => hf ⟨(back_last_iff hK s).1 hc, h⟩
    rw [backAllocs_not h, if_neg h1]
    exact CostLe.bind (b₁ := 0) (b₂ := 0) (CostLe.setObj _ _) (fun _ => tl _) st W.thr

theorem pushBackHelper_throw (hK : 2 ≤ K) (W : DW K st σ) (hx : σ x = some s) {k : Nat} (hk : k < backAllocs K s) :
    ∃ t, pushBackHelper K x { st with thr := some k } = .throw .badAlloc t ∧ Left K t σ k := by
  have ho := W_obj W hx
  have h : s.stop = s.chunks.length * K := by
    apply Classical.byContradiction; intro h; rw [backAllocs_not h] at hk; omega
  obtain ⟨h1, h2⟩ := full_obj hK h
  rw [backAllocs_full h] at hk
  unfold pushBackHelper
  rw [M.bind_apply, getObj_some (by exact ho)]
  dsimp only
  rw [if_pos h1, if_pos h2]
  exact grow_throw W ho hk

theorem pushFrontHelper_at (W : DW K st σ) (hx : σ x = some s) :
    CostAt (pushFrontHelper K x : DM V Unit) st (frontAllocs s) := by
  have ho := W_obj W hx
  unfold pushFrontHelper
  refine ((CostLe.getObj x st W.thr).bind_ok (getObj_some ho) ?_).mono (Nat.le_of_eq (Nat.zero_add _))
  have tl : ∀ f : Obj → Obj, CostLe (do
      let o ← getObj x
      setObj x (f o) : DM V Unit) 0 := fun f => by cost0
  have tl2 : ∀ f g : Obj → Obj, CostLe (do
      let o ← getObj x
      setObj x (f o)
      let o ← getObj x
      setObj x (g o) : DM V Unit) 0 := fun f g => by cost0
  dsimp only
  by_cases h : s.pos = 0
  · have h1 : (s.obj K).front = 0 := by simp [DV.obj, h]
    have h2 : (s.obj K).fchunk = 0 := by simp [DV.obj, h]
    rw [frontAllocs_zero h, if_pos h1, if_pos h2]
    refine grow_at ho W.thr (fun _ => ?_)
    refine CostLe.bind (b₁ := 0) (b₂ := 0) (CostLe.getObj x) (fun o => ?_)
    split
    · exact CostLe.bind (b₁ := 0) (b₂ := 0) (CostLe.ub _) (fun _ => tl2 _ _)
    · exact CostLe.bind (b₁ := 0) (b₂ := 0) (CostLe.setObj _ _) (fun _ => tl2 _ _)
  · rw [frontAllocs_pos h]
    split
    · rw [if_neg]
      · exact CostLe.bind (b₁ := 0) (b₂ := 0) (CostLe.setObj _ _) (fun _ => tl2 _ _) st W.thr
      · rename_i hz
        intro hc
        apply h
        have := Nat.div_add_mod s.pos K
        have e1 : s.pos / K = 0 := hc
        have e2 : s.pos % K = 0 := hz
        rw [e1, e2] at this
        simpa using this.symm
    · exact CostLe.bind (b₁ := 0) (b₂ := 0) (CostLe.setObj _ _) (fun _ => tl _) st W.thr

theorem pushFrontHelper_throw (W : DW K st σ) (hx : σ x = some s) {k : Nat} (hk : k < frontAllocs s) :
    ∃ t, pushFrontHelper K x { st with thr := some k } = .throw .badAlloc t ∧ Left K t σ k := by
  have ho := W_obj W hx
  have h : s.pos = 0 := by
    apply Classical.byContradiction; intro h; rw [frontAllocs_pos h] at hk; omega
  have h1 : (s.obj K).front = 0 := by simp [DV.obj, h]
  have h2 : (s.obj K).fchunk = 0 := by simp [DV.obj, h]
  rw [frontAllocs_zero h] at hk
  unfold pushFrontHelper
  rw [M.bind_apply, getObj_some (by exact ho)]
  dsimp only
  rw [if_pos h1, if_pos h2]
  exact grow_throw W ho hk

/-! ### push_back and push_front -/

theorem read_state {r : Ref V} {s s' : DSt V} {v : V} (h : r.read s = .ok v s') : s' = s := by
  cases r with
  | ext w => simp only [Ref.read, M.pure_apply] at h; cases h; rfl
  | cell a i =>
    simp only [Ref.read, load, withSlot, deref, M.bind_apply, getC] at h
    cases hm : s.mem a with
    | none => rw [hm] at h; cases h
    | some b =>
      rw [hm] at h
      simp only [] at h
      by_cases h1 : i < b.len
      · rw [if_pos h1] at h
        cases h2 : b.slot i with
        | none => rw [h2] at h; cases h
        | some w => rw [h2] at h; cases h; rfl
      · rw [if_neg h1] at h; cases h

/-- The construction of the element does not succeed when the next operation throws. -/
theorem place_throws {s : DSt V} (ht : s.thr = some 0) (c : Obj → Int) (i : Obj → Nat) (r : Ref V) (u : Unit) (s' : DSt V) :
    (do let o ← getObj x; let a ← chunkAt o (c o); let v ← r.read; constructAt (some a) (i o) v : DM V Unit) s ≠
      .ok u s' := by
  intro h
  simp only [M.bind_apply, getObj] at h
  cases ho : s.objs x with
  | none => rw [ho] at h; cases h
  | some o =>
    rw [ho] at h
    simp only [] at h
    have key : ∀ a, (do let v ← r.read; constructAt (some a) (i o) v : DM V Unit) s ≠ .ok u s' := by
      intro a hc
      rw [M.bind_apply] at hc
      cases hr : r.read s with
      | ok v s1 =>
        rw [hr] at hc
        have := read_state hr
        subst this
        simp only [constructAt, withSlot, deref, M.bind_apply, getC] at hc
        cases hm : s1.mem a with
        | none => rw [hm] at hc; cases hc
        | some b =>
          rw [hm] at hc
          simp only [] at hc
          by_cases h1 : i o < b.len
          · rw [if_pos h1] at hc
            cases h2 : b.slot (i o) with
            | none => rw [h2] at hc; simp only [M.bind_apply, tick, ht] at hc; cases hc
            | some w => rw [h2] at hc; cases hc
          · rw [if_neg h1] at hc; cases hc
      | throw e s1 => rw [hr] at hc; cases hc
      | ub e => rw [hr] at hc; cases hc
      | timeout => rw [hr] at hc; cases hc
    unfold chunkAt at h
    by_cases h1 : 0 ≤ c o
    · rw [if_pos h1] at h
      cases h2 : o.chunks[(c o).toNat]? with
      | none => rw [h2] at h; cases h
      | some a => rw [h2] at h; simp only [M.pure_apply] at h; exact key a (by rw [M.bind_apply]; exact h)
    · rw [if_neg h1] at h; cases h

theorem place_cost (c : Obj → Int) (i : Obj → Nat) (r : Ref V) :
    CostLe (do let o ← getObj x; let a ← chunkAt o (c o); let v ← r.read; constructAt (some a) (i o) v : DM V Unit) 1 :=
  CostLe.bind (b₁ := 0) (b₂ := 1) (CostLe.getObj x) (fun _ =>
    CostLe.bind (b₁ := 0) (b₂ := 1) (chunkAt_cost _ _) (fun _ =>
    CostLe.bind (b₁ := 0) (b₂ := 1) (read_cost r) (fun _ => CostLe.constructAt _ _ _)))

/-- A helper and then the construction. -/
theorem push_arm {h f : DM V Unit} {a : Nat} (hh : CostAt h st a)
    (hn : 0 < a → ∀ u t, h { st with thr := some (a - 1) } ≠ .ok u t) (hf : CostLe f 1)
    (hfn : ∀ s : DSt V, s.thr = some 0 → ∀ u t, f s ≠ .ok u t) {st' : DSt V}
    (hr : (do h; f : DM V Unit) st = .ok () st') (k : Nat) :
    (do h; f : DM V Unit) { st with thr := some (k + (a + 1)) } = .ok () { st' with thr := some k } := by
  cases h1 : h st with
  | ok u st1 =>
    refine cost_exact (hh.bind_ok h1 (hf st1 (hh.calm h1))) hr (fun _ => ?_) k
    intro u' t hc
    have := cost_exact hh h1 hn 0
    rw [Nat.zero_add] at this
    simp only [M.bind_apply, Nat.add_sub_cancel, this] at hc
    exact hfn _ rfl _ _ hc
  | throw e s => simp only [M.bind_apply, h1] at hr; cases hr
  | ub e => simp only [M.bind_apply, h1] at hr; cases hr
  | timeout => simp only [M.bind_apply, h1] at hr; cases hr

/-- `push_back`, by the number of successful allocations and copies. -/
theorem pushBack_at (hK : 2 ≤ K) (W : DW K st σ) (hx : σ x = some s) {r : Ref V}
    (hr : ∀ st' : DSt V, (∀ a b, st.mem a = some b → st'.mem a = some b) → r.read st' = .ok v st') (k : Nat) :
    match push (backAllocs K s) k with
    | .caught m => ∃ t, pushBack K x r { st with thr := some k } = .throw .badAlloc t ∧ Left K t σ m
    | .broken => True
    | .ok k' => ∀ l', (layOf s).pushB K s.xs.length = some l' →
        ∃ st', pushBack K x r st = .ok () st' ∧ DW K st' (upd σ x (some (s.pushB K v st.next))) ∧
          layOf (s.pushB K v st.next) = l' ∧
          pushBack K x r { st with thr := some k } = .ok () { st' with thr := some k' } := by
  unfold push
  by_cases h1 : k < backAllocs K s
  · rw [if_pos h1]
    obtain ⟨t, h2, L⟩ := pushBackHelper_throw hK W hx h1
    exact ⟨t, by simp only [pushBack, M.bind_apply, h2], L⟩
  · rw [if_neg h1]
    by_cases h2 : k = backAllocs K s
    · rw [if_pos h2]; trivial
    · rw [if_neg h2]
      intro l' hl
      obtain ⟨hf, hlay⟩ := pushB_lay (W_ne W hx) hl
      obtain ⟨st', h3, W'⟩ := pushBack_spec hK W hx hf hr
      refine ⟨st', h3, W', hlay _ _, ?_⟩
      have := push_arm (pushBackHelper_at hK W hx hf) (fun h0 u t hc => by
          obtain ⟨t', h4, _⟩ := pushBackHelper_throw hK W hx (k := backAllocs K s - 1) (by omega)
          rw [h4] at hc; cases hc)
        (place_cost (x := x) Obj.bchunk Obj.back r) (fun s hs => place_throws hs Obj.bchunk Obj.back r) h3
        (k - (backAllocs K s + 1))
      rw [Nat.sub_add_cancel (by omega)] at this
      exact this

/-- `push_front`. -/
theorem pushFront_at (hK : 2 ≤ K) (W : DW K st σ) (hx : σ x = some s) {r : Ref V}
    (hr : ∀ st' : DSt V, (∀ a b, st.mem a = some b → st'.mem a = some b) → r.read st' = .ok v st') (k : Nat) :
    match push (frontAllocs s) k with
    | .caught m => ∃ t, pushFront K x r { st with thr := some k } = .throw .badAlloc t ∧ Left K t σ m
    | .broken => True
    | .ok k' => ∃ st', pushFront K x r st = .ok () st' ∧ DW K st' (upd σ x (some (s.pushF K v st.next))) ∧
          pushFront K x r { st with thr := some k } = .ok () { st' with thr := some k' } := by
  unfold push
  by_cases h1 : k < frontAllocs s
  · rw [if_pos h1]
    obtain ⟨t, h2, L⟩ := pushFrontHelper_throw W hx h1
    exact ⟨t, by simp only [pushFront, M.bind_apply, h2], L⟩
  · rw [if_neg h1]
    by_cases h2 : k = frontAllocs s
    · rw [if_pos h2]; trivial
    · rw [if_neg h2]
      obtain ⟨st', h3, W'⟩ := pushFront_spec hK W hx hr
      refine ⟨st', h3, W', ?_⟩
      have := push_arm (pushFrontHelper_at W hx) (fun h0 u t hc => by
          obtain ⟨t', h4, _⟩ := pushFrontHelper_throw W hx (k := frontAllocs s - 1) (by omega)
          rw [h4] at hc; cases hc)
        (place_cost (x := x) (fun o => o.fchunk) Obj.front r)
        (fun s hs => place_throws hs (fun o => o.fchunk) Obj.front r) h3
        (k - (frontAllocs s + 1))
      rw [Nat.sub_add_cancel (by omega)] at this
      exact this

/-! ### Sequences of push_back -/

/-- What a sequence of push_backs of `vs` to `x` does. -/
def SeqT (K : Nat) (st : DSt V) (σ : Nat → Option (DV V)) (x : Nat) (s : DV V) (vs : List V) (m : DM V Unit) (k : Nat) :
    Pushes → Prop
  | .ok => ∃ st' s' t, m { st with thr := some k } = .ok () { st' with thr := t } ∧
      DW K st' (upd σ x (some s')) ∧ s'.xs = s.xs ++ vs ∧ (layOf s).pushBs K s.xs.length vs.length = some (layOf s')
  | .caught n l lost => ∃ ex t s', m { st with thr := some k } = .throw ex t ∧
      Left K t (upd σ x (some s')) lost ∧ layOf s' = l ∧
      ∃ i, n = s.xs.length + i ∧ s'.xs = s.xs ++ vs.take i
  | .broken => True

/-- One push_back and then the others. -/
theorem seq_cons (hK : 2 ≤ K) (W : DW K st σ) (hx : σ x = some s) {r : Ref V} {vs : List V} {m m' : DM V Unit}
    (hr : ∀ st' : DSt V, (∀ a b, st.mem a = some b → st'.mem a = some b) → r.read st' = .ok v st')
    (hm : ∀ t, m { st with thr := t } = (do pushBack K x r; m' : DM V Unit) { st with thr := t }) (k : Nat)
    (ih : ∀ st' k', DW K st' (upd σ x (some (s.pushB K v st.next))) →
      SeqT K st' (upd σ x (some (s.pushB K v st.next))) x (s.pushB K v st.next) vs m' k'
        (pushes K (layOf (s.pushB K v st.next)) (s.xs.length + 1) vs.length k')) :
    SeqT K st σ x s (v :: vs) m k (pushes K (layOf s) s.xs.length (v :: vs).length k) := by
  have h1 := pushBack_at hK W hx hr k
  rw [List.length_cons]
  unfold pushes
  change SeqT K st σ x s (v :: vs) m k (match push (backAllocs K s) k with
    | .caught m => .caught s.xs.length (layOf s) m
    | .broken => .broken
    | .ok k' => match (layOf s).pushB K s.xs.length with
      | some l' => pushes K l' (s.xs.length + 1) vs.length k'
      | none => .broken)
  cases hp : push (backAllocs K s) k with
  | caught n =>
    rw [hp] at h1
    obtain ⟨t, h2, L⟩ := h1
    refine ⟨.badAlloc, t, s, by rw [hm]; simp only [M.bind_apply, h2], by rw [upd_eq_self hx]; exact L, rfl, 0, rfl,
      by simp⟩
  | broken => trivial
  | ok k' =>
    rw [hp] at h1
    simp only
    cases hl : (layOf s).pushB K s.xs.length with
    | none => trivial
    | some l' =>
      obtain ⟨st', h2, W', hlay, h3⟩ := h1 l' hl
      simp only
      have hi := ih st' k' W'
      rw [hlay] at hi
      have e : ∀ q, m { st with thr := some k } = (do pushBack K x r; m' : DM V Unit) { st with thr := some k } ∧
          (m' { st' with thr := some k' } = q → m { st with thr := some k } = q) := fun q =>
        ⟨hm _, fun h => by rw [hm]; simp only [M.bind_apply, h3, h]⟩
      cases hq : pushes K l' (s.xs.length + 1) vs.length k' with
      | ok =>
        rw [hq] at hi
        obtain ⟨st2, s2, t, g1, g2, g3, g4⟩ := hi
        refine ⟨st2, s2, t, (e _).2 g1, by rwa [upd_upd] at g2, by rw [g3, pushB_xs]; simp, ?_⟩
        rw [List.length_cons]
        unfold Lay.pushBs
        rw [hl]
        simp only
        rwa [hlay, pushB_xs, List.length_append, List.length_singleton] at g4
      | caught n l lost =>
        rw [hq] at hi
        obtain ⟨ex, t, s2, g1, g2, g3, i, g4, g5⟩ := hi
        refine ⟨ex, t, s2, (e _).2 g1, by rwa [upd_upd] at g2, g3, i + 1, ?_, ?_⟩
        · rw [g4, pushB_xs, List.length_append, List.length_singleton]; omega
        · rw [g5, pushB_xs]; simp
      | broken => trivial

theorem pushAll_throw (hK : 2 ≤ K) (vs : List V) : ∀ {st : DSt V} {σ : Nat → Option (DV V)} {s : DV V} (_ : DW K st σ)
    (_ : σ x = some s) (k : Nat),
    SeqT K st σ x s vs (pushAll K x vs) k (pushes K (layOf s) s.xs.length vs.length k) := by
  induction vs with
  | nil =>
    intro st σ s W hx k
    exact ⟨st, s, some k, rfl, by rw [upd_eq_self hx]; exact W, by simp, rfl⟩
  | cons v vs ih =>
    intro st σ s W hx k
    refine seq_cons hK W hx (r := .ext v) (m' := pushAll K x vs) (fun _ _ => rfl) (fun t => rfl) k (fun st' k' W' => ?_)
    have := ih W' (upd_same _ _ _) k'
    rwa [pushB_xs, List.length_append, List.length_singleton] at this

theorem pushFrom_throw (hK : 2 ≤ K) (n : Nat) : ∀ {i : Nat} {st : DSt V} {σ : Nat → Option (DV V)} {s : DV V}
    (_ : DW K st σ) (_ : σ x = some s) (_ : σ y = some sy) (_ : x ≠ y) (_ : i + n = sy.xs.length) (k : Nat),
    SeqT K st σ x s (sy.xs.drop i) (pushFrom K x y i n) k (pushes K (layOf s) s.xs.length n k) := by
  induction n with
  | zero =>
    intro i st σ s W hx hy hxy hn k
    have : sy.xs.drop i = [] := by simp; omega
    rw [this]
    exact ⟨st, s, some k, rfl, by rw [upd_eq_self hx]; exact W, by simp, rfl⟩
  | succ n ih =>
    intro i st σ s W hx hy hxy hn k
    have hi : i < sy.xs.length := by omega
    have hd : sy.xs.drop i = sy.xs[i] :: sy.xs.drop (i+1) := by simp
    have hlen : (sy.xs.drop (i+1)).length = n := by simp; omega
    obtain ⟨a, hl, hr⟩ := cell_read (i := i) (v := sy.xs[i]) (by omega) W hy (by simp)
    have hl' : ∀ t, locate K y i { st with thr := t } = .ok (a, (sy.pos + i) % K) { st with thr := t } := by
      intro t
      cases t with
      | none => rw [set_thr W.thr]; exact hl
      | some k => exact cost_zero (locate_cost i st W.thr) hl k
    have := seq_cons hK W hx (r := .cell a ((sy.pos + i) % K)) (v := sy.xs[i]) (vs := sy.xs.drop (i+1))
      (m := pushFrom K x y i (n+1)) (m' := pushFrom K x y (i+1) n) hr
      (fun t => by simp only [pushFrom, M.bind_apply, hl' t]) k (fun st' k' W' => by
        have := ih (i := i+1) W' (upd_same _ _ _) (by simp [Ne.symm hxy, hy]) hxy (by omega) k'
        rw [hlen]
        rwa [pushB_xs, List.length_append, List.length_singleton] at this)
    rw [List.length_cons, hlen, ← hd] at this
    exact this

/-! ### Construction -/

theorem ctor_throw (W : DW K st σ) (hx : σ x = none) {k : Nat} (hk : k < 2) :
    ∃ t, ctor K x { st with thr := some k } = .throw .badAlloc t ∧ Left K t σ k := by
  have hd := W.dom x hx
  match k with
  | 0 =>
    refine ⟨_, ?_, left_world W⟩
    unfold ctor
    simp only [M.bind_apply]
    rw [newObj_none (by exact hd)]
    simp only [M.onThrow, M.bind_apply, allocArr, allocC, tick]
    rw [delObj_some (by exact upd_same _ _ _)]
    simp only [upd_upd, upd_eq_self hd]
    rw [set_thr W.thr]
  | 1 =>
    refine ⟨_, ?_, left_fresh W ⟨K, fun _ => none⟩⟩
    unfold ctor
    simp only [M.bind_apply]
    rw [newObj_none (by exact hd)]
    simp only [M.onThrow, M.bind_apply, allocArr, allocC, tick]
    rw [getObj_some (by exact upd_same _ _ _)]
    simp only []
    rw [setObj_some (by exact upd_same _ _ _)]
    simp only [chunksPush, M.bind_apply]
    rw [getObj_some (by exact upd_same _ _ _)]
    simp only [List.length_nil, if_true, M.bind_apply, tick]
    rw [delObj_some (by exact upd_same _ _ _)]
    simp only [upd_upd, upd_eq_self hd]
    congr 2
    exact W.thr.symm
  | k+2 => omega

theorem ctor_arm (hK : 2 ≤ K) (W : DW K st σ) (hx : σ x = none) :
    ∃ st', ctor K x st = .ok () st' ∧ DW K st' (upd σ x (some ⟨[st.next], 1, K / 2, []⟩)) ∧
      ∀ k, ctor K x { st with thr := some (k + 2) } = .ok () { st' with thr := some k } := by
  obtain ⟨st', h1, W'⟩ := ctor_spec hK W hx
  refine ⟨st', h1, W', cost_exact (ctor_cost st W.thr) h1 fun _ u t hc => ?_⟩
  obtain ⟨t', h2, _⟩ := ctor_throw W hx (k := 1) (by omega)
  rw [show 2 - 1 = 1 from rfl, h2] at hc
  cases hc

theorem set_throw (hK : 2 ≤ K) (W : DW K st σ) (hx : σ x = some s) {i : Nat} (hi : i < s.xs.length) :
    set K x i v { st with thr := some 0 } = .throw .elem st := by
  have hK0 : 0 < K := by omega
  obtain ⟨a, ha, hl⟩ := locate_spec hK0 W hx (idx_lt W hx hi)
  have hl' := cost_zero (locate_cost i st W.thr) hl 0
  simp only [set, M.bind_apply, hl']
  have h1 : (blk K (cell s.pos s.xs) ((s.pos + i) / K)).slot ((s.pos + i) % K) = some s.xs[i] := by
    rw [blk_slot hK0, cell_at]; simp [hi]
  have hm := W_heap W hx _ _ ha
  simp only [store, withSlot, deref, M.bind_apply, getC]
  rw [show ({ st with thr := some 0 } : DSt V).mem a = some _ from hm]
  simp only []
  rw [if_pos (show (s.pos + i) % K < (blk K (cell s.pos s.xs) ((s.pos + i) / K)).len from Nat.mod_lt _ hK0), h1]
  simp only [M.bind_apply, tick]
  rw [set_thr W.thr]

end Cest.Deq
