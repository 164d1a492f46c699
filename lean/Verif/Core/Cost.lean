import Verif.Core.Mem
/-
Counting the operations that may throw (allocations and element copies) by means of the countdown `thr`:
a computation that makes `c` of them, started with `thr = some (k + c)`, does what it does when nothing
throws and leaves `thr = some k`.  The lemmas follow the syntax of a program.
-/
namespace Cest
variable {O C α β : Type}

/-- Set the countdown in the final state. -/
def Res.arm (t : Option Nat) : Res (St O C) α → Res (St O C) α
  | .ok a s => .ok a { s with thr := t }
  | .throw e s => .throw e { s with thr := t }
  | .ub u => .ub u
  | .timeout => .timeout

/-- No countdown is running in the final state. -/
def Res.Calm : Res (St O C) α → Prop
  | .ok _ s => s.thr = none
  | .throw _ s => s.thr = none
  | .ub _ => True
  | .timeout => True

/-- From `s`, `m` makes at most `b` operations that may throw. -/
def CostAt (m : M (St O C) α) (s : St O C) (b : Nat) : Prop :=
  (m s).Calm ∧ ∃ c, c ≤ b ∧ ∀ k, m { s with thr := some (k + c) } = (m s).arm (some k)

/-- From every state, `m` makes at most `b` operations that may throw. -/
def CostLe (m : M (St O C) α) (b : Nat) : Prop := ∀ s, s.thr = none → CostAt m s b

theorem CostAt.mono {m : M (St O C) α} {s : St O C} {b b' : Nat} (h : CostAt m s b) (hb : b ≤ b') :
    CostAt m s b' := by
  obtain ⟨h1, c, hc, h2⟩ := h
  exact ⟨h1, c, by omega, h2⟩

theorem CostLe.mono {m : M (St O C) α} {b b' : Nat} (h : CostLe m b) (hb : b ≤ b') : CostLe m b' :=
  fun s hs => (h s hs).mono hb

theorem CostAt.ok {m : M (St O C) α} {s s' : St O C} {a : α} {b : Nat} (h : CostAt m s b)
    (hm : m s = .ok a s') : s'.thr = none ∧ ∃ c, c ≤ b ∧
      ∀ k, m { s with thr := some (k + c) } = .ok a { s' with thr := some k } := by
  obtain ⟨h1, c, hc, h2⟩ := h
  rw [hm] at h1 h2
  exact ⟨h1, c, hc, h2⟩

/-- Sequencing from a state in which the first part is known to end normally. -/
theorem CostAt.bind_ok {m : M (St O C) α} {f : α → M (St O C) β} {s s' : St O C} {a : α} {b₁ b₂ : Nat}
    (h : CostAt m s b₁) (hm : m s = .ok a s') (hf : CostAt (f a) s' b₂) :
    CostAt (m >>= f) s (b₁ + b₂) := by
  obtain ⟨_, c, hc, h2⟩ := h.ok hm
  obtain ⟨g1, d, hd, g2⟩ := hf
  refine ⟨by simpa only [M.bind_apply, hm] using g1, c + d, by omega, fun k => ?_⟩
  have := h2 (k + d)
  simp only [M.bind_apply, hm]
  rw [show k + (c + d) = k + d + c by omega, this]
  exact g2 k

theorem CostAt.bind {m : M (St O C) α} {f : α → M (St O C) β} {s : St O C} {b₁ b₂ : Nat}
    (h : CostAt m s b₁) (hf : ∀ a s', m s = .ok a s' → CostAt (f a) s' b₂) :
    CostAt (m >>= f) s (b₁ + b₂) := by
  cases hm : m s with
  | ok a s' => exact h.bind_ok hm (hf a s' hm)
  | throw e s' =>
    obtain ⟨h1, c, hc, h2⟩ := h
    rw [hm] at h1 h2
    refine ⟨by simp only [M.bind_apply, hm]; exact h1, c, by omega, fun k => ?_⟩
    simp only [M.bind_apply, hm, h2 k, Res.arm]
  | ub u =>
    obtain ⟨h1, c, hc, h2⟩ := h
    rw [hm] at h2
    refine ⟨by simp only [M.bind_apply, hm, Res.Calm], c, by omega, fun k => ?_⟩
    simp only [M.bind_apply, hm, h2 k, Res.arm]
  | timeout =>
    obtain ⟨h1, c, hc, h2⟩ := h
    rw [hm] at h2
    refine ⟨by simp only [M.bind_apply, hm, Res.Calm], c, by omega, fun k => ?_⟩
    simp only [M.bind_apply, hm, h2 k, Res.arm]

theorem CostAt.calm {m : M (St O C) α} {s s' : St O C} {a : α} {b : Nat} (h : CostAt m s b)
    (hm : m s = .ok a s') : s'.thr = none := (h.ok hm).1

theorem CostLe.bind {m : M (St O C) α} {f : α → M (St O C) β} {b₁ b₂ : Nat}
    (h : CostLe m b₁) (hf : ∀ a, CostLe (f a) b₂) : CostLe (m >>= f) (b₁ + b₂) := fun s hs =>
  (h s hs).bind fun a s' hm => hf a s' ((h s hs).calm hm)

theorem CostLe.map {m : M (St O C) α} {g : α → β} {b : Nat} (h : CostLe m b) : CostLe (g <$> m) b := by
  intro s hs
  obtain ⟨h1, c, hc, h2⟩ := h s hs
  refine ⟨?_, c, hc, fun k => ?_⟩
  · rw [M.map_apply]; cases hm : m s <;> simp_all [Res.Calm]
  · rw [M.map_apply, M.map_apply, h2 k]; cases hm : m s <;> simp [Res.arm]

theorem CostLe.pure (a : α) : CostLe (Pure.pure a : M (St O C) α) 0 := fun _ hs =>
  ⟨hs, 0, Nat.le_refl _, fun _ => rfl⟩
theorem CostAt.ret {m : M (St O C) α} {f : α → β} {s : St O C} {b : Nat} (h : CostAt m s b) :
    CostAt (do let a ← m; return f a) s b :=
  (h.bind (b₂ := 0) fun _ _ hm => CostLe.pure _ _ (h.calm hm)).mono (by omega)
theorem CostLe.ub (u : UB) : CostLe (M.ub u : M (St O C) α) 0 := fun _ _ =>
  ⟨trivial, 0, Nat.le_refl _, fun _ => rfl⟩
theorem CostLe.timeout : CostLe (M.timeout : M (St O C) α) 0 := fun _ _ =>
  ⟨trivial, 0, Nat.le_refl _, fun _ => rfl⟩
theorem CostLe.throw (e : Exc) : CostLe (M.throw e : M (St O C) α) 0 := fun _ hs =>
  ⟨hs, 0, Nat.le_refl _, fun _ => rfl⟩

theorem CostLe.ite {p : Prop} [Decidable p] {m n : M (St O C) α} {b : Nat} (h1 : p → CostLe m b)
    (h2 : ¬ p → CostLe n b) : CostLe (if p then m else n) b := by
  by_cases h : p
  · simpa [h] using h1 h
  · simpa [h] using h2 h

theorem CostLe.tryCatch {m : M (St O C) α} {f : Exc → M (St O C) α} {b₁ b₂ : Nat} (h : CostLe m b₁)
    (hf : ∀ e, CostLe (f e) b₂) : CostLe (M.tryCatch m f) (b₁ + b₂) := by
  intro s hs
  obtain ⟨h1, c, hc, h2⟩ := h s hs
  cases hm : m s with
  | throw e s' =>
    rw [hm] at h1 h2
    obtain ⟨g1, d, hd, g2⟩ := hf e s' h1
    refine ⟨by simpa only [M.tryCatch, hm] using g1, c + d, by omega, fun k => ?_⟩
    simp only [M.tryCatch, hm]
    rw [show k + (c + d) = k + d + c by omega, h2 (k + d)]
    exact g2 k
  | ok a s' =>
    rw [hm] at h1 h2
    refine ⟨by simpa only [M.tryCatch, hm] using h1, c, by omega, fun k => ?_⟩
    simp only [M.tryCatch, hm, h2 k, Res.arm]
  | ub u =>
    rw [hm] at h2
    refine ⟨by simp only [M.tryCatch, hm, Res.Calm], c, by omega, fun k => ?_⟩
    simp only [M.tryCatch, hm, h2 k, Res.arm]
  | timeout =>
    rw [hm] at h2
    refine ⟨by simp only [M.tryCatch, hm, Res.Calm], c, by omega, fun k => ?_⟩
    simp only [M.tryCatch, hm, h2 k, Res.arm]

/-- Cleanup code does not run when the body ends normally. -/
theorem CostAt.onThrow_ok {m : M (St O C) α} {f : M (St O C) Unit} {s s' : St O C} {a : α} {b : Nat}
    (h : CostAt m s b) (hm : m s = .ok a s') : CostAt (M.onThrow m f) s b := by
  obtain ⟨h1, c, hc, h2⟩ := h
  rw [hm] at h1 h2
  refine ⟨by simpa only [M.onThrow, hm] using h1, c, hc, fun k => ?_⟩
  simp only [M.onThrow, hm, h2 k, Res.arm]

/-- Cleanup code runs after an exception. -/
theorem CostLe.onThrow {m : M (St O C) α} {f : M (St O C) Unit} {b₁ b₂ : Nat} (h : CostLe m b₁)
    (hf : CostLe f b₂) : CostLe (M.onThrow m f) (b₁ + b₂) := by
  intro s hs
  obtain ⟨h1, c, hc, h2⟩ := h s hs
  cases hm : m s with
  | ok a s' => exact (CostAt.onThrow_ok ⟨h1, c, hc, h2⟩ hm).mono (by omega)
  | throw e s' =>
    rw [hm] at h1 h2
    obtain ⟨g1, d, hd, g2⟩ := hf s' h1
    refine ⟨?_, c + d, by omega, fun k => ?_⟩
    · simp only [M.onThrow, hm]
      cases hc : f s' <;> simp_all [Res.Calm]
    · simp only [M.onThrow, hm]
      rw [show k + (c + d) = k + d + c by omega, h2 (k + d)]
      simp only [Res.arm]
      rw [g2 k]
      cases hc : f s' <;> simp [Res.arm]
  | ub u =>
    rw [hm] at h2
    refine ⟨by simp only [M.onThrow, hm, Res.Calm], c, by omega, fun k => ?_⟩
    simp only [M.onThrow, hm, h2 k, Res.arm]
  | timeout =>
    rw [hm] at h2
    refine ⟨by simp only [M.onThrow, hm, Res.Calm], c, by omega, fun k => ?_⟩
    simp only [M.onThrow, hm, h2 k, Res.arm]

theorem CostLe.getObj (x : Nat) : CostLe (getObj x : M (St O C) O) 0 := by
  intro s hs
  refine ⟨?_, 0, Nat.le_refl _, fun k => ?_⟩ <;> simp only [Cest.getObj] <;> cases s.objs x <;>
    simp [Res.Calm, Res.arm, hs]
theorem CostLe.setObj (x : Nat) (o : O) : CostLe (setObj x o : M (St O C) Unit) 0 := by
  intro s hs
  refine ⟨?_, 0, Nat.le_refl _, fun k => ?_⟩ <;> simp only [Cest.setObj] <;> cases s.objs x <;>
    simp [Res.Calm, Res.arm, hs]
theorem CostLe.newObj (x : Nat) (o : O) : CostLe (newObj x o : M (St O C) Unit) 0 := by
  intro s hs
  refine ⟨?_, 0, Nat.le_refl _, fun k => ?_⟩ <;> simp only [Cest.newObj] <;> cases s.objs x <;>
    simp [Res.Calm, Res.arm, hs]
theorem CostLe.delObj (x : Nat) : CostLe (delObj x : M (St O C) Unit) 0 := by
  intro s hs
  refine ⟨?_, 0, Nat.le_refl _, fun k => ?_⟩ <;> simp only [Cest.delObj] <;> cases s.objs x <;>
    simp [Res.Calm, Res.arm, hs]
theorem CostLe.getC (a : Nat) : CostLe (getC a : M (St O C) C) 0 := by
  intro s hs
  refine ⟨?_, 0, Nat.le_refl _, fun k => ?_⟩ <;> simp only [Cest.getC] <;> cases s.mem a <;>
    simp [Res.Calm, Res.arm, hs]
theorem CostLe.setC (a : Nat) (c : C) : CostLe (setC a c : M (St O C) Unit) 0 := by
  intro s hs
  refine ⟨?_, 0, Nat.le_refl _, fun k => ?_⟩ <;> simp only [Cest.setC] <;> cases s.mem a <;>
    simp [Res.Calm, Res.arm, hs]
theorem CostLe.freeC (a : Nat) : CostLe (freeC a : M (St O C) Unit) 0 := by
  intro s hs
  refine ⟨?_, 0, Nat.le_refl _, fun k => ?_⟩ <;> simp only [Cest.freeC] <;> cases s.mem a <;>
    simp [Res.Calm, Res.arm, hs]
theorem CostLe.deref (p : Option Nat) : CostLe (deref p : M (St O C) Nat) 0 := by
  intro s hs
  refine ⟨?_, 0, Nat.le_refl _, fun k => ?_⟩ <;> cases p <;> simp [Cest.deref, Res.Calm, Res.arm, hs]
theorem CostLe.tick (e : Exc) : CostLe (tick e : M (St O C) Unit) 1 := by
  intro s hs
  refine ⟨by simp [Cest.tick, hs, Res.Calm], 1, Nat.le_refl _, fun k => ?_⟩
  simp [Cest.tick, hs, Res.arm]
theorem CostLe.allocC (c : C) : CostLe (allocC c : M (St O C) Nat) 1 := by
  intro s hs
  refine ⟨by simp [hs, Res.Calm], 1, Nat.le_refl _, fun k => ?_⟩
  simp [Cest.allocC, Cest.tick, hs, Res.arm]

theorem CostLe.forN {f : Nat → M (St O C) Unit} {b : Nat} (h : ∀ i, CostLe (f i) b) (i n : Nat) :
    CostLe (forN f i n) (n * b) := by
  induction n generalizing i with
  | zero => exact (CostLe.pure ()).mono (Nat.zero_le _)
  | succ n ih => exact ((h i).bind fun _ => ih (i+1)).mono (by rw [Nat.succ_mul]; omega)

theorem getObj_inv {x : Nat} {s s' : St O C} {o : O} (h : getObj x s = .ok o s') :
    s' = s ∧ s.objs x = some o := by
  unfold getObj at h
  cases hs : s.objs x with
  | none => rw [hs] at h; cases h
  | some o' => rw [hs] at h; cases h; exact ⟨rfl, rfl⟩
theorem setObj_inv {x : Nat} {s s' : St O C} {o : O} {u : Unit} (h : setObj x o s = .ok u s') :
    s' = { s with objs := upd s.objs x (some o) } := by
  unfold setObj at h
  cases hs : s.objs x with
  | none => rw [hs] at h; cases h
  | some o' => rw [hs] at h; cases h; rfl
theorem onThrow_inv {m : M (St O C) α} {f : M (St O C) Unit} {s s' : St O C} {a : α}
    (h : M.onThrow m f s = .ok a s') : m s = .ok a s' := by
  unfold M.onThrow at h
  cases hm : m s with
  | ok b t => rw [hm] at h; exact h
  | ub u => rw [hm] at h; cases h
  | timeout => rw [hm] at h; cases h
  | throw e t =>
    rw [hm] at h
    simp only at h
    cases hf : f t <;> rw [hf] at h <;> cases h

section arrays
variable {V : Type}

theorem CostLe.allocArr (n : Nat) : CostLe (allocArr n : M (St O (Blk V)) Nat) 1 := CostLe.allocC _

theorem CostLe.freeArr (p : Option Nat) (n : Nat) : CostLe (freeArr p n : M (St O (Blk V)) Unit) 0 := by
  intro s hs
  cases p with
  | none => exact ⟨trivial, 0, Nat.le_refl _, fun _ => rfl⟩
  | some a =>
    refine ⟨?_, 0, Nat.le_refl _, fun k => ?_⟩
    · simp only [Cest.freeArr]
      cases s.mem a with
      | none => simp [Res.Calm]
      | some b => simp only; split <;> (try split) <;> simp [Res.Calm, hs]
    · simp only [Cest.freeArr]
      cases s.mem a with
      | none => simp [Res.arm]
      | some b => simp only; split <;> (try split) <;> simp [Res.arm]

theorem CostLe.withSlot {p : Option Nat} {i b : Nat} {f : Nat → Blk V → M (St O (Blk V)) α}
    (h : ∀ a c, CostLe (f a c) b) : CostLe (withSlot p i f) b := by
  unfold Cest.withSlot
  refine ((CostLe.deref p).bind fun a => (CostLe.getC a).bind fun c =>
    CostLe.ite (b := b) (fun _ => h a c) (fun _ => (CostLe.ub _).mono (Nat.zero_le _))).mono (by omega)

theorem CostLe.constructAt (p : Option Nat) (i : Nat) (v : V) :
    CostLe (constructAt p i v : M (St O (Blk V)) Unit) 1 := by
  refine CostLe.withSlot fun a c => ?_
  cases c.slot i with
  | none => exact (CostLe.tick _).bind fun _ => CostLe.setC _ _
  | some w => exact (CostLe.ub _).mono (Nat.zero_le _)

theorem CostLe.destroyAt (p : Option Nat) (i : Nat) : CostLe (destroyAt p i : M (St O (Blk V)) Unit) 0 := by
  refine CostLe.withSlot fun a c => ?_
  cases c.slot i with
  | none => exact CostLe.ub _
  | some w => exact CostLe.setC _ _

theorem CostLe.destroyN (p : Option Nat) (i n : Nat) : CostLe (destroyN p i n : M (St O (Blk V)) Unit) 0 :=
  (CostLe.forN (b := 0) (fun i => CostLe.destroyAt p i) i n).mono (by simp)

theorem CostLe.load (p : Option Nat) (i : Nat) : CostLe (load p i : M (St O (Blk V)) V) 0 := by
  refine CostLe.withSlot fun a c => ?_
  cases c.slot i with
  | none => exact CostLe.ub _
  | some w => exact CostLe.pure _

theorem CostLe.store (p : Option Nat) (i : Nat) (v : V) :
    CostLe (store p i v : M (St O (Blk V)) Unit) 1 := by
  refine CostLe.withSlot fun a c => ?_
  cases c.slot i with
  | none => exact (CostLe.ub _).mono (Nat.zero_le _)
  | some w => exact (CostLe.tick _).bind fun _ => CostLe.setC _ _

end arrays

/-- Straight-line code that makes no operation that may throw. -/
macro "cost0" : tactic => `(tactic| repeat (first
  | exact CostLe.pure _ | exact CostLe.ub _ | exact CostLe.timeout | exact CostLe.throw _
  | exact CostLe.getObj _ | exact CostLe.setObj _ _ | exact CostLe.newObj _ _ | exact CostLe.delObj _
  | exact CostLe.getC _ | exact CostLe.setC _ _ | exact CostLe.freeC _ | exact CostLe.deref _
  | exact CostLe.load _ _ | exact CostLe.destroyAt _ _ | exact CostLe.destroyN _ _ _
  | exact CostLe.freeArr _ _
  | assumption
  | refine CostLe.bind (b₁ := 0) (b₂ := 0) ?_ (fun _ => ?_)
  | refine CostLe.ite (fun _ => ?_) (fun _ => ?_)))

end Cest
