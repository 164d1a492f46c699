import Verif.Core.Cost
/-
Counting the operations that may throw in programs over linked nodes, relative to the number of nodes
allocated (`next` counts the allocations of the machine).
-/
namespace Cest
variable {O C α β : Type}

/-- `m` makes at most `w` operations that may throw for each allocation, and `b` more (`b` may be
negative). -/
def NCost (w : Nat) (m : M (St O C) α) (b : Int) : Prop :=
  ∀ s, s.thr = none → (m s).Calm ∧ ∃ c : Nat,
    (∀ a s', m s = .ok a s' → s.next ≤ s'.next ∧ (c : Int) ≤ w * ((s'.next : Int) - s.next) + b) ∧
    ∀ k, m { s with thr := some (k + c) } = (m s).arm (some k)

variable {w : Nat}

theorem NCost.mono {m : M (St O C) α} {b b' : Int} (h : NCost w m b) (hb : b ≤ b') : NCost w m b' := by
  intro s hs
  obtain ⟨h1, c, h2, h3⟩ := h s hs
  exact ⟨h1, c, fun a s' hm => ⟨(h2 a s' hm).1, by have := (h2 a s' hm).2; omega⟩, h3⟩

theorem NCost.bind {m : M (St O C) α} {f : α → M (St O C) β} {b₁ b₂ : Int} (h : NCost w m b₁)
    (hf : ∀ a, NCost w (f a) b₂) : NCost w (m >>= f) (b₁ + b₂) := by
  intro s hs
  obtain ⟨h1, c, h2, h3⟩ := h s hs
  cases hm : m s with
  | ok a s' =>
    rw [hm] at h1 h3
    obtain ⟨g1, d, g2, g3⟩ := hf a s' h1
    obtain ⟨n1, n2⟩ := h2 a s' hm
    refine ⟨by simpa only [M.bind_apply, hm] using g1, c + d, fun b t hb => ?_, fun k => ?_⟩
    · simp only [M.bind_apply, hm] at hb
      obtain ⟨n3, n4⟩ := g2 b t hb
      refine ⟨by omega, ?_⟩
      have e : (w : Int) * ((t.next : Int) - s.next) =
          w * ((t.next : Int) - s'.next) + w * ((s'.next : Int) - s.next) := by
        rw [← Int.mul_add]; congr 1; omega
      rw [e]; push_cast; omega
    · simp only [M.bind_apply, hm]
      rw [show k + (c + d) = k + d + c by omega, h3 (k + d)]
      exact g3 k
  | throw e s' =>
    rw [hm] at h1 h3
    refine ⟨by simp only [M.bind_apply, hm]; exact h1, c, fun b t hb => ?_, fun k => ?_⟩
    · simp only [M.bind_apply, hm] at hb; cases hb
    · simp only [M.bind_apply, hm, h3 k, Res.arm]
  | ub u =>
    rw [hm] at h3
    refine ⟨by simp only [M.bind_apply, hm, Res.Calm], c, fun b t hb => ?_, fun k => ?_⟩
    · simp only [M.bind_apply, hm] at hb; cases hb
    · simp only [M.bind_apply, hm, h3 k, Res.arm]
  | timeout =>
    rw [hm] at h3
    refine ⟨by simp only [M.bind_apply, hm, Res.Calm], c, fun b t hb => ?_, fun k => ?_⟩
    · simp only [M.bind_apply, hm] at hb; cases hb
    · simp only [M.bind_apply, hm, h3 k, Res.arm]

/-- Cleanup code may run only after an exception, so its cost does not count. -/
theorem NCost.onThrow {m : M (St O C) α} {f : M (St O C) Unit} {b b' : Int} (h : NCost w m b)
    (hf : NCost w f b') : NCost w (M.onThrow m f) b := by
  intro s hs
  obtain ⟨h1, c, h2, h3⟩ := h s hs
  cases hm : m s with
  | ok a s' =>
    rw [hm] at h1 h3
    refine ⟨by simpa only [M.onThrow, hm] using h1, c, fun b t hb => ?_, fun k => ?_⟩
    · simp only [M.onThrow, hm] at hb; cases hb; exact h2 _ _ hm
    · simp only [M.onThrow, hm, h3 k, Res.arm]
  | throw e s' =>
    rw [hm] at h1 h3
    obtain ⟨g1, d, g2, g3⟩ := hf s' h1
    refine ⟨?_, c + d, fun b t hb => ?_, fun k => ?_⟩
    · simp only [M.onThrow, hm]
      cases hc : f s' <;> simp_all [Res.Calm]
    · simp only [M.onThrow, hm] at hb
      cases hc : f s' <;> rw [hc] at hb <;> cases hb
    · simp only [M.onThrow, hm]
      rw [show k + (c + d) = k + d + c by omega, h3 (k + d)]
      simp only [Res.arm]
      rw [g3 k]
      cases hc : f s' <;> simp [Res.arm]
  | ub u =>
    rw [hm] at h3
    refine ⟨by simp only [M.onThrow, hm, Res.Calm], c, fun b t hb => ?_, fun k => ?_⟩
    · simp only [M.onThrow, hm] at hb; cases hb
    · simp only [M.onThrow, hm, h3 k, Res.arm]
  | timeout =>
    rw [hm] at h3
    refine ⟨by simp only [M.onThrow, hm, Res.Calm], c, fun b t hb => ?_, fun k => ?_⟩
    · simp only [M.onThrow, hm] at hb; cases hb
    · simp only [M.onThrow, hm, h3 k, Res.arm]

/-- Computations that allocate nothing. -/
theorem NCost.of_cost {m : M (St O C) α} {b : Nat} (h : CostLe m b)
    (hn : ∀ s a s', m s = .ok a s' → s'.next = s.next) : NCost w m b := by
  intro s hs
  obtain ⟨h1, c, hc, h2⟩ := h s hs
  refine ⟨h1, c, fun a s' hm => ?_, h2⟩
  have e := hn s a s' hm
  rw [e]
  exact ⟨Nat.le_refl _, by simp; omega⟩

theorem NCost.pure (a : α) : NCost w (Pure.pure a : M (St O C) α) 0 :=
  NCost.of_cost (CostLe.pure a) (by intro s a s' h; cases h; rfl)
theorem NCost.ub (u : UB) : NCost w (M.ub u : M (St O C) α) 0 :=
  NCost.of_cost (CostLe.ub u) (by intro s a s' h; cases h)
theorem NCost.timeout : NCost w (M.timeout : M (St O C) α) 0 :=
  NCost.of_cost CostLe.timeout (by intro s a s' h; cases h)
/-- Undefined behaviour and lack of fuel end the program, at no price. -/
theorem NCost.ub' (u : UB) (b : Int) : NCost w (M.ub u : M (St O C) α) b := fun _ _ =>
  ⟨trivial, 0, And.intro (fun _ _ h => nomatch h) (fun _ => rfl)⟩
theorem NCost.timeout' (b : Int) : NCost w (M.timeout : M (St O C) α) b := fun _ _ =>
  ⟨trivial, 0, And.intro (fun _ _ h => nomatch h) (fun _ => rfl)⟩

theorem NCost.ite {p : Prop} [Decidable p] {m n : M (St O C) α} {b : Int} (h1 : p → NCost w m b)
    (h2 : ¬ p → NCost w n b) : NCost w (if p then m else n) b := by
  by_cases h : p
  · simpa [h] using h1 h
  · simpa [h] using h2 h

theorem NCost.getObj (x : Nat) : NCost w (getObj x : M (St O C) O) 0 :=
  NCost.of_cost (CostLe.getObj x) (by
    intro s a s' h; unfold Cest.getObj at h; cases hs : s.objs x <;> rw [hs] at h <;> cases h; rfl)
theorem NCost.setObj (x : Nat) (o : O) : NCost w (setObj x o : M (St O C) Unit) 0 :=
  NCost.of_cost (CostLe.setObj x o) (by
    intro s a s' h; unfold Cest.setObj at h; cases hs : s.objs x <;> rw [hs] at h <;> cases h; rfl)
theorem NCost.newObj (x : Nat) (o : O) : NCost w (newObj x o : M (St O C) Unit) 0 :=
  NCost.of_cost (CostLe.newObj x o) (by
    intro s a s' h; unfold Cest.newObj at h; cases hs : s.objs x <;> rw [hs] at h <;> cases h; rfl)
theorem NCost.delObj (x : Nat) : NCost w (delObj x : M (St O C) Unit) 0 :=
  NCost.of_cost (CostLe.delObj x) (by
    intro s a s' h; unfold Cest.delObj at h; cases hs : s.objs x <;> rw [hs] at h <;> cases h; rfl)
theorem NCost.getC (a : Nat) : NCost w (getC a : M (St O C) C) 0 :=
  NCost.of_cost (CostLe.getC a) (by
    intro s b s' h; unfold Cest.getC at h; cases hs : s.mem a <;> rw [hs] at h <;> cases h; rfl)
theorem NCost.setC (a : Nat) (c : C) : NCost w (setC a c : M (St O C) Unit) 0 :=
  NCost.of_cost (CostLe.setC a c) (by
    intro s b s' h; unfold Cest.setC at h; cases hs : s.mem a <;> rw [hs] at h <;> cases h; rfl)
theorem NCost.freeC (a : Nat) : NCost w (freeC a : M (St O C) Unit) 0 :=
  NCost.of_cost (CostLe.freeC a) (by
    intro s b s' h; unfold Cest.freeC at h; cases hs : s.mem a <;> rw [hs] at h <;> cases h; rfl)
theorem NCost.deref (p : Option Nat) : NCost w (deref p : M (St O C) Nat) 0 :=
  NCost.of_cost (CostLe.deref p) (by intro s b s' h; cases p <;> cases h; rfl)
theorem NCost.tick (e : Exc) : NCost w (tick e : M (St O C) Unit) 1 :=
  NCost.of_cost (CostLe.tick e) (by
    intro s b s' h
    unfold Cest.tick at h
    split at h <;> cases h <;> rfl)
theorem NCost.allocC (c : C) : NCost w (allocC c : M (St O C) Nat) (1 - w) := by
  intro s hs
  obtain ⟨h1, d, hd, h2⟩ := CostLe.allocC (O := O) c s hs
  refine ⟨h1, d, fun a s' hm => ?_, h2⟩
  rw [allocC_none hs] at hm
  cases hm
  refine ⟨by simp, ?_⟩
  have e : (((s.next + 1 : Nat) : Int) - s.next) = 1 := by omega
  rw [e]
  omega

/-- Code that neither allocates nor copies. -/
macro "ncost0" : tactic => `(tactic| repeat (first
  | exact NCost.pure _ | exact NCost.ub _ | exact NCost.timeout
  | exact NCost.getObj _ | exact NCost.setObj _ _ | exact NCost.newObj _ _ | exact NCost.delObj _
  | exact NCost.getC _ | exact NCost.setC _ _ | exact NCost.freeC _ | exact NCost.deref _
  | assumption
  | refine NCost.bind (b₁ := 0) (b₂ := 0) ?_ (fun _ => ?_)
  | refine NCost.ite (fun _ => ?_) (fun _ => ?_)
  | split))

end Cest
