import Verif.Core.Cost
import Verif.Uptr.Props
import Verif.Uptr.OomSpec
/-
Running programs that catch exceptions on the models of unique_ptr and function, and lemmas for C143.
-/
namespace Cest.Uptr
open Cest
variable {V A R : Type}

/-- Each operation is run as `try { op } catch (...) {}`, with the given number of allocations that succeed. -/
def runT : List (Option Nat × Op V) → UM V (List (Option (Out V R)))
  | [] => pure []
  | (t, op) :: ops => fun s =>
    match (runOp op : UM V (Out V R)) { s with thr := t } with
    | .ok o s' => (do
        let os ← runT ops
        pure (some o :: os) : UM V _) { s' with thr := none }
    | .throw _ s' => (do
        let os ← runT ops
        pure (none :: os) : UM V _) { s' with thr := none }
    | .ub u => .ub u
    | .timeout => .timeout

def frunT (call : V → A → R × V) : List (Option Nat × FOp V A) → UM V (List (Option (Out V R)))
  | [] => pure []
  | (t, op) :: ops => fun s =>
    match runFOp call op { s with thr := t } with
    | .ok o s' => (do
        let os ← frunT call ops
        pure (some o :: os) : UM V _) { s' with thr := none }
    | .throw _ s' => (do
        let os ← frunT call ops
        pure (none :: os) : UM V _) { s' with thr := none }
    | .ub u => .ub u
    | .timeout => .timeout

macro "ucost" : tactic => `(tactic| repeat (first
  | exact CostLe.pure _ | exact CostLe.ub _
  | exact CostLe.getObj _ | exact CostLe.setObj _ _ | exact CostLe.newObj _ _ | exact CostLe.delObj _
  | exact CostLe.freeC _ | exact CostLe.getC _ | exact CostLe.setC _ _
  | exact CostLe.deref _
  | refine CostLe.bind (b₁ := 0) (b₂ := 0) ?_ (fun _ => ?_)
  | refine CostLe.ite (fun _ => ?_) (fun _ => ?_)
  | split))

theorem getPtr_cost (k : Kind) (x : Nat) : CostLe (getPtr k x : UM V _) 0 := by unfold getPtr; ucost
theorem setPtr_cost (k : Kind) (x : Nat) (p : Option Nat) : CostLe (setPtr k x p : UM V _) 0 := by
  unfold setPtr; exact CostLe.bind (getPtr_cost k x) (fun _ => CostLe.setObj _ _)
theorem getVal_cost (x : Nat) : CostLe (getVal x : UM V _) 0 := by unfold getVal; ucost
theorem del_cost (p : Option Nat) : CostLe (del p : UM V _) 0 := by cases p <;> unfold del <;> ucost

macro "vcost" : tactic => `(tactic| repeat (first
  | exact CostLe.pure _ | exact CostLe.ub _ | exact getPtr_cost _ _ | exact setPtr_cost _ _ _ | exact del_cost _
  | exact getVal_cost _
  | exact CostLe.getObj _ | exact CostLe.setObj _ _ | exact CostLe.newObj _ _ | exact CostLe.delObj _
  | exact CostLe.freeC _ | exact CostLe.getC _ | exact CostLe.setC _ _
  | exact CostLe.deref _
  | refine CostLe.bind (b₁ := 0) (b₂ := 0) ?_ (fun _ => ?_)
  | refine CostLe.ite (fun _ => ?_) (fun _ => ?_)
  | split))

theorem runOp_cost (op : Op V) : CostLe (runOp op : UM V (Out V R)) (if op.creates then 1 else 0) := by
  cases op with
  | make x v =>
    simp only [runOp, makeUnique, ctorPtr, Op.creates, if_true]
    exact CostLe.bind (b₁ := 1) (b₂ := 0) (CostLe.bind (b₁ := 1) (b₂ := 0) (CostLe.allocC _)
      (fun _ => CostLe.newObj _ _)) (fun _ => CostLe.pure _)
  | resetNew x v =>
    simp only [runOp, reset, Op.creates, if_true]
    refine CostLe.bind (b₁ := 1) (b₂ := 0) (CostLe.allocC _) (fun _ => ?_)
    vcost
  | _ =>
    simp only [runOp, ctor, ctorPtr, ctorMove, moveAssign, reset, release, dtor, star, starSet, toBool, eq, ne, get,
      Op.creates, Bool.false_eq_true, if_false] <;> vcost

theorem runFOp_cost (call : V → A → R × V) (op : FOp V A) : CostLe (runFOp call op) (if op.creates then 1 else 0) := by
  cases op with
  | new x c =>
    simp only [runFOp, funCtor, makeUnique, ctorPtr, FOp.creates, if_true]
    exact CostLe.bind (b₁ := 1) (b₂ := 0) (CostLe.bind (b₁ := 0) (b₂ := 1) (getVal_cost _) (fun _ =>
      CostLe.bind (b₁ := 1) (b₂ := 0) (CostLe.allocC _)
      (fun _ => CostLe.newObj _ _))) (fun _ => CostLe.pure _)
  | _ =>
    simp only [runFOp, callVal, funCall, funMove, funMoveAssign, funDtor, ctorPtr, ctorMove, moveAssign, release, dtor,
      FOp.creates, Bool.false_eq_true, if_false] <;> vcost

theorem Reps.thr {st : USt V} {e : Env V} (h : Reps st e) : st.thr = none := by
  obtain ⟨σ, h, _⟩ := h
  exact h.thr

theorem set_thr {st : USt V} (h : st.thr = none) : ({ st with thr := none } : USt V) = st := by
  cases st
  simp_all

/-- A computation with few enough allocations ends normally. -/
theorem ends {α : Type} {m : UM V α} {st st' : USt V} {a : α} {b : Nat} {t : Option Nat} (hc : CostLe m b)
    (ht : st.thr = none) (h : m st = .ok a st') (hb : ∀ k, t = some k → b ≤ k) :
    ∃ t', m { st with thr := t } = .ok a { st' with thr := t' } := by
  obtain ⟨h1, d, hd, h2⟩ := (hc st ht).ok h
  cases t with
  | none => exact ⟨none, by rw [set_thr ht, h, set_thr h1]⟩
  | some k =>
    have := h2 (k - d)
    rw [Nat.sub_add_cancel (by have := hb k rfl; omega)] at this
    exact ⟨_, this⟩

theorem step_throw {st : USt V} {e e' : Env V} {op : Op V} {o : Out V R} (h : Reps st e)
    (_hs : specStep e op = some (e', o)) (hc : op.creates = true) :
    (runOp op : UM V (Out V R)) { st with thr := some 0 } = .throw .badAlloc st := by
  have ht := set_thr h.thr
  cases op <;> simp only [Op.creates, Bool.false_eq_true] at hc
  · simp only [runOp, makeUnique, M.bind_apply, allocC, tick]
    exact congrArg _ ht
  · simp only [runOp, M.bind_apply, allocC, tick]
    exact congrArg _ ht

theorem fstep_throw (call : V → A → R × V) {st : USt V} {e e' : Env V} {op : FOp V A} {o : Out V R} (h : Reps st e)
    (hs : fspecStep call e op = some (e', o)) (hc : op.creates = true) :
    runFOp call op { st with thr := some 0 } = .throw .badAlloc st := by
  have ht := set_thr h.thr
  cases op <;> simp only [FOp.creates, Bool.false_eq_true] at hc
  rename_i x c
  simp only [fspecStep] at hs
  split at hs <;> simp at hs
  rename_i v hx hv
  obtain ⟨σ, hW, he⟩ := h
  have hv := W_val hW (env_val he hv)
  simp only [runFOp, funCtor, makeUnique, M.bind_apply]
  rw [getVal_ok (st := { st with thr := some 0 }) hv]
  simp only [allocC, tick]
  exact congrArg _ ht

theorem runT_refines {ops : List (Option Nat × Op V)} : ∀ {st : USt V} {e e' : Env V} {os : List (Option (Out V R))},
    Reps st e → specRunT e ops = some (e', os) → ∃ st', runT ops st = .ok os st' ∧ Reps st' e' := by
  induction ops with
  | nil =>
    intro st e e' os h hs
    simp only [specRunT, Option.some.injEq, Prod.mk.injEq] at hs
    obtain ⟨rfl, rfl⟩ := hs
    exact ⟨st, rfl, h⟩
  | cons p ops ih =>
    obtain ⟨t, op⟩ := p
    intro st e e' os h hs
    simp only [specRunT] at hs
    cases h1 : specStep (R := R) e op with
    | none => rw [h1] at hs; cases hs
    | some r =>
      obtain ⟨e1, o⟩ := r
      rw [h1] at hs
      simp only at hs
      split at hs
      · rename_i hc
        obtain ⟨r, h3, h4⟩ := Option.map_eq_some_iff.1 hs
        simp only [Prod.mk.injEq] at h4
        obtain ⟨rfl, rfl⟩ := h4
        obtain ⟨rfl, hc⟩ := hc
        obtain ⟨st2, h5, h6⟩ := ih h h3
        refine ⟨st2, ?_, h6⟩
        simp only [runT, step_throw h h1 hc, set_thr h.thr, M.bind_apply, h5]
        rfl
      · rename_i hc
        obtain ⟨r, h3, h4⟩ := Option.map_eq_some_iff.1 hs
        simp only [Prod.mk.injEq] at h4
        obtain ⟨rfl, rfl⟩ := h4
        obtain ⟨st1, h5, h6⟩ := step_refines h h1
        obtain ⟨t', h7⟩ := ends (t := t) (runOp_cost op) h.thr h5 (by
          rintro k rfl
          split
          · rename_i hcr
            rcases Nat.eq_zero_or_pos k with rfl | hk
            · exact absurd ⟨rfl, hcr⟩ hc
            · exact hk
          · omega)
        obtain ⟨st2, h8, h9⟩ := ih h6 h3
        refine ⟨st2, ?_, h9⟩
        simp only [runT, h7, M.bind_apply, set_thr h6.thr, h8]
        rfl

theorem frunT_refines (call : V → A → R × V) {ops : List (Option Nat × FOp V A)} : ∀ {st : USt V} {e e' : Env V}
    {os : List (Option (Out V R))}, Reps st e → fspecRunT call e ops = some (e', os) →
    ∃ st', frunT call ops st = .ok os st' ∧ Reps st' e' := by
  induction ops with
  | nil =>
    intro st e e' os h hs
    simp only [fspecRunT, Option.some.injEq, Prod.mk.injEq] at hs
    obtain ⟨rfl, rfl⟩ := hs
    exact ⟨st, rfl, h⟩
  | cons p ops ih =>
    obtain ⟨t, op⟩ := p
    intro st e e' os h hs
    simp only [fspecRunT] at hs
    cases h1 : fspecStep call e op with
    | none => rw [h1] at hs; cases hs
    | some r =>
      obtain ⟨e1, o⟩ := r
      rw [h1] at hs
      simp only at hs
      split at hs
      · rename_i hc
        obtain ⟨r, h3, h4⟩ := Option.map_eq_some_iff.1 hs
        simp only [Prod.mk.injEq] at h4
        obtain ⟨rfl, rfl⟩ := h4
        obtain ⟨rfl, hc⟩ := hc
        obtain ⟨st2, h5, h6⟩ := ih h h3
        refine ⟨st2, ?_, h6⟩
        simp only [frunT, fstep_throw call h h1 hc, set_thr h.thr, M.bind_apply, h5]
        rfl
      · rename_i hc
        obtain ⟨r, h3, h4⟩ := Option.map_eq_some_iff.1 hs
        simp only [Prod.mk.injEq] at h4
        obtain ⟨rfl, rfl⟩ := h4
        obtain ⟨st1, h5, h6⟩ := fstep_refines call h h1
        obtain ⟨t', h7⟩ := ends (t := t) (runFOp_cost call op) h.thr h5 (by
          rintro k rfl
          split
          · rename_i hcr
            rcases Nat.eq_zero_or_pos k with rfl | hk
            · exact absurd ⟨rfl, hcr⟩ hc
            · exact hk
          · omega)
        obtain ⟨st2, h8, h9⟩ := ih h6 h3
        refine ⟨st2, ?_, h9⟩
        simp only [frunT, h7, M.bind_apply, set_thr h6.thr, h8]
        rfl

end Cest.Uptr
