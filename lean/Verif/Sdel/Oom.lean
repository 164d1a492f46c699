import Verif.Sdel.Props
import Verif.Sdel.OomSpec
import Verif.Sdel.OomRun
import Verif.Core.Cost
/-
Lemmas for C149: shared_ptr operations with deleters that run out of storage.
-/
namespace Cest.Sdel
open Cest
variable {V D : Type} {frees : Nat → Bool} {virt : Bool}

/-! ### Operations that allocate nothing -/

/-- `m` does not look at the countdown. -/
def Blind {α : Type} (m : DM V D α) : Prop := ∀ s t, m (s.arm t) = match m s with
  | .ok a s' => .ok a (s'.arm t)
  | .throw e s' => .throw e (s'.arm t)
  | .ub u => .ub u
  | .timeout => .timeout

theorem Blind.pure {α : Type} (a : α) : Blind (Pure.pure a : DM V D α) := fun _ _ => rfl
theorem Blind.ub {α : Type} (u : UB) : Blind (M.ub u : DM V D α) := fun _ _ => rfl
theorem Blind.logCall (c : Call D) : Blind (logCall c : DM V D Unit) := fun _ _ => rfl
theorem Blind.deref (p : Option Nat) : Blind (deref p : DM V D Nat) := by cases p <;> exact fun _ _ => rfl
theorem Blind.bind {α β : Type} {m : DM V D α} {f : α → DM V D β} (h : Blind m) (hf : ∀ a, Blind (f a)) :
    Blind (m >>= f) := by
  intro s t
  simp only [M.bind_apply, h s t]
  cases m s with
  | ok a s' => exact hf a s' t
  | throw e s' => rfl
  | ub u => rfl
  | timeout => rfl
theorem Blind.ite {α : Type} {p : Prop} [Decidable p] {m n : DM V D α} (h1 : Blind m) (h2 : Blind n) :
    Blind (if p then m else n) := by
  split
  · exact h1
  · exact h2
theorem Blind.lift {α : Type} {m : M (St Obj (Cell V D)) α} (h : ∀ s k, m { s with thr := k } = (m s).arm k) :
    Blind (lift m) := by
  intro s t
  have e := h s.st t
  show Sdel.lift m ⟨{ s.st with thr := t }, s.log⟩ = _
  unfold Sdel.lift
  simp only [e]
  cases m s.st <;> rfl
theorem Blind.getObj (x : Nat) : Blind (Sdel.lift (getObj x) : DM V D Obj) :=
  Blind.lift fun s k => by simp only [Cest.getObj]; cases s.objs x <;> rfl
theorem Blind.setObj (x : Nat) (o : Obj) : Blind (Sdel.lift (setObj x o) : DM V D Unit) :=
  Blind.lift fun s k => by simp only [Cest.setObj]; cases s.objs x <;> rfl
theorem Blind.newObj (x : Nat) (o : Obj) : Blind (Sdel.lift (newObj x o) : DM V D Unit) :=
  Blind.lift fun s k => by simp only [Cest.newObj]; cases s.objs x <;> rfl
theorem Blind.delObj (x : Nat) : Blind (Sdel.lift (delObj x) : DM V D Unit) :=
  Blind.lift fun s k => by simp only [Cest.delObj]; cases s.objs x <;> rfl
theorem Blind.getC (a : Nat) : Blind (Sdel.lift (getC a) : DM V D (Cell V D)) :=
  Blind.lift fun s k => by simp only [Cest.getC]; cases s.mem a <;> rfl
theorem Blind.setC (a : Nat) (c : Cell V D) : Blind (Sdel.lift (setC a c) : DM V D Unit) :=
  Blind.lift fun s k => by simp only [Cest.setC]; cases s.mem a <;> rfl
theorem Blind.freeC (a : Nat) : Blind (Sdel.lift (freeC a) : DM V D Unit) :=
  Blind.lift fun s k => by simp only [Cest.freeC]; cases s.mem a <;> rfl

macro "sblind" : tactic => `(tactic| repeat (first
  | exact Blind.pure _ | exact Blind.ub _ | exact Blind.logCall _ | exact Blind.deref _
  | exact Blind.getObj _ | exact Blind.setObj _ _ | exact Blind.newObj _ _ | exact Blind.delObj _
  | exact Blind.getC _ | exact Blind.setC _ _ | exact Blind.freeC _
  | refine Blind.bind ?_ (fun _ => ?_)
  | refine Blind.ite ?_ ?_
  | split))

theorem getCtrl_blind (c : Option Nat) : Blind (getCtrl c : DM V D _) := by unfold getCtrl; sblind
theorem destroy_blind (m : Option Nat) (d : Del D) : Blind (destroy frees virt m d : DM V D Unit) := by
  cases d with
  | one => cases m <;> simp only [destroy, delOne] <;> sblind
  | arr => cases m <;> simp only [destroy, delArr] <;> sblind
  | user k v => cases m <;> simp only [destroy, callDel] <;> sblind
theorem dtor_blind (x : Nat) : Blind (dtor frees virt x : DM V D Unit) := by
  unfold dtor
  refine Blind.bind (Blind.getObj _) (fun r => ?_)
  split
  · exact Blind.delObj _
  · refine Blind.bind (getCtrl_blind _) (fun _ => Blind.bind (Blind.setC _ _) (fun _ => Blind.ite ?_ (Blind.delObj _)))
    exact Blind.bind (destroy_blind _ _) (fun _ => Blind.bind (Blind.freeC _) (fun _ => Blind.delObj _))

/-- Does the operation create a shared_ptr from a pointer? -/
def Op.makes : Op V D → Bool
  | .make _ _ _ | .makeDel _ _ _ _ _ => true
  | _ => false

theorem runOp_blind (op : Op V D) (h : op.makes = false) : Blind (runOp frees virt op) := by
  cases op with
  | make => cases h
  | makeDel => cases h
  | copy x z =>
    simp only [runOp, ctorCopy]
    refine Blind.bind (Blind.bind (Blind.getObj _) (fun _ => Blind.bind (Blind.newObj _ _) (fun _ =>
      Blind.bind (getCtrl_blind _) (fun _ => Blind.setC _ _)))) (fun _ => Blind.pure _)
  | destroy x => simp only [runOp]; exact Blind.bind (dtor_blind x) (fun _ => Blind.pure _)
  | useCount x =>
    simp only [runOp, useCount]
    refine Blind.bind (Blind.bind (Blind.getObj _) (fun r => ?_)) (fun _ => Blind.pure _)
    split
    · exact Blind.pure _
    · exact Blind.bind (getCtrl_blind _) (fun _ => Blind.pure _)
  | getDel x k =>
    simp only [runOp, getDeleter]
    refine Blind.bind (Blind.bind (Blind.getObj _) (fun r => ?_)) (fun _ => Blind.pure _)
    split
    · exact Blind.pure _
    · refine Blind.bind (getCtrl_blind _) (fun _ => ?_)
      sblind
  | get x => simp only [runOp, star]; sblind
  | idx x i => simp only [runOp, index]; sblind
  | idxSet x i v => simp only [runOp, indexSet]; sblind

/-! ### Operations that allocate -/

theorem alloc_more {st : DSt V D} (k : Nat) (c : Cell V D) : lift (allocC c) (st.arm (some (k + 1))) =
    .ok st.st.next (({ st with st := { st.st with
      mem := upd st.st.mem st.st.next (some c), next := st.st.next + 1 } } : DSt V D).arm (some k)) := rfl
theorem alloc_fail {st : DSt V D} (c : Cell V D) : lift (allocC c) (st.arm (some 0)) =
    .throw .badAlloc (st.arm none) := rfl
theorem new_armed {st : DSt V D} {x : Nat} {o : Obj} {t : Option Nat} (h : st.st.objs x = none) :
    lift (newObj x o) (st.arm t) =
      .ok () (({ st with st := { st.st with objs := upd st.st.objs x (some o) } } : DSt V D).arm t) := by
  rw [Blind.newObj x o st t, lift_ok (newObj_none h)]

theorem bind_throw {α β : Type} {m : DM V D α} {f : α → DM V D β} {s s' : DSt V D} {e : Exc}
    (h : m s = .throw e s') : (m >>= f) s = .throw e s' := by
  simp only [M.bind_apply, h]

theorem arm_arm (t t' : Option Nat) (s : DSt V D) : (s.arm t).arm t' = s.arm t' := rfl
theorem arm_self {s : DSt V D} (h : s.st.thr = none) : s.arm none = s := by
  obtain ⟨⟨o, m, n, t⟩, l⟩ := s
  simp only at h
  subst h
  rfl

/-- An operation that can make all the allocations it needs does what it does when nothing fails. -/
theorem runOp_calm {st st' : DSt V D} {s : State V D} {op : Op V D} {o : Out V D} {t : Option Nat} (hI : Inv virt st s)
    (hr : runOp frees virt op st = .ok o st') (ht : st'.st.thr = none)
    (hu : t.bind (fun k => upset s k op) = none) :
    ∃ st'', runOp frees virt op (st.arm t) = .ok o st'' ∧ st''.arm none = st' := by
  cases t with
  | none => rw [arm_self hI.thr]; exact ⟨st', hr, arm_self ht⟩
  | some k =>
    cases hm : op.makes with
    | false =>
      refine ⟨st'.arm (some k), ?_, by rw [arm_arm, arm_self ht]⟩
      rw [runOp_blind op hm, hr]
    | true =>
      have two : ∀ (m : Nat → DM V D Unit) (y : Nat) (c : Content V) (x : Nat) (dl : Nat → Cell V D) (k : Nat),
          (m = fun a => do
            let b ← lift (allocC (dl a))
            lift (newObj x ⟨some a, some b⟩)) →
          (do let a ← lift (allocC (.obj y c)); m a; return .unit : DM V D (Out V D)) st = .ok o st' →
          ∃ st'', (do let a ← lift (allocC (.obj y c)); m a; return .unit : DM V D (Out V D))
            (st.arm (some (k + 2))) = .ok o st'' ∧ st''.arm none = st' := by
        intro m y c x dl k hmm hr
        subst hmm
        rw [M.bind_of_ok (lift_ok (allocC_none hI.thr))] at hr
        rw [M.bind_of_ok (alloc_more (k + 1) _)]
        have e1 := M.bind_of_ok (f := fun b => lift (newObj x ⟨some st.st.next, some b⟩))
          (lift_ok (st := { st with st := { st.st with
            mem := upd st.st.mem st.st.next (some (.obj y c)), next := st.st.next + 1 } })
            (allocC_none (c := dl st.st.next) hI.thr))
        have e2 := M.bind_of_ok (f := fun b => lift (newObj x ⟨some st.st.next, some b⟩))
          (alloc_more (st := { st with st := { st.st with
            mem := upd st.st.mem st.st.next (some (.obj y c)), next := st.st.next + 1 } }) k (dl st.st.next))
        cases hx : st.st.objs x with
        | some w =>
          exfalso
          simp only [M.bind_apply] at hr e1
          rw [e1] at hr
          simp [lift, newObj, hx] at hr
        | none =>
          have e3 := e1.trans (lift_ok (newObj_none (by exact hx)))
          have e4 := e2.trans (new_armed (by exact hx))
          rw [M.bind_of_ok e3] at hr
          rw [M.bind_of_ok e4]
          cases hr
          exact ⟨_, rfl, (arm_arm _ _ _).trans (arm_self (by exact hI.thr))⟩
      cases op with
      | make x y c =>
        match k, hu with
        | 0, hu => simp [upset] at hu
        | 1, hu => simp [upset] at hu
        | k + 2, _ => exact two _ y c x (fun a => .ctrl 1 y (some a) (if c.isArr then .arr else .one)) k rfl hr
      | makeDel x y c kk d =>
        cases c with
        | some c =>
          match k, hu with
          | 0, hu => simp [upset] at hu
          | 1, hu => simp [upset] at hu
          | k + 2, _ => exact two _ y c x (fun a => .ctrl 1 y (some a) (.user kk d)) k rfl hr
        | none =>
          match k, hu with
          | 0, hu => simp [upset] at hu
          | k + 1, _ =>
            simp only [runOp, ctorDel] at hr ⊢
            have e1 := M.bind_of_ok (f := fun b => lift (newObj x ⟨none, some b⟩))
              (lift_ok (st := st) (allocC_none (c := .ctrl 1 y none (.user kk d)) hI.thr))
            have e2 := M.bind_of_ok (f := fun b => lift (newObj x ⟨none, some b⟩))
              (alloc_more (st := st) k (.ctrl 1 y none (.user kk d)))
            cases hx : st.st.objs x with
            | some w =>
              exfalso
              rw [M.bind_apply, e1] at hr
              simp [lift, newObj, hx] at hr
            | none =>
              have e3 := e1.trans (lift_ok (newObj_none (by exact hx)))
              have e4 := e2.trans (new_armed (by exact hx))
              rw [M.bind_of_ok e3] at hr
              rw [M.bind_of_ok e4]
              cases hr
              exact ⟨_, rfl, (arm_arm _ _ _).trans (arm_self (by exact hI.thr))⟩
      | _ => cases hm

/-! ### Lost objects -/

theorem orphan_inv {st : DSt V D} {s : State V D} (hI : Inv virt st s) (y : Nat) (c : Content V) :
    Inv virt { st with st := { st.st with
      mem := upd st.st.mem st.st.next (some (.obj y c)), next := st.st.next + 1 } } (s.orphan y c) := by
  have f0 := hI.S.fresh s.next (Nat.le_refl _)
  have key : ∀ g G o, s.grps.look g = some G → G.obj = some o → o ≠ s.next := by
    intro g G o h1 h2 e
    obtain ⟨c, h3, _⟩ := hI.S.man g G o h1 h2
    rw [e, f0.1] at h3
    cases h3
  refine ⟨⟨hI.S.ndv, hI.S.ndg, hI.S.own, ?_, hI.S.inj, ?_, ?_, hI.S.perm⟩, hI.ob, ?_, ?_, hI.thr, hI.log⟩
  · intro g G o h1 h2
    simp only [State.orphan, if_neg (key g G o h1 h2)]
    exact hI.S.man g G o h1 h2
  · intro a ha
    simp only [State.orphan] at ha ⊢
    by_cases e : a = s.next
    · rw [e]; exact f0.2
    · rw [if_neg e] at ha; exact hI.S.disj a ha
  · intro a ha
    simp only [State.orphan] at ha ⊢
    rw [if_neg (by omega)]
    exact hI.S.fresh a (by omega)
  · intro a
    simp only [upd_apply, hI.next]
    by_cases e : a = s.next
    · simp [e, memOf, State.orphan]
    · simp only [if_neg e, hI.mem, memOf, State.orphan]
      cases h1 : s.objs a with
      | some p => rfl
      | none =>
        cases h2 : s.grps.look a with
        | none => rfl
        | some G =>
          have : delOf { s with objs := fun o => if o = s.next then some (y, c) else s.objs o, next := s.next + 1 } G =
              delOf s G := delOf_ext fun o ho => if_neg (key a G o h2 ho)
          simp only [this]
  · simp only [hI.next, State.orphan]

/-- An operation that runs out of storage. -/
theorem runOp_upset {st : DSt V D} {s s'' : State V D} {op : Op V D} {k : Nat} {l : List (Lost V)} (hI : Inv virt st s)
    (hu : upset s k op = some (s'', l)) :
    ∃ st', runOp frees virt op (st.arm (some k)) = .throw .badAlloc st' ∧ Inv virt (st'.arm none) s'' := by
  cases op with
  | make x y c =>
    match k, hu with
    | 0, hu =>
      simp only [upset, Option.some.injEq, Prod.mk.injEq] at hu
      refine ⟨st.arm none, bind_throw (alloc_fail _), ?_⟩
      rw [arm_arm, arm_self hI.thr, ← hu.1]
      exact hI
    | 1, hu =>
      simp only [upset, Option.some.injEq, Prod.mk.injEq] at hu
      refine ⟨_, (M.bind_of_ok (alloc_more 0 _)).trans (bind_throw (bind_throw (alloc_fail _))), ?_⟩
      rw [← hu.1, arm_arm, arm_self (by exact hI.thr)]
      exact orphan_inv hI y c
    | k + 2, hu => cases hu
  | makeDel x y c kk d =>
    cases c with
    | some c =>
      match k, hu with
      | 0, hu =>
        simp only [upset, Option.some.injEq, Prod.mk.injEq] at hu
        refine ⟨st.arm none, bind_throw (alloc_fail _), ?_⟩
        rw [arm_arm, arm_self hI.thr, ← hu.1]
        exact hI
      | 1, hu =>
        simp only [upset, Option.some.injEq, Prod.mk.injEq] at hu
        refine ⟨_, (M.bind_of_ok (alloc_more 0 _)).trans (bind_throw (bind_throw (alloc_fail _))), ?_⟩
        rw [← hu.1, arm_arm, arm_self (by exact hI.thr)]
        exact orphan_inv hI y c
      | k + 2, hu => cases hu
    | none =>
      match k, hu with
      | 0, hu =>
        simp only [upset, Option.some.injEq, Prod.mk.injEq] at hu
        refine ⟨st.arm none, bind_throw (bind_throw (alloc_fail _)), ?_⟩
        rw [arm_arm, arm_self hI.thr, ← hu.1]
        exact hI
      | k + 1, hu => cases hu
  | _ => cases hu

/-- Programs that catch exceptions, as specified. -/
theorem runT_refines {ops : List (Option Nat × Op V D)} : ∀ {st : DSt V D} {s s' : State V D}
    {os : List (Option (Out V D))} {l : List (Lost V)}, Inv virt st s →
    specRunT frees s ops = some (s', os, l) → SupportedT frees virt s ops →
    ∃ st', runT frees virt ops st = .ok os st' ∧ Inv virt st' s' := by
  induction ops with
  | nil =>
    intro st s s' os l hI hs _
    simp only [specRunT, Option.some.injEq, Prod.mk.injEq] at hs
    obtain ⟨rfl, rfl, -⟩ := hs
    exact ⟨st, rfl, hI⟩
  | cons p ops ih =>
    obtain ⟨t, op⟩ := p
    intro st s s' os l hI hs hg
    simp only [specRunT] at hs
    simp only [SupportedT] at hg
    split at hs
    · cases hs
    · next s1 o h1 =>
      rw [h1] at hg
      obtain ⟨st1, r1, i1⟩ := step_refines hI h1 hg.1
      split at hs
      · next h2 =>
        simp only [h2] at hg
        obtain ⟨r, h3, h4⟩ := Option.map_eq_some_iff.1 hs
        simp only [Prod.mk.injEq] at h4
        obtain ⟨h4, h5, h6⟩ := h4
        subst h4
        obtain ⟨st2, r2, e2⟩ := runOp_calm hI r1 i1.thr h2
        obtain ⟨st3, r3, i3⟩ := ih i1 (show _ = some (r.1, r.2.1, r.2.2) from h3) hg.2
        refine ⟨st3, ?_, i3⟩
        simp only [runT, r2, e2, M.bind_apply, r3, M.pure_apply, h5]
      · next s2 l1 h2 =>
        simp only [h2] at hg
        obtain ⟨r, h3, h4⟩ := Option.map_eq_some_iff.1 hs
        simp only [Prod.mk.injEq] at h4
        obtain ⟨h4, h5, h6⟩ := h4
        subst h4
        cases t with
        | none => cases h2
        | some k =>
          obtain ⟨st2, r2, i2⟩ := runOp_upset (frees := frees) hI h2
          obtain ⟨st3, r3, i3⟩ := ih i2 (show _ = some (r.1, r.2.1, r.2.2) from h3) hg.2
          refine ⟨st3, ?_, i3⟩
          simp only [runT, r2, M.bind_apply, r3, M.pure_apply, h5]

end Cest.Sdel
