import Verif.Core.Frame
import Verif.FList.Refine
import Verif.FList.Cost
import Verif.FList.Throw
import Verif.FList.ThrowSpec
import Verif.FList.ThrowRun
/-
Lemmas for C138: operations of cest::forward_list that throw, in a state with leaked nodes.
-/
namespace Cest.FL
open Cest
variable {V α β : Type}

/-! ### The functions do not notice leaked nodes -/

theorem getNext_loc (p : Ptr) : Local (getNext p : FM V Ptr) := by
  cases p
  · exact Local.ub _
  · exact Local.bind (Local.getObj _) fun _ => Local.pure _
  · exact Local.bind (Local.getC _) fun _ => Local.pure _
theorem setNext_loc (p q : Ptr) : Local (setNext p q : FM V Unit) := by
  cases p
  · exact Local.ub _
  · exact Local.bind (Local.getObj _) fun _ => Local.setObj _ _
  · exact Local.bind (Local.getC _) fun _ => Local.setC _ _
theorem getVal_loc (p : Ptr) : Local (getVal p : FM V V) := by
  cases p
  · exact Local.ub _
  · exact Local.ub _
  · refine Local.bind (Local.getC _) fun c => ?_
    split
    · exact Local.pure _
    · exact Local.ub _
theorem setVal_loc (p : Ptr) (v : V) : Local (setVal p v : FM V Unit) := by
  cases p
  · exact Local.ub _
  · exact Local.ub _
  · refine Local.bind (Local.getC _) fun c => ?_
    split
    · exact Local.bind (Local.tick _) fun _ => Local.setC _ _
    · exact Local.ub _
theorem destroyVal_loc (p : Ptr) : Local (destroyVal p : FM V Unit) := by
  cases p
  · exact Local.ub _
  · exact Local.ub _
  · refine Local.bind (Local.getC _) fun c => ?_
    split
    · exact Local.setC _ _
    · exact Local.ub _
theorem freeNode_loc (p : Ptr) : Local (freeNode p : FM V Unit) := by
  cases p
  · exact Local.ub _
  · exact Local.ub _
  · refine Local.bind (Local.getC _) fun c => ?_
    split
    · exact Local.ub _
    · exact Local.freeC _
theorem constructNode_loc (a : Nat) (v : V) (q : Ptr) : Local (constructNode a v q : FM V Unit) := by
  refine Local.bind (Local.getC _) fun c => ?_
  split
  · exact Local.ub _
  · exact Local.bind (Local.tick _) fun _ => Local.setC _ _
theorem getIt_loc (its : Its) (k : Nat) : Local (getIt its k : FM V Ptr) := by
  unfold getIt
  cases its k with
  | none => exact Local.ub _
  | some p => exact Local.pure p
theorem before_loc (x : Nat) : Local (before x : FM V Ptr) :=
  Local.bind (Local.getObj _) fun _ => Local.pure _

/-- Code without loops. -/
macro "floc" : tactic => `(tactic| repeat (first
  | exact Local.pure _ | exact Local.ub _ | exact Local.timeout
  | exact Local.getObj _ | exact Local.setObj _ _ | exact Local.newObj _ _ | exact Local.delObj _
  | exact Local.allocC _
  | exact getNext_loc _ | exact setNext_loc _ _ | exact before_loc _
  | exact getVal_loc _ | exact setVal_loc _ _ | exact destroyVal_loc _ | exact freeNode_loc _
  | exact constructNode_loc _ _ _ | exact getIt_loc _ _
  | assumption
  | refine Local.bind ?_ (fun _ => ?_)
  | refine Local.ite ?_ ?_
  | split))

theorem insertAfter_loc (p : Ptr) (v : V) : Local (insertAfter p v) := by
  unfold insertAfter allocNode; floc
theorem eraseAfter_loc (p : Ptr) : Local (eraseAfter p : FM V Ptr) := by
  unfold eraseAfter; floc
theorem eraseLoop_loc (l : Ptr) : ∀ (f : Nat) (p : Ptr), Local (eraseLoop l f p : FM V Unit)
  | 0, _ => Local.timeout
  | f+1, p => by
    unfold eraseLoop
    refine Local.ite (Local.pure _) (Local.bind (getNext_loc _) fun nx => ?_)
    have := eraseLoop_loc l f nx
    floc
theorem eraseRange_loc (f : Nat) (p l : Ptr) : Local (eraseRange f p l : FM V Ptr) := by
  unfold eraseRange
  refine Local.bind (getNext_loc _) fun c => ?_
  have := eraseLoop_loc (V := V) l f c
  floc
theorem dtor_loc (f x : Nat) : Local (dtor f x : FM V Unit) :=
  Local.bind (before_loc _) fun _ => Local.bind (eraseRange_loc _ _ _) fun _ => Local.delObj _
theorem copyLoop_loc : ∀ (f : Nat) (p q : Ptr), Local (copyLoop f p q : FM V Unit)
  | 0, _, _ => Local.timeout
  | f+1, p, q => by
    unfold copyLoop allocNode
    refine Local.bind (getNext_loc _) fun e => Local.ite (Local.pure _) ?_
    refine Local.bind (Local.allocC _) fun n => Local.bind (getVal_loc _) fun v =>
      Local.bind (constructNode_loc _ _ _) fun _ => Local.bind (setNext_loc _ _) fun _ =>
      Local.bind (getNext_loc _) fun src => Local.bind (getNext_loc _) fun dst => ?_
    exact copyLoop_loc f src dst
theorem copyCtor_loc (f x y : Nat) : Local (copyCtor f x y : FM V Unit) :=
  Local.bind (Local.newObj _ _) fun _ => Local.onThrow (copyLoop_loc _ _ _) (Local.delObj _)
theorem walk_loc : ∀ (f : Nat) (p : Ptr), Local (walk f p : FM V (List V))
  | 0, _ => Local.timeout
  | f+1, p => by
    unfold walk
    refine Local.ite (Local.pure _) ?_
    refine Local.bind (getVal_loc _) fun v => Local.bind (getNext_loc _) fun q => ?_
    exact Local.bind (walk_loc f q) fun _ => Local.pure _

theorem runOp_loc (fuel : Nat) (its : Its) (op : Op V) : Local (runOp fuel its op) := by
  cases op <;> simp only [runOp]
  case new => unfold ctor; floc
  case newCopy x y => exact Local.bind (copyCtor_loc _ _ _) fun _ => Local.pure _
  case assign x y t =>
    refine Local.bind (Local.bind (copyCtor_loc _ _ _) fun _ => Local.bind ?_ fun _ => dtor_loc _ _) fun _ =>
      Local.pure _
    unfold swap; floc
  case swap x y => unfold swap; floc
  case destroy x => exact Local.bind (dtor_loc _ _) fun _ => Local.pure _
  case clear x =>
    exact Local.bind (Local.bind (before_loc _) fun _ => Local.bind (eraseRange_loc _ _ _) fun _ => Local.pure _)
      fun _ => Local.pure _
  case pushFront x v =>
    exact Local.bind (Local.bind (before_loc _) fun b => Local.bind (insertAfter_loc _ _) fun _ => Local.pure _)
      fun _ => Local.pure _
  case popFront x =>
    exact Local.bind (Local.bind (before_loc _) fun b => Local.bind (eraseAfter_loc _) fun _ => Local.pure _)
      fun _ => Local.pure _
  case insertAfter x k v j =>
    exact Local.bind (getIt_loc _ _) fun b => Local.bind (insertAfter_loc _ _) fun _ => Local.pure _
  case eraseAfter x k j =>
    exact Local.bind (getIt_loc _ _) fun b => Local.bind (eraseAfter_loc _) fun _ => Local.pure _
  case eraseRange x k m j =>
    exact Local.bind (getIt_loc _ _) fun b => Local.bind (getIt_loc _ _) fun c =>
      Local.bind (eraseRange_loc _ _ _) fun _ => Local.pure _
  case toList x => exact Local.bind (Local.bind (getNext_loc _) fun b => walk_loc _ _) fun _ => Local.pure _
  all_goals (try simp only [begin_, inc, deref, empty, front]); floc

/-! ### One operation -/

/-- Agreement with the specification apart from `n` lost nodes. -/
def AgreeT (st : FSt V) (its : Its) (e : Env V) (n : Nat) : Prop :=
  ∃ h s0, st = s0.ext h ∧ Agree s0 its e ∧ Lost h s0 n

/-- What a step with countdown `k` does, when it throws and when not. -/
def StepT (st : FSt V) (its : Its) (e e' : Env V) (op : Op V) (o : Out V) (k : Nat) : Prop :=
  match specThrow e op k with
  | none => ∃ F st' its',
      (∀ fuel, F ≤ fuel → ∃ t, runOp fuel its op { st with thr := some k } = .ok (its', o) { st' with thr := t }) ∧
      Agree st' its' e'
  | some (e'', n) => ∃ F ex h s0,
      (∀ fuel, F ≤ fuel → runOp fuel its op { st with thr := some k } = .throw ex (s0.ext h)) ∧
      Agree s0 its e'' ∧ Lost h s0 n

theorem thr_eq {st : FSt V} (h : st.thr = none) : { st with thr := none } = st := by cases st; simp_all

/-- An operation does not throw if it may make two throwing operations for every element it creates, and
one for an assignment. -/
theorem ok_step {st : FSt V} {its : Its} {e e' : Env V} {op : Op V} {o : Out V} (A : Agree st its e)
    (h : specStep e op = some (e', o)) {k : Nat} (hk : 2 * (e'.next - e.next) + writes [op] ≤ k) :
    ∃ F st' its',
      (∀ fuel, F ≤ fuel → ∃ t, runOp fuel its op { st with thr := some k } = .ok (its', o) { st' with thr := t }) ∧
      Agree st' its' e' := by
  obtain ⟨F, st', its', h1, A'⟩ := step_refines A h
  refine ⟨F, st', its', fun f hf => ?_, A'⟩
  obtain ⟨_, c, h2, h3⟩ := runOp_cost f its op st A.world.thr
  obtain ⟨h4, h5⟩ := h2 _ _ (h1 f hf)
  have hc : c ≤ k := by
    rw [A.next, A'.next] at h4 h5
    omega
  refine ⟨some (k - c), ?_⟩
  have := h3 (k - c)
  rw [Nat.sub_add_cancel hc, h1 f hf] at this
  exact this

/-- Some fresh nodes. -/
def range (a b : Nat) (m : Nat → Option (Cell V)) : Nat → Option (Cell V) :=
  fun c => if a ≤ c ∧ c < b then m c else none

/-- A state in which some fresh nodes are allocated and nothing else happened. -/
theorem agree_range {st st' : FSt V} {its : Its} {e : Env V} (A : Agree st its e) {n : Nat}
    (h1 : st'.objs = st.objs) (h2 : st'.thr = none) (h3 : st'.next = st.next + n)
    (h4 : ∀ a, a < st.next → st'.mem a = st.mem a) (h5 : ∀ a, st.next ≤ a → a < st'.next → st'.mem a ≠ none)
    (h6 : ∀ a, st'.next ≤ a → st'.mem a = none) :
    ∃ h s0, st' = s0.ext h ∧ Agree s0 its (e.bump n) ∧ Lost h s0 n := by
  have W := A.world
  refine ⟨range st.next st'.next st'.mem, { st with next := st'.next }, ?_, ?_, ?_, ?_⟩
  · obtain ⟨objs, mem, next, thr⟩ := st'; simp only at h1 h2 h3 h4 h5 h6
    subst h1 h2
    simp only [St.ext, W.thr, range]
    congr 1
    funext a
    by_cases ha : a < st.next
    · rw [if_neg (by omega)]; exact h4 a ha
    · by_cases hb : a < st.next + n
      · rw [if_pos (by omega)]
        have := h5 a (by omega) (by omega)
        cases hm : mem a with
        | none => exact absurd hm this
        | some c => rfl
      · rw [if_neg (by omega), h6 a (by omega)]
        exact (W.fresh a (by omega)).symm
  · exact ⟨⟨W.dom, W.rep, W.disj, W.own, fun a ha => W.fresh a (by have : st'.next ≤ a := ha; omega), W.thr⟩,
      A.its, by simp [Env.bump, h3, A.next]⟩
  · intro a ha
    simp only [range] at ha
    split at ha
    · rename_i hr
      exact ⟨W.fresh a hr.1, hr.2⟩
    · exact absurd rfl ha
  · refine ⟨List.range' st.next n, List.nodup_range', by simp, fun a => ?_⟩
    simp only [range, List.mem_range'_1]
    by_cases ha : st.next ≤ a ∧ a < st'.next
    · rw [if_pos ha]
      exact ⟨fun _ => by omega, fun _ => h5 a ha.1 ha.2⟩
    · rw [if_neg ha]
      exact ⟨fun h => absurd rfl h, fun h => absurd (by omega) ha⟩

theorem arm_eq (st : FSt V) (k : Nat) : ({ st with thr := some k } : FSt V) = arm st (some k) := rfl

theorem insertAfter_arm {st : FSt V} {its : Its} {e : Env V} (A : Agree st its e) {x : Nat} {l r : List (Nat × V)}
    (hs : e.lists x = some (l ++ r)) (v : V) : ∃ h s0,
      insertAfter (lstP x l) v (arm st (some 0)) = .throw .badAlloc st ∧
      insertAfter (lstP x l) v (arm st (some 1)) = .throw .elem (s0.ext h) ∧
      Agree s0 its (e.bump 1) ∧ Lost h s0 1 := by
  obtain ⟨g0, g1⟩ := insertAfter_throw A.world hs v
  obtain ⟨h, s0, h1, h2, h3⟩ := agree_range A (n := 1)
    (st' := ⟨st.objs, upd st.mem st.next (some ⟨.null, none⟩), st.next + 1, none⟩) rfl rfl rfl
    (fun a ha => by simp [Nat.ne_of_lt ha]) (fun a h1 h2 => by
      have : a < st.next + 1 := h2
      have : a = st.next := by omega
      simp [this]) (fun a ha => by
      have : st.next + 1 ≤ a := ha
      have h1 : a ≠ st.next := by omega
      simp only [upd_apply, h1, if_false]
      exact A.world.fresh a (by omega))
  exact ⟨h, s0, g0, by rw [g1, h1], h2, h3⟩

theorem setVal_arm {st st' : FSt V} {p : Ptr} {v : V} (ht : st.thr = none) (h : setVal p v st = .ok () st') :
    setVal p v (arm st (some 0)) = .throw .elem st := by
  cases p with
  | null => simp [setVal] at h
  | head => simp [setVal] at h
  | node a =>
    simp only [setVal, M.bind_apply, getC] at h ⊢
    cases hm : st.mem a with
    | none => simp [hm] at h
    | some c =>
      cases hv : c.val with
      | none => simp [hm, hv] at h
      | some w => simp [arm, hm, hv, tick, thr_eq ht]

theorem runOp_throws {st : FSt V} {its : Its} {e e' : Env V} {op : Op V} {o : Out V}
    (A : Agree st its e) (h : specStep e op = some (e', o)) (k : Nat) : StepT st its e e' op o k := by
  have W := A.world
  have hgi : ∀ i p t, getIt its i st = .ok p st → getIt its i (arm st t) = .ok p (arm st t) := by
    intro i p t hp
    cases hi : its i with
    | none => simp [getIt, hi] at hp
    | some q => simp [getIt, hi] at hp ⊢; exact hp
  cases op with
  | pushFront x v =>
    have h0 := h
    simp only [specStep] at h; split at h <;> simp at h
    rename_i s hx; obtain ⟨rfl, rfl⟩ := h
    obtain ⟨hp, s0, g0, g1, g2, g3⟩ := insertAfter_arm A (l := []) (r := s) hx v
    have hb : ∀ t, before x (arm st t) = .ok (.head x) (arm st t) := by
      intro t
      obtain ⟨o, ho, _⟩ := W_rep W hx
      simp [before, getObj, arm, ho]
    unfold StepT
    match k with
    | 0 =>
      exact ⟨0, .badAlloc, noGarbage, st, fun f _ => by
        rw [arm_eq]; simp only [runOp, pushFront, M.bind_apply, hb]; rw [lstP_nil] at g0; rw [g0]; rfl, A, lost_none st⟩
    | 1 =>
      exact ⟨0, .elem, hp, s0, fun f _ => by
        rw [arm_eq]; simp only [runOp, pushFront, M.bind_apply, hb]; rw [lstP_nil] at g1; rw [g1], g2, g3⟩
    | k+2 => exact ok_step A h0 (by simp [writes, Env.bump, Env.setL])
  | insertAfter x i v j =>
    have h0 := h
    simp only [specStep] at h; split at h <;> try simp at h
    rename_i s i' hx hk
    split at h <;> simp at h
    rename_i l r hsp; obtain ⟨rfl, rfl⟩ := h
    obtain ⟨rfl, hp'⟩ := splitAfter_some hsp
    obtain ⟨hp, s0, g0, g1, g2, g3⟩ := insertAfter_arm A hx v
    have hb := fun t => hgi i _ t (getIt_eq A hk)
    rw [hp'] at hb
    unfold StepT
    match k with
    | 0 =>
      exact ⟨0, .badAlloc, noGarbage, st, fun f _ => by
        rw [arm_eq]; simp only [runOp, M.bind_apply, hb, g0]; rfl, A, lost_none st⟩
    | 1 =>
      exact ⟨0, .elem, hp, s0, fun f _ => by
        rw [arm_eq]; simp only [runOp, M.bind_apply, hb, g1], g2, g3⟩
    | k+2 => exact ok_step A h0 (by simp [writes, Env.bump, Env.setL, Env.setI])
  | set x i v =>
    unfold StepT
    match k with
    | 0 =>
      obtain ⟨F, st', its', h1, A'⟩ := step_refines A h
      have h2 := h1 F (Nat.le_refl _)
      simp only [runOp, M.bind_apply] at h2
      cases hi : its i with
      | none => simp [getIt, hi] at h2
      | some p =>
        have hp : ∀ s, getIt its i s = .ok p (s : FSt V) := fun s => by simp [getIt, hi]
        simp only [hp] at h2
        cases hs : setVal p v st with
        | ok a s1 =>
          have g0 := setVal_arm W.thr hs
          exact ⟨0, .elem, noGarbage, st, fun f _ => by
            rw [arm_eq]; simp only [runOp, M.bind_apply, hp, g0]; rfl, A, lost_none st⟩
        | throw ex s1 => rw [hs] at h2; cases h2
        | ub u => rw [hs] at h2; cases h2
        | timeout => rw [hs] at h2; cases h2
    | k+1 =>
      refine ok_step A h ?_
      simp only [specStep] at h; split at h <;> try simp at h
      split at h <;> simp at h
      obtain ⟨rfl, rfl⟩ := h
      simp [writes, Env.setL]
  | newCopy x y =>
    have h0 := h
    simp only [specStep] at h; split at h <;> simp at h
    rename_i t hx hy; obtain ⟨rfl, rfl⟩ := h
    unfold StepT
    simp only [specThrow, hy]
    by_cases hk : k < 2 * t.length
    · rw [if_pos hk]
      obtain ⟨st', g1, g2, g3, g4, g5, g6, g7⟩ := copyCtor_throw W hx hy hk
      obtain ⟨hp, s0, rfl, A1, L1⟩ := agree_range A g2 g3 g4 g5 g6 g7
      exact ⟨t.length + 1, _, hp, s0, fun f hf => by
        rw [arm_eq]; simp only [runOp, M.bind_apply, g1 f (by omega)]; rfl, A1, L1⟩
    · rw [if_neg hk]
      exact ok_step A h0 (by simp [writes, Env.bump, Env.setL]; omega)
  | assign x y z =>
    have h0 := h
    simp only [specStep] at h; split at h <;> simp at h
    rename_i s t hx hy hz; obtain ⟨rfl, rfl⟩ := h
    unfold StepT
    simp only [specThrow, hy]
    by_cases hk : k < 2 * t.length
    · rw [if_pos hk]
      obtain ⟨st', g1, g2, g3, g4, g5, g6, g7⟩ := copyCtor_throw W hz hy hk
      obtain ⟨hp, s0, rfl, A1, L1⟩ := agree_range A g2 g3 g4 g5 g6 g7
      exact ⟨t.length + 1, _, hp, s0, fun f hf => by
        rw [arm_eq]; simp only [runOp, FL.assign, M.bind_apply, g1 f (by omega)]; rfl, A1, L1⟩
    · rw [if_neg hk]
      exact ok_step A h0 (by simp [writes, Env.bump, Env.setL]; omega)
  | _ =>
    refine ok_step A h ?_
    have he : e'.next = e.next := by
      simp only [specStep] at h
      repeat (split at h)
      all_goals simp at h
      all_goals (obtain ⟨rfl, _⟩ := h; rfl)
    simp [writes, he]

/-! ### Programs -/

theorem runT_refines {ops : List (Option Nat × Op V)} : ∀ {st : FSt V} {its : Its} {e e' : Env V}
    {os : List (Option (Out V))} {n m : Nat}, AgreeT st its e m → specRunT e ops = some (e', os, n) →
    ∃ F st' its', (∀ fuel, F ≤ fuel → runT fuel its ops st = .ok (its', os) st') ∧ AgreeT st' its' e' (n + m) := by
  induction ops with
  | nil =>
    intro st its e e' os n m A h
    simp only [specRunT, Option.some.injEq, Prod.mk.injEq] at h
    obtain ⟨rfl, rfl, rfl⟩ := h
    exact ⟨0, st, its, fun _ _ => rfl, by simpa using A⟩
  | cons a ops ih =>
    obtain ⟨t, op⟩ := a
    intro st its e e' os n m ⟨g, s0, hst, A, L⟩ h
    subst hst
    simp only [specRunT] at h
    cases hs : specStep e op with
    | none => rw [hs] at h; cases h
    | some r =>
      obtain ⟨e1, o⟩ := r
      rw [hs] at h
      simp only at h
      -- the operation succeeds
      have good : ∀ F s1 its1, (∀ fuel, F ≤ fuel → ∃ t', runOp fuel its op { s0 with thr := t } =
            .ok (its1, o) { s1 with thr := t' }) → Agree s1 its1 e1 →
          ((specRunT e1 ops).map fun r => (r.1, some o :: r.2.1, r.2.2)) = some (e', os, n) →
          ∃ F st' its', (∀ fuel, F ≤ fuel → runT fuel its ((t, op) :: ops) (s0.ext g) = .ok (its', os) st') ∧
            AgreeT st' its' e' (n + m) := by
        intro F s1 its1 h1 A1 h2
        obtain ⟨⟨e2, os2, n2⟩, h3, h4⟩ := Option.map_eq_some_iff.1 h2
        simp only [Prod.mk.injEq] at h4
        obtain ⟨rfl, rfl, rfl⟩ := h4
        have hl : ∀ f, F ≤ f → ∃ t', runOp f its op (({ s0 with thr := t } : FSt V).ext g) =
            .ok (its1, o) (({ s1 with thr := t' } : FSt V).ext g) ∧ Apart g s1 := by
          intro f hf
          obtain ⟨t', h5⟩ := h1 f hf
          exact ⟨t', (runOp_loc f its op).ok (L.thr t).1 h5⟩
        obtain ⟨F', st', its', h5, A5⟩ := ih (st := s1.ext g) (m := m)
          ⟨g, s1, rfl, A1, (hl F (Nat.le_refl _)).choose_spec.2, L.2⟩ h3
        refine ⟨F + F', st', its', fun f hf => ?_, A5⟩
        unfold runT
        obtain ⟨t', h6, _⟩ := hl f (by omega)
        have h7 := h5 f (by omega)
        simp only [St.ext] at h6 h7 ⊢
        simp only [h6, M.bind_apply]
        rw [A1.world.thr] at h7
        simp only [h7]
        rfl
      cases t with
      | none =>
        obtain ⟨F, s1, its1, h1, A1⟩ := step_refines A hs
        refine good F s1 its1 (fun f hf => ⟨none, ?_⟩) A1 h
        rw [thr_eq A.world.thr, thr_eq A1.world.thr]
        exact h1 f hf
      | some k =>
        have hk := runOp_throws A hs k
        unfold StepT at hk
        simp only [Option.bind_some] at h
        cases ht : specThrow e op k with
        | none =>
          rw [ht] at h hk
          obtain ⟨F, s1, its1, h1, A1⟩ := hk
          exact good F s1 its1 h1 A1 h
        | some r =>
          obtain ⟨e1', n1⟩ := r
          rw [ht] at h hk
          obtain ⟨F, ex, g1, s1, h1, A1, L1⟩ := hk
          simp only at h
          obtain ⟨⟨e2, os2, n2⟩, h3, h4⟩ := Option.map_eq_some_iff.1 h
          simp only [Prod.mk.injEq] at h4
          obtain ⟨rfl, rfl, rfl⟩ := h4
          have hl := fun f hf => (runOp_loc f its op).thrown (L.thr (some k)).1 (h1 f hf)
          have LL : Lost (plus g g1) s1 (m + n1) := Lost.plus ⟨(hl F (Nat.le_refl _)).2, L.2⟩ L1
          obtain ⟨F', st', its', h5, A5⟩ := ih (st := s1.ext (plus g g1)) (m := m + n1)
            ⟨_, s1, rfl, A1, LL⟩ h3
          refine ⟨F + F', st', its', fun f hf => ?_, by
            rw [show n1 + n2 + m = n2 + (m + n1) by omega]; exact A5⟩
          unfold runT
          have h6 := (hl f (by omega)).1
          rw [ext_ext] at h6
          have h7 := h5 f (by omega)
          simp only [St.ext] at h6 h7 ⊢
          simp only [h6, M.bind_apply]
          rw [A1.world.thr] at h7
          simp only [h7]
          rfl

end Cest.FL
