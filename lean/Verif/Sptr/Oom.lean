import Verif.Core.FrameArr
import Verif.Core.Cost
import Verif.Sptr.Props
import Verif.Sptr.OomSpec
import Verif.Sptr.OomRun
/-
Lemmas for C143: shared_ptr operations that run out of storage, with lost objects around.
-/
namespace Cest.Sptr
open Cest
variable {V : Type}

theorem deref_loc {O C : Type} (p : Option Nat) : Local (deref p : M (St O C) Nat) := by
  cases p with
  | none => exact Local.ub _
  | some a => exact Local.pure a

macro "sloc" : tactic => `(tactic| repeat (first
  | exact Local.pure _ | exact Local.ub _
  | exact Local.getObj _ | exact Local.setObj _ _ | exact Local.newObj _ _ | exact Local.delObj _
  | exact Local.allocC _ | exact Local.freeC _ | exact Local.getC _ | exact Local.setC _ _
  | exact deref_loc _
  | refine Local.bind ?_ (fun _ => ?_)
  | refine Local.ite ?_ ?_
  | split))

theorem getCtrl_loc (c : Option Nat) : Local (getCtrl c : SM V _) := by unfold getCtrl; sloc
theorem del_loc (c : Option Nat) : Local (del c : SM V _) := by cases c <;> unfold del <;> sloc
theorem incr_loc (c : Option Nat) : Local (incr c : SM V _) := by
  unfold incr; exact Local.bind (getCtrl_loc c) (fun _ => Local.setC _ _)
theorem dtor_loc (x : Nat) : Local (dtor x : SM V _) := by
  unfold dtor destroy
  refine Local.bind (Local.getObj _) (fun r => ?_)
  split
  · exact Local.delObj _
  · refine Local.bind (getCtrl_loc _) (fun _ => ?_)
    refine Local.bind (Local.setC _ _) (fun _ => ?_)
    refine Local.ite ?_ (Local.delObj _)
    refine Local.bind (del_loc _) (fun _ => ?_)
    sloc
theorem useCount_loc (x : Nat) : Local (useCount x : SM V _) := by
  unfold useCount
  refine Local.bind (Local.getObj _) (fun r => ?_)
  split
  · exact Local.pure _
  · exact Local.bind (getCtrl_loc _) (fun _ => Local.pure _)

theorem runOp_loc (op : Op V) : Local (runOp op) := by
  cases op with
  | copy x y =>
    simp only [runOp, ctorCopy]
    refine Local.bind ?_ (fun _ => Local.pure _)
    refine Local.bind (Local.getObj _) (fun _ => Local.bind (Local.newObj _ _) (fun _ => incr_loc _))
  | alias x y z =>
    simp only [runOp, ctorAlias, get]
    refine Local.bind ?_ (fun _ => Local.bind ?_ (fun _ => Local.pure _))
    · sloc
    · refine Local.bind (Local.getObj _) (fun _ => Local.bind (Local.newObj _ _) (fun _ => incr_loc _))
  | destroy x => simp only [runOp]; exact Local.bind (dtor_loc x) (fun _ => Local.pure _)
  | useCount x => simp only [runOp]; exact Local.bind (useCount_loc x) (fun _ => Local.pure _)
  | _ => simp only [runOp, ctor, ctorPtr, get, assign, star, starSet, toBool] <;> sloc

/-! ### Numbers of allocations -/

macro "scost" : tactic => `(tactic| repeat (first
  | exact CostLe.pure _ | exact CostLe.ub _
  | exact CostLe.getObj _ | exact CostLe.setObj _ _ | exact CostLe.newObj _ _ | exact CostLe.delObj _
  | exact CostLe.freeC _ | exact CostLe.getC _ | exact CostLe.setC _ _
  | exact CostLe.deref _
  | refine CostLe.bind (b₁ := 0) (b₂ := 0) ?_ (fun _ => ?_)
  | refine CostLe.ite (fun _ => ?_) (fun _ => ?_)
  | split))

theorem getCtrl_cost (c : Option Nat) : CostLe (getCtrl c : SM V _) 0 := by unfold getCtrl; scost
theorem del_cost (c : Option Nat) : CostLe (del c : SM V _) 0 := by cases c <;> unfold del <;> scost
theorem incr_cost (c : Option Nat) : CostLe (incr c : SM V _) 0 := by
  unfold incr; exact CostLe.bind (getCtrl_cost c) (fun _ => CostLe.setC _ _)
theorem dtor_cost (x : Nat) : CostLe (dtor x : SM V _) 0 := by
  unfold dtor destroy
  refine CostLe.bind (b₁ := 0) (b₂ := 0) (CostLe.getObj _) (fun r => ?_)
  split
  · exact CostLe.delObj _
  · refine CostLe.bind (b₁ := 0) (b₂ := 0) (getCtrl_cost _) (fun _ => ?_)
    refine CostLe.bind (b₁ := 0) (b₂ := 0) (CostLe.setC _ _) (fun _ => ?_)
    refine CostLe.ite (fun _ => ?_) (fun _ => CostLe.delObj _)
    refine CostLe.bind (b₁ := 0) (b₂ := 0) (del_cost _) (fun _ => ?_)
    scost
theorem useCount_cost (x : Nat) : CostLe (useCount x : SM V _) 0 := by
  unfold useCount
  refine CostLe.bind (b₁ := 0) (b₂ := 0) (CostLe.getObj _) (fun r => ?_)
  split
  · exact CostLe.pure _
  · exact CostLe.bind (b₁ := 0) (b₂ := 0) (getCtrl_cost _) (fun _ => CostLe.pure _)

/-- Number of allocations of an operation. -/
def allocs : Op V → Nat
  | .make _ _ => 2
  | .makeNull _ => 1
  | _ => 0

theorem runOp_cost (op : Op V) : CostLe (runOp op) (allocs op) := by
  cases op with
  | make x v =>
    simp only [runOp, ctorPtr, allocs]
    exact CostLe.bind (b₁ := 1) (b₂ := 1) (CostLe.allocC _) (fun _ => CostLe.bind (b₁ := 1) (b₂ := 0)
      (CostLe.bind (b₁ := 1) (b₂ := 0) (CostLe.allocC _) (fun _ => CostLe.newObj _ _)) (fun _ => CostLe.pure _))
  | makeNull x =>
    simp only [runOp, ctorPtr, allocs]
    exact CostLe.bind (b₁ := 1) (b₂ := 0)
      (CostLe.bind (b₁ := 1) (b₂ := 0) (CostLe.allocC _) (fun _ => CostLe.newObj _ _)) (fun _ => CostLe.pure _)
  | copy x y =>
    simp only [runOp, ctorCopy, allocs]
    refine CostLe.bind (b₁ := 0) (b₂ := 0) ?_ (fun _ => CostLe.pure _)
    refine CostLe.bind (b₁ := 0) (b₂ := 0) (CostLe.getObj _) (fun _ =>
      CostLe.bind (b₁ := 0) (b₂ := 0) (CostLe.newObj _ _) (fun _ => incr_cost _))
  | alias x y z =>
    simp only [runOp, ctorAlias, get, allocs]
    refine CostLe.bind (b₁ := 0) (b₂ := 0) ?_ (fun _ => CostLe.bind (b₁ := 0) (b₂ := 0) ?_ (fun _ => CostLe.pure _))
    · scost
    · refine CostLe.bind (b₁ := 0) (b₂ := 0) (CostLe.getObj _) (fun _ =>
        CostLe.bind (b₁ := 0) (b₂ := 0) (CostLe.newObj _ _) (fun _ => incr_cost _))
  | destroy x => simp only [runOp]; exact CostLe.bind (b₁ := 0) (b₂ := 0) (dtor_cost x) (fun _ => CostLe.pure _)
  | useCount x => simp only [runOp]; exact CostLe.bind (b₁ := 0) (b₂ := 0) (useCount_cost x) (fun _ => CostLe.pure _)
  | _ => simp only [runOp, ctor, get, assign, star, starSet, toBool, allocs] <;> scost

/-! ### Lost objects -/

def junk : List (Nat × V) → Nat → Option (Cell V)
  | [], _ => none
  | (b, v) :: l, a => if a = b then some (.val v) else junk l a

theorem junk_append (l l' : List (Nat × V)) : junk (l ++ l') = plus (junk l) (junk l') := by
  funext a
  induction l with
  | nil => rfl
  | cons p l ih =>
    simp only [List.cons_append, junk, plus]
    split
    · rfl
    · exact ih

theorem junk_ne {l : List (Nat × V)} {a : Nat} : junk l a ≠ none ↔ a ∈ l.map (·.1) := by
  induction l with
  | nil => simp [junk]
  | cons p l ih =>
    simp only [junk, List.map_cons, List.mem_cons]
    split
    · simp_all
    · simp_all

theorem junk_ctrl {l : List (Nat × V)} {a : Nat} {n : Int} {m : Option Nat} : junk l a ≠ some (.ctrl n m) := by
  induction l with
  | nil => simp [junk]
  | cons p l ih => simp only [junk]; split <;> simp_all

theorem junk_val {l : List (Nat × V)} (hn : (l.map (·.1)).Nodup) {a : Nat} {v : V} :
    junk l a = some (.val v) ↔ (a, v) ∈ l := by
  induction l with
  | nil => simp [junk]
  | cons p l ih =>
    obtain ⟨b, w⟩ := p
    simp only [List.map_cons, List.nodup_cons] at hn
    simp only [junk, List.mem_cons, Prod.mk.injEq]
    split
    · rename_i h
      subst h
      constructor
      · intro h; injection h with h; injection h with h; exact Or.inl ⟨rfl, h.symm⟩
      · rintro (⟨_, rfl⟩ | h)
        · rfl
        · exact absurd (List.mem_map_of_mem (f := (·.1)) h) hn.1
    · rename_i h
      rw [ih hn.2]
      simp [h]

/-- The state of the machine, apart from lost objects, is as specified. -/
structure Agree (st : SSt V) (s : State V) (l : List (Nat × V)) : Prop where
  ex : ∃ s0, st = s0.ext (junk l) ∧ Inv s0 s ∧ Apart (junk l) s0
  nd : (l.map (·.1)).Nodup
  far : ∀ x h o, s.vars.look x = some h → h.obj = some o → o < s.next ∧ o ∉ l.map (·.1)

theorem Agree.init : Agree (St.init : SSt V) State.empty [] :=
  ⟨⟨St.init, rfl, Inv.init, fun _ h => absurd rfl h⟩, by simp, by simp [State.empty, Vars.look]⟩

theorem collect_next (s : State V) (g : Option Nat) : (s.collect g).next = s.next := by
  cases g with
  | none => rfl
  | some g => simp only [State.collect]; split <;> rfl

/-- Pointers are null, old, or new. -/
theorem far_step {s s' : State V} {op : Op V} {o : Out V} (hn : s.vars.keys.Nodup) (hs : specStep s op = some (s', o)) :
    s.next ≤ s'.next ∧ ∀ x h p, s'.vars.look x = some h → h.obj = some p →
      (s.next ≤ p ∧ p < s'.next) ∨ ∃ y k, s.vars.look y = some k ∧ k.obj = some p := by
  cases op <;> simp only [specStep] at hs
  case new x =>
    split at hs <;> simp at hs
    obtain ⟨rfl, rfl⟩ := hs
    refine ⟨Nat.le_refl _, fun y h p h1 h2 => ?_⟩
    simp only [Vars.look] at h1
    split at h1
    · injection h1 with h1; subst h1; cases h2
    · exact Or.inr ⟨y, h, h1, h2⟩
  case make x v =>
    split at hs <;> simp at hs
    obtain ⟨rfl, rfl⟩ := hs
    refine ⟨by simp, fun y h p h1 h2 => ?_⟩
    simp only [Vars.look] at h1
    split at h1
    · injection h1 with h1; subst h1; injection h2 with h2; subst h2; exact Or.inl ⟨Nat.le_refl _, by simp⟩
    · exact Or.inr ⟨y, h, h1, h2⟩
  case makeNull x =>
    split at hs <;> simp at hs
    obtain ⟨rfl, rfl⟩ := hs
    refine ⟨by simp, fun y h p h1 h2 => ?_⟩
    simp only [Vars.look] at h1
    split at h1
    · injection h1 with h1; subst h1; cases h2
    · exact Or.inr ⟨y, h, h1, h2⟩
  case copy x y =>
    split at hs <;> simp at hs
    obtain ⟨rfl, rfl⟩ := hs
    rename_i k hx hy
    refine ⟨by simp, fun z h p h1 h2 => ?_⟩
    simp only [Vars.look] at h1
    split at h1
    · injection h1 with h1; subst h1; exact Or.inr ⟨y, _, hy, h2⟩
    · exact Or.inr ⟨z, h, h1, h2⟩
  case alias x y z =>
    split at hs <;> simp at hs
    obtain ⟨rfl, rfl⟩ := hs
    rename_i h' k hx hy hz
    refine ⟨by simp, fun w h p h1 h2 => ?_⟩
    simp only [Vars.look] at h1
    split at h1
    · injection h1 with h1; subst h1; exact Or.inr ⟨z, _, hz, h2⟩
    · exact Or.inr ⟨w, h, h1, h2⟩
  case assign x y =>
    split at hs <;> simp at hs
    obtain ⟨rfl, rfl⟩ := hs
    rename_i h' k hx hy
    refine ⟨by rw [collect_next]; exact Nat.le_refl _, fun w h p h1 h2 => ?_⟩
    rw [collect_vars] at h1
    simp only [look_put hx] at h1
    split at h1
    · injection h1 with h1; subst h1; exact Or.inr ⟨y, _, hy, h2⟩
    · exact Or.inr ⟨w, h, h1, h2⟩
  case destroy x =>
    split at hs <;> simp at hs
    obtain ⟨rfl, rfl⟩ := hs
    refine ⟨by rw [collect_next]; exact Nat.le_refl _, fun w h p h1 h2 => ?_⟩
    rw [collect_vars] at h1
    simp only [look_drop hn] at h1
    split at h1
    · cases h1
    · exact Or.inr ⟨w, h, h1, h2⟩
  all_goals
    repeat' split at hs
    all_goals simp at hs
    all_goals
      obtain ⟨rfl, _⟩ := hs
      exact ⟨Nat.le_refl _, fun w h p h1 h2 => Or.inr ⟨w, h, h1, h2⟩⟩

theorem Inv.set_thr {st : SSt V} {s : State V} (hI : Inv st s) : ({ st with thr := none } : SSt V) = st := by
  have := hI.thr
  cases st
  simp_all

/-- A step that ends normally. -/
theorem agree_ok {st : SSt V} {s s' : State V} {l : List (Nat × V)} {op : Op V} {o : Out V} {t : Option Nat}
    (A : Agree st s l) (hs : specStep s op = some (s', o)) (hg : Supported s op)
    (ht : ∀ k, t = some k → allocs op ≤ k) :
    ∃ st', runOp op { st with thr := t } = .ok o st' ∧ Agree { st' with thr := none } s' l := by
  obtain ⟨⟨s0, rfl, hI, hA⟩, hn, hf⟩ := A
  obtain ⟨s1, h1, hI1⟩ := step_refines hI hs hg
  have key : ∃ t', runOp op { s0 with thr := t } = .ok o { s1 with thr := t' } := by
    cases t with
    | none => exact ⟨none, by rw [hI.set_thr, h1, hI1.set_thr]⟩
    | some k =>
      obtain ⟨_, d, hd, h4⟩ := (runOp_cost op s0 hI.thr).ok h1
      have := h4 (k - d)
      rw [Nat.sub_add_cancel (by have := ht k rfl; omega)] at this
      exact ⟨_, this⟩
  obtain ⟨t', h2⟩ := key
  obtain ⟨h3, h4⟩ := (runOp_loc op).ok (s := { s0 with thr := t }) (h := junk l) hA h2
  refine ⟨_, h3, ⟨⟨s1, ?_, hI1, h4⟩, hn, ?_⟩⟩
  · have := hI1.thr
    simp only [St.ext, this]
  · obtain ⟨f1, f2⟩ := far_step hI.S.nd hs
    intro x h p h5 h6
    rcases f2 x h p h5 h6 with ⟨g1, g2⟩ | ⟨y, k, g1, g2⟩
    · refine ⟨g2, fun hm => ?_⟩
      have := (hA p (junk_ne.2 hm)).2
      rw [hI.next] at this
      omega
    · obtain ⟨g3, g4⟩ := hf y k p g1 g2
      exact ⟨by omega, g4⟩

/-- A step in which an allocation fails. -/
theorem agree_throw {st : SSt V} {s s' : State V} {l l' : List (Nat × V)} {op : Op V} {k : Nat}
    (A : Agree st s l) (hu : upset s k op = some (s', l')) :
    ∃ ex st', runOp op { st with thr := some k } = .throw ex st' ∧ Agree { st' with thr := none } s' (l ++ l') := by
  obtain ⟨⟨s0, rfl, hI, hA⟩, hn, hf⟩ := A
  have key0 : (∃ x v, op = .make x v) ∨ (∃ x, op = .makeNull x) → k = 0 → ∃ ex st',
      runOp op { s0.ext (junk l) with thr := some k } = .throw ex st' ∧ Agree { st' with thr := none } s (l ++ []) := by
    rintro h rfl
    refine ⟨.badAlloc, s0.ext (junk l), ?_, ?_⟩
    · rcases h with ⟨x, v, rfl⟩ | ⟨x, rfl⟩ <;>
        simp [runOp, ctorPtr, allocC, tick, St.ext, hI.thr]
    · rw [List.append_nil]
      exact ⟨⟨s0, by simp [St.ext, hI.thr], hI, hA⟩, hn, hf⟩
  cases op <;> simp only [upset] at hu
  case make x v =>
    match k, hu with
    | 0, hu =>
      simp at hu; obtain ⟨rfl, rfl⟩ := hu
      exact key0 (Or.inl ⟨x, v, rfl⟩) rfl
    | 1, hu =>
      simp at hu; obtain ⟨rfl, rfl⟩ := hu
      refine ⟨.badAlloc, ({ s0 with next := s0.next + 1 } : SSt V).ext (junk (l ++ [(s.next, v)])), ?_, ?_⟩
      · simp [runOp, ctorPtr, allocC, tick, hI.thr]
        simp only [St.ext, hI.thr, junk_append, plus]
        congr 2
        funext a
        have hj := hA.next
        rw [hI.next] at hj
        simp only [hI.next, upd, junk]
        by_cases ha : a = s.next
        · subst ha; simp [hj]
        · simp [ha]
          cases junk l a <;> rfl
      · have hA' : Apart (junk (l ++ [(s.next, v)])) ({ s0 with next := s0.next + 1 } : SSt V) := by
          intro a ha
          rw [junk_ne, List.map_append, List.mem_append] at ha
          rcases ha with ha | ha
          · obtain ⟨h1, h2⟩ := hA a (junk_ne.2 ha)
            exact ⟨h1, Nat.lt_succ_of_lt h2⟩
          · simp at ha
            subst ha
            refine ⟨?_, by rw [← hI.next]; exact Nat.lt_succ_self _⟩
            show s0.mem _ = none
            rw [hI.mem]
            obtain ⟨h1, h2⟩ := hI.S.fresh s.next (Nat.le_refl _)
            simp [memOf, h1, h2]
        refine ⟨⟨{ s0 with next := s0.next + 1 }, by simp [St.ext, hI.thr], ⟨⟨hI.S.nd, hI.S.own, hI.S.man, hI.S.inj, hI.S.held, hI.S.disj, ?_⟩,
          hI.ob, hI.mem, by rw [← hI.next], hI.thr⟩, hA'⟩, ?_, ?_⟩
        · intro a ha
          exact hI.S.fresh a (by have : s.next + 1 ≤ a := ha; omega)
        · rw [List.map_append, List.nodup_append]
          refine ⟨hn, by simp, ?_⟩
          intro a ha b hb
          simp at hb
          subst hb
          have := (hA a (junk_ne.2 ha)).2
          rw [hI.next] at this
          omega
        · intro x h o h1 h2
          obtain ⟨g1, g2⟩ := hf x h o h1 h2
          refine ⟨Nat.lt_succ_of_lt g1, ?_⟩
          rw [List.map_append, List.mem_append]
          rintro (h | h)
          · exact g2 h
          · simp at h; omega
    | k + 2, hu => simp at hu
  case makeNull x =>
    match k, hu with
    | 0, hu =>
      simp at hu; obtain ⟨rfl, rfl⟩ := hu
      exact key0 (Or.inr ⟨x, rfl⟩) rfl
    | k + 1, hu => simp at hu
  all_goals cases hu

theorem upset_none {s : State V} {k : Nat} {op : Op V} (h : upset s k op = none) : allocs op ≤ k := by
  cases op <;> simp only [allocs, Nat.zero_le]
  case make x v =>
    match k, h with
    | 0, h => simp [upset] at h
    | 1, h => simp [upset] at h
    | k + 2, _ => omega
  case makeNull x =>
    match k, h with
    | 0, h => simp [upset] at h
    | k + 1, _ => omega

theorem runT_refines {ops : List (Option Nat × Op V)} : ∀ {st : SSt V} {s s' : State V} {l l' : List (Nat × V)}
    {os : List (Option (Out V))}, Agree st s l → specRunT s ops = some (s', os, l') → SupportedT s ops →
    ∃ st', runT ops st = .ok os st' ∧ Agree st' s' (l ++ l') := by
  induction ops with
  | nil =>
    intro st s s' l l' os A hs _
    simp only [specRunT, Option.some.injEq, Prod.mk.injEq] at hs
    obtain ⟨rfl, rfl, rfl⟩ := hs
    exact ⟨st, rfl, by simpa using A⟩
  | cons p ops ih =>
    obtain ⟨t, op⟩ := p
    intro st s s' l l' os A hs hg
    simp only [specRunT] at hs
    simp only [SupportedT] at hg
    cases h1 : specStep s op with
    | none => rw [h1] at hs; cases hs
    | some r =>
      obtain ⟨s1, o⟩ := r
      rw [h1] at hs hg
      simp only at hs hg
      cases h2 : t.bind (fun k => upset s k op) with
      | none =>
        rw [h2] at hs hg
        obtain ⟨r, h3, h4⟩ := Option.map_eq_some_iff.1 hs
        simp only [Prod.mk.injEq] at h4
        obtain ⟨rfl, rfl, rfl⟩ := h4
        obtain ⟨st1, h5, A1⟩ := agree_ok A h1 hg.1 (t := t)
          (fun k hk => upset_none (s := s) (by rw [hk] at h2; exact h2))
        obtain ⟨st2, h6, A2⟩ := ih A1 h3 hg.2
        exact ⟨st2, by simp only [runT, h5, M.bind_apply, h6]; rfl, A2⟩
      | some q =>
        obtain ⟨s2, lq⟩ := q
        rw [h2] at hs hg
        obtain ⟨r, h3, h4⟩ := Option.map_eq_some_iff.1 hs
        simp only [Prod.mk.injEq] at h4
        obtain ⟨rfl, rfl, rfl⟩ := h4
        cases t with
        | none => cases h2
        | some k =>
          obtain ⟨ex, st1, h5, A1⟩ := agree_throw A (show upset s k op = some (s2, lq) from h2)
          obtain ⟨st2, h6, A2⟩ := ih A1 h3 hg.2
          exact ⟨st2, by simp only [runT, h5, M.bind_apply, h6]; rfl, by rwa [List.append_assoc] at A2⟩

end Cest.Sptr
