import Verif.Sdel.Proofs
import Mathlib.Data.List.Perm.Subperm
import Mathlib.Data.List.Forall2
/-
Properties of shared_ptr with deleters, arrays and pointers to derived classes (C109 to C113).
-/
namespace Cest.Sdel
open Cest
variable {V D : Type} {frees : Nat → Bool} {virt : Bool}

/-- What a machine state must look like for a specification state: the same variables, the same living
objects, one control block per living group whose count is the number of owners, the same deleter calls. -/
structure Shows (st : DSt V D) (s : State V D) : Prop where
  vars : ∀ x, st.st.objs x = (s.vars.look x).map (fun h => ⟨h.obj, some h.grp⟩)
  objs : ∀ o y c, st.st.mem o = some (.obj y c) ↔ s.objs o = some (y, c)
  grps : ∀ g, (∃ n u m d, st.st.mem g = some (.ctrl n u m d)) ↔ s.grps.look g ≠ none
  block : ∀ g n u m d, st.st.mem g = some (.ctrl n u m d) → n = owners s.vars g ∧
    ∃ G, s.grps.look g = some G ∧ u = G.pty ∧ m = G.obj ∧ ∀ k v, d = .user k v ↔ G.del = some (k, v)
  log : st.log = s.log

theorem delOf_user (s : State V D) (G : Group D) (k : Nat) (v : D) : delOf s G = .user k v ↔ G.del = some (k, v) := by
  unfold delOf
  cases e : G.del with
  | some p => obtain ⟨k', v'⟩ := p; simp
  | none =>
    simp only [reduceCtorEq, iff_false]
    split
    · simp
    · split
      · split <;> simp
      · simp

theorem Inv.shows {st : DSt V D} {s : State V D} (hI : Inv virt st s) : Shows st s := by
  refine ⟨hI.ob, ?_, ?_, ?_, hI.log⟩
  · intro o y c
    rw [hI.mem]
    simp only [memOf]
    split
    · next w hw => simp [hw]
    · next hw => split <;> simp [hw]
  · intro g
    rw [hI.mem]
    simp only [memOf]
    split
    · next w hw =>
      have := hI.S.disj g (by simp [hw])
      simp [this]
    · split
      · next m' hm => simp [hm]
      · next hm => simp [hm]
  · intro g n u m d h
    rw [hI.mem] at h
    simp only [memOf] at h
    split at h
    · cases h
    · split at h
      · next G hG =>
        cases h
        exact ⟨rfl, G, hG, rfl, rfl, delOf_user s G⟩
      · cases h

/-- Histories the client is entitled to and the library supports. -/
def Legal (frees : Nat → Bool) (virt : Bool) (ops : List (Op V D)) (s : State V D) (os : List (Out V D)) : Prop :=
  specRun frees State.empty ops = some (s, os) ∧ SupportedRun frees virt State.empty ops

theorem Legal.inv {ops : List (Op V D)} {s : State V D} {os : List (Out V D)} (h : Legal frees virt ops s os) :
    ∃ st, runOps frees virt ops DSt.init = .ok os st ∧ Inv virt st s :=
  run_refines Inv.init h.1 h.2

/-- A history used in the examples below: an object with deleter 7 (value 40), shared by two variables, an
array, and an object with the default deleter. -/
def demo : List (Op Nat Nat) :=
  [.makeDel 0 0 (some (.one 5)) 7 40, .copy 1 0, .make 2 0 (.arr [1, 2, 3]), .getDel 1 7, .getDel 1 8,
   .idxSet 2 1 9, .idx 2 1, .destroy 0, .get 1, .useCount 1, .makeDel 3 2 none 8 41, .destroy 1, .destroy 2, .destroy 3]

example : ∃ s os, Legal (fun k => k == 7) false demo s os ∧ s.vars = [] ∧
    s.log = [⟨7, 40, some 0⟩, ⟨8, 41, none⟩] ∧
    os = [.unit, .unit, .unit, .del (some 40), .del none, .unit, .val 9, .unit, .val 5, .count 1, .unit,
      .unit, .unit, .unit] := by
  refine ⟨_, _, ⟨rfl, ?_⟩, rfl, rfl, rfl⟩
  simp [demo, SupportedRun, Supported, specStep, State.empty, AL.look, setAt, State.collect, owners, AL.drop,
    Group.destroys]
  constructor <;> (rintro h G d rfl hG -; simp at hG; subst hG; rfl)

/-! ## C109 -/

/-- C109 Every history runs without undefined behaviour, answers what the specification says, and ends in the
state it describes; in particular the deleters have been called in that order with those pointers. -/
theorem C109_sdel_history (ops : List (Op V D)) (s : State V D) (os : List (Out V D))
    (h : Legal frees virt ops s os) :
    ∃ st, runOps frees virt ops DSt.init = .ok os st ∧ Shows st s := by
  obtain ⟨st, h1, h2⟩ := h.inv
  exact ⟨st, h1, h2.shows⟩

/-- The deleters given by the client in a history. -/
def given : List (Op V D) → List (Nat × D)
  | [] => []
  | .makeDel _ _ _ k d :: ops => (k, d) :: given ops
  | _ :: ops => given ops

/-- Facts about promised calls and objects (`L`: objects that were lost). -/
structure Prom (frees : Nat → Bool) (L : Nat → Prop) (s : State V D) : Prop where
  lt : ∀ p ∈ s.made.filterMap (·.ptr), p < s.next
  nd : (s.made.filterMap (·.ptr)).Nodup
  src : ∀ o, s.objs o ≠ none →
    (∃ g G, s.grps.look g = some G ∧ G.obj = some o) ∨ (∃ c ∈ s.log, c.ptr = some o ∧ frees c.ty = false) ∨ L o

theorem collect_prom {L : Nat → Prop} {s : State V D} (hS : SInv virt s) {g : Nat} {vs : AL Handle} (hP : Prom frees L s) :
    Prom frees L (({ s with vars := vs } : State V D).collect frees g) ∧
    (({ s with vars := vs } : State V D).collect frees g).made = s.made := by
  unfold State.collect
  split
  · split
    · exact ⟨⟨hP.lt, hP.nd, hP.src⟩, rfl⟩
    · next G hG =>
      simp only at hG
      refine ⟨⟨hP.lt, hP.nd, ?_⟩, rfl⟩
      intro o ho
      simp only at ho ⊢
      split at ho
      · exact absurd rfl ho
      · next hd =>
        rcases hP.src o ho with ⟨g', G', h1, h2⟩ | ⟨c, h1, h2⟩ | hl
        · by_cases e : g' = g
          · subst e
            rw [hG] at h1
            cases h1
            have hf : G.destroys frees ≠ true := fun h => hd ⟨h, h2⟩
            refine .inr (.inl ?_)
            unfold Group.destroys at hf
            cases hdel : G.del with
            | none => rw [hdel] at hf; simp at hf
            | some p =>
              rw [hdel] at hf
              exact ⟨⟨p.1, p.2, G.obj⟩, by simp [Group.call, hdel], h2, by simpa using hf⟩
          · left
            exact ⟨g', G', by rw [look_drop hS.ndg, if_neg e]; exact h1, h2⟩
        · exact .inr (.inl ⟨c, by simp [h1], h2⟩)
        · exact .inr (.inr hl)
  · exact ⟨⟨hP.lt, hP.nd, hP.src⟩, rfl⟩

theorem prom_step {L : Nat → Prop} {st : DSt V D} {s s' : State V D} {op : Op V D} {o : Out V D} (hI : Inv virt st s) (hP : Prom frees L s)
    (hs : specStep frees s op = some (s', o)) :
    Prom frees L s' ∧ (s'.made.map fun c => (c.ty, c.val)).Perm (given [op] ++ s.made.map fun c => (c.ty, c.val)) := by
  have f0 := hI.S.fresh s.next (Nat.le_refl _)
  have f1 := hI.S.fresh (s.next + 1) (by omega)
  have grow : ∀ (x y : Nat) (c : Content V) (d : Option (Nat × D)), Prom frees L (addObj s x y c d) := by
    intro x y c d
    refine ⟨?_, ?_, ?_⟩
    · intro p hp
      cases d with
      | none => have := hP.lt p (by simpa [addObj] using hp); simp [addObj]; omega
      | some d =>
        simp only [addObj, Option.map_some, Option.toList_some, List.singleton_append, List.filterMap_cons,
          List.mem_cons] at hp ⊢
        rcases hp with rfl | hp
        · omega
        · have := hP.lt p hp; omega
    · cases d with
      | none => exact hP.nd
      | some d =>
        simp only [addObj, Option.map_some, Option.toList_some, List.singleton_append, List.filterMap_cons,
          List.nodup_cons]
        exact ⟨fun h => by have := hP.lt _ h; omega, hP.nd⟩
    · intro o ho
      simp only [addObj] at ho ⊢
      by_cases e : o = s.next
      · exact .inl ⟨s.next + 1, ⟨some s.next, d, y⟩, by simp [AL.look], by simp [e]⟩
      · simp only [e, if_false] at ho
        rcases hP.src o ho with ⟨g, G, h1, h2⟩ | h
        · refine .inl ⟨g, G, ?_, h2⟩
          have : g ≠ s.next + 1 := by intro e; rw [e, f1.2] at h1; cases h1
          simp [AL.look, this, h1]
        · exact .inr h
  cases op with
  | make x y c =>
    simp only [specStep] at hs
    split at hs
    · cases hs
    · simp at hs
      obtain ⟨rfl, rfl⟩ := hs
      exact ⟨grow _ _ _ none, by simp [given]⟩
    · cases hs
  | makeDel x y c k d =>
    cases c with
    | some c =>
      simp only [specStep] at hs
      split at hs <;> simp at hs
      obtain ⟨rfl, rfl⟩ := hs
      exact ⟨grow x y c (some (k, d)), by simp [given]⟩
    | none =>
      simp only [specStep] at hs
      split at hs <;> simp at hs
      obtain ⟨rfl, rfl⟩ := hs
      refine ⟨⟨?_, ?_, ?_⟩, by simp [given]⟩
      · intro p hp
        have := hP.lt p (by simpa using hp)
        simp only
        omega
      · simpa using hP.nd
      · intro o ho
        rcases hP.src o ho with ⟨g, G, h1, h2⟩ | h
        · refine .inl ⟨g, G, ?_, h2⟩
          have : g ≠ s.next := by intro e; rw [e, f0.2] at h1; cases h1
          simp [AL.look, this, h1]
        · exact .inr h
  | copy x z =>
    simp only [specStep] at hs
    split at hs <;> simp at hs
    obtain ⟨rfl, rfl⟩ := hs
    exact ⟨⟨hP.lt, hP.nd, hP.src⟩, by simp [given]⟩
  | destroy x =>
    simp only [specStep] at hs
    split at hs <;> simp at hs
    obtain ⟨rfl, rfl⟩ := hs
    next h hx =>
    obtain ⟨h1, h2⟩ := collect_prom hI.S (g := h.grp) (vs := s.vars.drop x) hP
    exact ⟨h1, by rw [h2]; simp [given]⟩
  | useCount x =>
    simp only [specStep] at hs
    split at hs <;> simp at hs
    obtain ⟨rfl, rfl⟩ := hs
    exact ⟨hP, by simp [given]⟩
  | getDel x k =>
    simp only [specStep] at hs
    split at hs
    · cases hs
    · split at hs
      · simp at hs; obtain ⟨rfl, rfl⟩ := hs; exact ⟨hP, by simp [given]⟩
      · simp at hs; obtain ⟨rfl, rfl⟩ := hs; exact ⟨hP, by simp [given]⟩
      · cases hs
  | get x =>
    simp only [specStep] at hs
    split at hs
    · split at hs <;> simp at hs
      obtain ⟨rfl, rfl⟩ := hs
      exact ⟨hP, by simp [given]⟩
    · cases hs
  | idx x i =>
    simp only [specStep] at hs
    split at hs
    · split at hs
      · split at hs
        · split at hs <;> simp at hs
          obtain ⟨rfl, rfl⟩ := hs
          exact ⟨hP, by simp [given]⟩
        · cases hs
      · cases hs
    · cases hs
  | idxSet x i v =>
    simp only [specStep] at hs
    split at hs
    · next o _ _ =>
      split at hs
      · next hv =>
        split at hs
        · simp at hs
          obtain ⟨rfl, rfl⟩ := hs
          refine ⟨⟨hP.lt, hP.nd, ?_⟩, by simp [given]⟩
          intro o' ho'
          apply hP.src o'
          simp only at ho'
          split at ho'
          · next e => rw [e, hv]; simp
          · exact ho'
        · cases hs
      · cases hs
    · cases hs

theorem given_cons (op : Op V D) (ops : List (Op V D)) : given (op :: ops) = given [op] ++ given ops := by
  cases op <;> simp [given]

theorem prom_run {L : Nat → Prop} {st : DSt V D} {s s' : State V D} {ops : List (Op V D)} {os : List (Out V D)} (hI : Inv virt st s)
    (hP : Prom frees L s) (hs : specRun frees s ops = some (s', os)) (hg : SupportedRun frees virt s ops) :
    Prom frees L s' ∧ (s'.made.map fun c => (c.ty, c.val)).Perm (given ops ++ s.made.map fun c => (c.ty, c.val)) := by
  induction ops generalizing st s os with
  | nil => simp [specRun] at hs; obtain ⟨rfl, rfl⟩ := hs; exact ⟨hP, by simp [given]⟩
  | cons op ops ih =>
    simp only [specRun] at hs
    simp only [SupportedRun] at hg
    split at hs
    · cases hs
    · next e1 o h1 =>
      rw [h1] at hg
      split at hs
      · cases hs
      · next e2 os' h2 =>
        simp at hs
        obtain ⟨rfl, rfl⟩ := hs
        obtain ⟨st1, r1, g1⟩ := step_refines hI h1 hg.1
        obtain ⟨p1, q1⟩ := prom_step hI hP h1
        obtain ⟨p2, q2⟩ := ih g1 p1 h2 hg.2
        refine ⟨p2, q2.trans ?_⟩
        rw [given_cons, List.append_assoc]
        exact ((q1.append_left _).trans (List.perm_append_comm_assoc _ _ _))

theorem prom_empty {L : Nat → Prop} : Prom frees L (State.empty : State V D) :=
  ⟨by simp [State.empty], by simp [State.empty], by simp [State.empty]⟩

/-- The variables of a machine state. -/
def NoVars (st : DSt V D) : Prop := ∀ x, st.st.objs x = none

theorem Inv.noVars {st : DSt V D} {s : State V D} (hI : Inv virt st s) (h : NoVars st) :
    s.vars = [] ∧ s.grps = [] := by
  have hv : s.vars = [] := by
    cases e : s.vars with
    | nil => rfl
    | cons a l =>
      have := h a.1
      rw [hI.ob, e] at this
      simp [AL.look] at this
  refine ⟨hv, ?_⟩
  cases e : s.grps with
  | nil => rfl
  | cons a l =>
    have := (hI.S.own a.1).1 (by rw [e]; simp [AL.look])
    rw [hv] at this
    simp [owners] at this

/-- C109 Once no shared_ptr is left, each deleter the client gave has been called exactly once. -/
theorem C109_each_deleter_once (ops : List (Op V D)) (s : State V D) (os : List (Out V D)) (st : DSt V D)
    (h : Legal frees virt ops s os) (hr : runOps frees virt ops DSt.init = .ok os st) (hn : NoVars st) :
    (st.log.map fun c => (c.ty, c.val)).Perm (given ops) := by
  obtain ⟨st', h1, h2⟩ := h.inv
  rw [hr] at h1
  cases h1
  obtain ⟨-, q⟩ := prom_run Inv.init (prom_empty (L := fun _ => False)) h.1 h.2
  have p := h2.S.perm
  rw [(h2.noVars hn).2] at p
  simp only [List.filterMap_nil, List.append_nil] at p
  rw [h2.log]
  refine (p.map _).trans ?_
  simpa [State.empty] using q

/-- C109 At every moment no object has been given to a deleter twice, and the deleters called so far are
among those the client gave. -/
theorem C109_never_twice (ops : List (Op V D)) (s : State V D) (os : List (Out V D)) (st : DSt V D)
    (h : Legal frees virt ops s os) (hr : runOps frees virt ops DSt.init = .ok os st) :
    (st.log.filterMap (·.ptr)).Nodup ∧ (st.log.map fun c => (c.ty, c.val)).Subperm (given ops) := by
  obtain ⟨st', h1, h2⟩ := h.inv
  rw [hr] at h1
  cases h1
  obtain ⟨pr, q⟩ := prom_run Inv.init (prom_empty (L := fun _ => False)) h.1 h.2
  have p := h2.S.perm
  rw [h2.log]
  constructor
  · have := (p.filterMap (·.ptr)).nodup_iff.2 pr.nd
    rw [List.filterMap_append] at this
    exact (List.nodup_append.1 this).1
  · rw [show (State.empty : State V D).made = [] from rfl, List.map_nil, List.append_nil] at q
    refine List.Subperm.trans ?_ ((p.map _).trans q).subperm
    rw [List.map_append]
    exact (List.sublist_append_left _ _).subperm

/-- C109 Once no shared_ptr is left, no control block is left, and the only objects left are those that were
handed to a deleter that does not delete. -/
theorem C109_no_leak (ops : List (Op V D)) (s : State V D) (os : List (Out V D)) (st : DSt V D)
    (h : Legal frees virt ops s os) (hr : runOps frees virt ops DSt.init = .ok os st) (hn : NoVars st)
    (a : Nat) (c : Cell V D) (hc : st.st.mem a = some c) :
    (∃ y v, c = .obj y v) ∧ ∃ k ∈ st.log, k.ptr = some a ∧ frees k.ty = false := by
  obtain ⟨st', h1, h2⟩ := h.inv
  rw [hr] at h1
  cases h1
  obtain ⟨pr, -⟩ := prom_run Inv.init (prom_empty (L := fun _ => False)) h.1 h.2
  have hg := (h2.noVars hn).2
  have hs := h2.shows
  cases c with
  | ctrl n u m d =>
    have := (hs.grps a).1 ⟨n, u, m, d, hc⟩
    rw [hg] at this
    exact absurd rfl this
  | obj y v =>
    refine ⟨⟨y, v, rfl⟩, ?_⟩
    have ho := (hs.objs a y v).1 hc
    rcases pr.src a (by rw [ho]; simp) with ⟨g, G, h3, -⟩ | h3 | h3
    · rw [hg] at h3; cases h3
    · rw [h2.log]; exact h3
    · exact h3.elim

-- `demo` is legal and ends with no variable
example : ∃ s os st, Legal (fun k => k == 7) false demo s os ∧
    runOps (fun k => k == 7) false demo DSt.init = .ok os st ∧ NoVars st ∧ given demo = [(7, 40), (8, 41)] := by
  have hl : Legal (fun k => k == 7) false demo _ _ := ⟨rfl, by
    simp [demo, SupportedRun, Supported, specStep, State.empty, AL.look, setAt, State.collect, owners, AL.drop,
      Group.destroys]
    constructor <;> (rintro h G d rfl hG -; simp at hG; subst hG; rfl)⟩
  obtain ⟨st, h1, h2⟩ := hl.inv
  exact ⟨_, _, st, hl, h1, fun x => h2.ob x, rfl⟩

/-! ## Continuing a history -/

theorem specRun_append {s s' : State V D} {ops ops' : List (Op V D)} {os : List (Out V D)}
    (h : specRun frees s ops = some (s', os)) :
    specRun frees s (ops ++ ops') = (specRun frees s' ops').map fun r => (r.1, os ++ r.2) := by
  induction ops generalizing s os with
  | nil => simp [specRun] at h; obtain ⟨rfl, rfl⟩ := h; simp
  | cons op ops ih =>
    simp only [specRun] at h
    split at h
    · cases h
    · next s1 o h1 =>
      split at h
      · cases h
      · next s2 os' h2 =>
        simp at h
        obtain ⟨rfl, rfl⟩ := h
        simp only [List.cons_append, specRun, h1, ih h2]
        cases specRun frees s2 ops' with
        | none => rfl
        | some r => rfl

theorem supported_append {s s' : State V D} {ops ops' : List (Op V D)} {os : List (Out V D)}
    (h : specRun frees s ops = some (s', os)) (h1 : SupportedRun frees virt s ops)
    (h2 : SupportedRun frees virt s' ops') : SupportedRun frees virt s (ops ++ ops') := by
  induction ops generalizing s os with
  | nil => simp [specRun] at h; obtain ⟨rfl, rfl⟩ := h; exact h2
  | cons op ops ih =>
    simp only [specRun] at h
    simp only [SupportedRun] at h1
    split at h
    · cases h
    · next s1 o e1 =>
      split at h
      · cases h
      · next s2 os' e2 =>
        simp at h
        obtain ⟨rfl, rfl⟩ := h
        rw [e1] at h1
        simp only [List.cons_append, SupportedRun, e1]
        exact ⟨h1.1, ih e2 h1.2⟩

theorem Legal.extend {ops ops' : List (Op V D)} {s s' : State V D} {os os' : List (Out V D)}
    (h : Legal frees virt ops s os) (h1 : specRun frees s ops' = some (s', os'))
    (h2 : SupportedRun frees virt s ops') : Legal frees virt (ops ++ ops') s' (os ++ os') :=
  ⟨by rw [specRun_append h.1, h1]; rfl, supported_append h.1 h.2 h2⟩

/-! ## C110 -/

/-- C110 After any history, a shared_ptr made with a deleter and a pointer to `T`, or a copy of it, gives that
deleter when asked for its type and nothing when asked for another.  (Missing: pointers to derived classes;
see `C110_get_deleter_derived_refuted`.) -/
theorem C110_get_deleter_partial (ops : List (Op V D)) (s : State V D) (os : List (Out V D))
    (h : Legal frees virt ops s os) (x z : Nat) (hx : s.vars.look x = none) (hz : s.vars.look z = none) (hxz : x ≠ z)
    (c : Option (Content V)) (k k' : Nat) (d : D) :
    ∃ st, runOps frees virt (ops ++ [.makeDel x 0 c k d, .copy z x, .getDel x k', .getDel z k']) DSt.init =
      .ok (os ++ [.unit, .unit, .del (if k = k' then some d else none), .del (if k = k' then some d else none)]) st := by
  have hzx : z ≠ x := Ne.symm hxz
  have fresh : ∀ m vs gs ob nx lg md, ∀ g,
      specRun frees (⟨(x, ⟨m, g⟩) :: vs, (g, ⟨m, some (k, d), 0⟩) :: gs, ob, nx, lg, md⟩ : State V D)
        [.copy z x, .getDel x k', .getDel z k'] = (if AL.look vs z = none then
          some (⟨(z, ⟨m, g⟩) :: (x, ⟨m, g⟩) :: vs, (g, ⟨m, some (k, d), 0⟩) :: gs, ob, nx, lg, md⟩,
          [.unit, .del (if k = k' then some d else none), .del (if k = k' then some d else none)]) else none) ∧
      SupportedRun frees virt (⟨(x, ⟨m, g⟩) :: vs, (g, ⟨m, some (k, d), 0⟩) :: gs, ob, nx, lg, md⟩ : State V D)
        [.copy z x, .getDel x k', .getDel z k'] := by
    intro m vs gs ob nx lg md g
    constructor
    · by_cases e : AL.look vs z = none
      · simp [specRun, specStep, AL.look, hxz, hzx, e]
      · obtain ⟨w, hw⟩ := Option.ne_none_iff_exists'.1 e
        simp [specRun, specStep, AL.look, hzx, hw]
    · simp only [SupportedRun, Supported, specStep, AL.look, hzx, if_false, if_true, true_and]
      cases AL.look vs z with
      | some w => trivial
      | none =>
        simp only [AL.look, hxz, hzx, if_false, if_true]
        refine ⟨?_, ?_, trivial⟩
        · intro h G d' h1 h2 h3
          cases h1
          simp at h2
          subst h2
          rfl
        · intro h G d' h1 h2 h3
          cases h1
          simp at h2
          subst h2
          rfl
  cases c with
  | none =>
    obtain ⟨e1, e2⟩ := fresh none s.vars s.grps s.objs (s.next + 1) s.log (⟨k, d, none⟩ :: s.made) s.next
    rw [if_pos hz] at e1
    obtain ⟨s', e1⟩ : ∃ s', specRun frees _ _ = some (s', _) := ⟨_, e1⟩
    have r : specRun frees s [.makeDel x 0 none k d, .copy z x, .getDel x k', .getDel z k'] = some (s',
        [.unit, .unit, .del (if k = k' then some d else none), .del (if k = k' then some d else none)]) := by
      rw [specRun]
      simp only [specStep, hx]
      rw [e1]
    obtain ⟨st, h1, -⟩ := (h.extend r (by
      rw [SupportedRun]
      simp only [specStep, hx, Supported, true_and]
      exact e2)).inv
    exact ⟨st, h1⟩
  | some c =>
    obtain ⟨e1, e2⟩ := fresh (some s.next) s.vars s.grps (fun o => if o = s.next then some (0, c) else s.objs o)
      (s.next + 2) s.log (⟨k, d, some s.next⟩ :: s.made) (s.next + 1)
    rw [if_pos hz] at e1
    obtain ⟨s', e1⟩ : ∃ s', specRun frees _ _ = some (s', _) := ⟨_, e1⟩
    have r : specRun frees s [.makeDel x 0 (some c) k d, .copy z x, .getDel x k', .getDel z k'] = some (s',
        [.unit, .unit, .del (if k = k' then some d else none), .del (if k = k' then some d else none)]) := by
      rw [specRun]
      simp only [specStep, hx]
      rw [e1]
    obtain ⟨st, h1, -⟩ := (h.extend r (by
      rw [SupportedRun]
      simp only [specStep, hx, Supported, true_and]
      exact e2)).inv
    exact ⟨st, h1⟩

-- the history `demo` is legal and ends without variables: x = 0, z = 1 meet the hypotheses
example : ∃ s os, Legal (fun k => k == 7) false demo s os ∧ s.vars.look 0 = none ∧ s.vars.look 1 = none := by
  refine ⟨_, _, ⟨rfl, ?_⟩, rfl, rfl⟩
  simp [demo, SupportedRun, Supported, specStep, State.empty, AL.look, setAt, State.collect, owners, AL.drop,
    Group.destroys]
  constructor <;> (rintro h G d rfl hG -; simp at hG; subst hG; rfl)

/-- C110 is false for pointers to derived classes: whatever the deleter, asking for it finds nothing, where the
specification gives it. -/
theorem C110_get_deleter_derived_refuted (y k : Nat) (d : D) (v : V) :
    (∃ s, specRun frees State.empty [.makeDel 0 (y + 1) (some (.one v)) k d, .getDel 0 k] =
      some (s, [.unit, .del (some d)])) ∧
    ∃ st, runOps frees virt [.makeDel 0 (y + 1) (some (.one v)) k d, .getDel 0 k] (DSt.init : DSt V D) =
      .ok [.unit, .del none] st := by
  constructor
  · simp [specRun, specStep, State.empty, AL.look]
  · exact ⟨_, by simp [runOps, runOp, ctorDel, getDeleter, DSt.init, St.init, lift, allocC, newObj, tick, getObj, getCtrl,
      getC, M.bind_apply, deref]; rfl⟩

/-! ## C111 -/

/-- C111 When `T` has a virtual destructor, making a shared_ptr from a pointer to a new object of a derived
class and destroying it is well defined and leaves the storage as it was.  (Missing: destructors that are not
virtual; see `C111_derived_refuted`.) -/
theorem C111_derived_partial (ops : List (Op V D)) (s : State V D) (os : List (Out V D)) (st₀ : DSt V D)
    (h : Legal frees true ops s os) (h₀ : runOps frees true ops DSt.init = .ok os st₀)
    (x y : Nat) (hx : s.vars.look x = none) (v : V) :
    ∃ st, runOps frees true (ops ++ [.make x y (.one v), .destroy x]) DSt.init = .ok (os ++ [.unit, .unit]) st ∧
      st.log = st₀.log ∧ ∀ a, st.st.mem a = st₀.st.mem a := by
  obtain ⟨st', h1, h2⟩ := h.inv
  rw [h₀] at h1
  cases h1
  have o1 := owners_fresh h2.S (a := s.next + 1) (by omega)
  have f0 := h2.S.fresh s.next (Nat.le_refl _)
  have r : specRun frees s [.make x y (.one v), .destroy x] =
      some ({ s with objs := fun o => if some s.next = some o then none else if o = s.next then some (y, .one v) else s.objs o
                     next := s.next + 2 }, [.unit, .unit]) := by
    simp [specRun, specStep, hx, AL.look, AL.drop, State.collect, o1, Group.destroys, Group.call]
  obtain ⟨st, g1, g2⟩ := (h.extend r (by
    rw [SupportedRun]
    simp [specStep, hx, Supported, SupportedRun, AL.look])).inv
  refine ⟨st, g1, by rw [g2.log, h2.log], ?_⟩
  intro a
  have ho : (if some s.next = some a then none else if a = s.next then some (y, Content.one v) else s.objs a) =
      s.objs a := by
    by_cases e : s.next = a
    · subst e; simp [f0.1]
    · have e' : ¬ a = s.next := fun h => e h.symm
      simp [e, e']
  rw [g2.mem, h2.mem]
  simp only [memOf, ho]
  cases hoa : s.objs a with
  | some p => rfl
  | none =>
    cases hl : s.grps.look a with
    | none => rfl
    | some G =>
      simp only []
      congr 2
      apply delOf_ext
      intro o hGo
      obtain ⟨c, hc, -⟩ := h2.S.man a G o hl hGo
      have : o ≠ s.next := by intro e; rw [e, f0.1] at hc; cases hc
      have this' : ¬ s.next = o := fun h => this h.symm
      simp [this, this']

example : ∃ s os, Legal (fun k => k == 7) true demo s os ∧ s.vars.look 0 = none := by
  refine ⟨_, _, ⟨rfl, ?_⟩, rfl⟩
  simp [demo, SupportedRun, Supported, specStep, State.empty, AL.look, setAt, State.collect, owners, AL.drop,
    Group.destroys]
  constructor <;> (rintro h G d rfl hG -; simp at hG; subst hG; rfl)

/-- C111 is false without a virtual destructor: the default deleter of the code deletes a `T`, where the
specification destroys the object as what it is. -/
theorem C111_derived_refuted (y : Nat) (v : V) :
    (∃ s, specRun frees (State.empty : State V D) [.make 0 (y + 1) (.one v), .destroy 0] = some (s, [.unit, .unit])) ∧
    runOps frees false [.make 0 (y + 1) (.one v), .destroy 0] (DSt.init : DSt V D) = .ub .badFree := by
  constructor
  · exact ⟨_, rfl⟩
  · rfl

/-! ## C112 -/

/-- C112 If the control block can be allocated, construction with a deleter promises exactly one more call: the
deleters called so far together with those of the living groups are the ones given.  (Missing: what happens
when that allocation fails; see `C112_alloc_failure_refuted`.) -/
theorem C112_deleter_kept_partial (ops : List (Op V D)) (s : State V D) (os : List (Out V D)) (st : DSt V D)
    (h : Legal frees virt ops s os) (hr : runOps frees virt ops DSt.init = .ok os st) :
    ∃ gs : List Nat, gs.Nodup ∧ ∃ held : List (Nat × D),
      (List.Forall₂ (fun g p => ∃ n u m, st.st.mem g = some (.ctrl n u m (.user p.1 p.2)) ∧ 0 < n) gs held) ∧
      ((st.log.map fun c => (c.ty, c.val)) ++ held).Perm (given ops) := by
  obtain ⟨st', h1, h2⟩ := h.inv
  rw [hr] at h1
  cases h1
  obtain ⟨pr, q⟩ := prom_run Inv.init (prom_empty (L := fun _ => False)) h.1 h.2
  rw [show (State.empty : State V D).made = [] from rfl, List.map_nil, List.append_nil] at q
  have p := ((h2.S.perm).map (fun c : Call D => (c.ty, c.val))).trans q
  rw [← h2.log, List.map_append, List.map_filterMap] at p
  have key : ∀ l : AL (Group D), l.keys.Nodup → (∀ g G, l.look g = some G → s.grps.look g = some G) →
      ∃ gs : List Nat, gs.Nodup ∧ (∀ g ∈ gs, g ∈ l.keys) ∧ ∃ held : List (Nat × D),
      (List.Forall₂ (fun g p => ∃ n u m, st.st.mem g = some (.ctrl n u m (.user p.1 p.2)) ∧ 0 < n) gs held) ∧
      held = l.filterMap (fun p => (p.2.call).map fun c : Call D => (c.ty, c.val)) := by
    intro l
    induction l with
    | nil => intro _ _; exact ⟨[], by simp, by simp, [], .nil, rfl⟩
    | cons a l ih =>
      obtain ⟨g, G⟩ := a
      intro hn hl
      simp only [AL.keys, List.map_cons, List.nodup_cons] at hn
      have hl' : ∀ g' G', AL.look l g' = some G' → s.grps.look g' = some G' := by
        intro g' G' h'
        have hne : g' ≠ g := by
          intro e
          subst e
          rw [(look_none_iff l g').2 hn.1] at h'
          cases h'
        exact hl g' G' (by simp [AL.look, hne, h'])
      obtain ⟨gs, n1, n2, held, n3, n4⟩ := ih hn.2 hl'
      cases hd : G.del with
      | none =>
        refine ⟨gs, n1, fun g' hg' => List.mem_cons_of_mem _ (n2 g' hg'), held, n3, ?_⟩
        simp [Group.call, hd, n4]
      | some kd =>
        refine ⟨g :: gs, ?_, ?_, kd :: held, .cons ?_ n3, ?_⟩
        · simp only [List.nodup_cons]; exact ⟨fun hm => hn.1 (n2 g hm), n1⟩
        · intro g' hg'
          simp only [List.mem_cons] at hg'
          rcases hg' with rfl | hg'
          · simp [AL.keys]
          · exact List.mem_cons_of_mem _ (n2 g' hg')
        · have hG := hl g G (by simp [AL.look])
          have hm := mem_ctrl h2 hG
          rw [(delOf_user s G kd.1 kd.2).2 hd] at hm
          refine ⟨_, _, _, hm, ?_⟩
          have := (h2.S.own g).1 (by rw [hG]; simp)
          omega
        · simp [Group.call, hd, n4]
  obtain ⟨gs, n1, -, held, n3, n4⟩ := key s.grps h2.S.ndg (fun _ _ h => h)
  exact ⟨gs, n1, held, n3, by rw [n4]; exact p⟩

example : ∃ s os, Legal (fun k => k == 7) false (demo.take 5) s os ∧ s.log = [] ∧ given (demo.take 5) = [(7, 40)] := by
  refine ⟨_, _, ⟨rfl, ?_⟩, rfl, rfl⟩
  simp [demo, SupportedRun, Supported, specStep, State.empty, AL.look]
  constructor <;> (rintro h G d rfl hG -; simp at hG; subst hG; rfl)

/-- C112 is false when the control block cannot be allocated: the constructor throws, the deleter has not been
called, and the object is left behind. -/
theorem C112_alloc_failure_refuted (k : Nat) (d : D) (c : Content V) :
    ∃ st : DSt V D, runOp frees virt (.makeDel 0 0 (some c) k d) ⟨{ St.init with thr := some 1 }, []⟩ =
      .throw .badAlloc st ∧ st.log = [] ∧ st.st.objs 0 = none ∧ st.st.mem 0 = some (.obj 0 c) :=
  ⟨_, rfl, rfl, rfl, rfl⟩

/-! ## C113 -/

/-- C113 After any history, an array put into a `shared_ptr<T[]>` can be written and read by index through any
of its shared_ptrs, and destroying the last of them deletes it as an array (no undefined behaviour). -/
theorem C113_array (ops : List (Op V D)) (s : State V D) (os : List (Out V D))
    (h : Legal frees virt ops s os) (x z : Nat) (hx : s.vars.look x = none) (hz : s.vars.look z = none) (hxz : x ≠ z)
    (vs : List V) (i j : Int) (hi : 0 ≤ i) (hi' : i.toNat < vs.length) (hj : 0 ≤ j) (hj' : j.toNat < vs.length) (v : V) :
    ∃ st, runOps frees virt (ops ++ [.make x 0 (.arr vs), .copy z x, .idxSet z i v, .idx x j, .destroy x, .idx z j,
        .destroy z]) DSt.init =
      .ok (os ++ [.unit, .unit, .unit, .val (if j = i then v else vs[j.toNat]), .unit,
        .val (if j = i then v else vs[j.toNat]), .unit]) st ∧ st.st.mem s.next = none ∧ st.st.objs z = none := by
  have hzx : z ≠ x := Ne.symm hxz
  obtain ⟨st₀, -, h2⟩ := h.inv
  have o1 := owners_fresh h2.S (a := s.next + 1) (by omega)
  have el : (setAt vs i.toNat v)[j.toNat]? = some (if j = i then v else vs[j.toNat]) := by
    rw [setAt_eq, List.getElem?_set]
    by_cases e : j = i
    · subst e; simp [hj']
    · have : ¬ i.toNat = j.toNat := by omega
      simp [e, this, hj']
  have hz' : AL.look s.vars z = none := hz
  have r : ∃ s', specRun frees s [.make x 0 (.arr vs), .copy z x, .idxSet z i v, .idx x j, .destroy x, .idx z j,
        .destroy z] = some (s', [.unit, .unit, .unit, .val (if j = i then v else vs[j.toNat]), .unit,
        .val (if j = i then v else vs[j.toNat]), .unit]) ∧ s'.objs s.next = none ∧ s'.grps.look s.next = none ∧
        s'.vars = s.vars := by
    simp [specRun, specStep, hx, hz', AL.look, AL.drop, State.collect, o1, Group.destroys, Group.call, hxz, hzx,
        hi, hi', hj, el, owners]
    exact (h2.S.fresh s.next (Nat.le_refl _)).2
  obtain ⟨s', r, ro, rg, rv⟩ := r
  obtain ⟨st, g1, g2⟩ := (h.extend r (by
    simp [SupportedRun, Supported, specStep, hx, hz', AL.look, AL.drop, State.collect, o1, Group.destroys, Group.call,
      hxz, hzx, hi, hi', hj, el, owners])).inv
  refine ⟨st, g1, ?_, ?_⟩
  · rw [g2.mem, memOf, ro]
    simp only [rg]
  · rw [g2.ob, rv, hz]
    rfl

/-- C113 An index outside the array is undefined behaviour, as in the specification. -/
theorem C113_array_oob (ops : List (Op V D)) (s : State V D) (os : List (Out V D)) (st : DSt V D)
    (h : Legal frees virt ops s os) (hr : runOps frees virt ops DSt.init = .ok os st)
    (x o g y : Nat) (hx : s.vars.look x = some ⟨some o, g⟩) (vs : List V) (ho : s.objs o = some (y, .arr vs)) (i : Int)
    (hi : i < 0 ∨ vs.length ≤ i.toNat) :
    runOp frees virt (.idx x i) st = .ub .oob := by
  obtain ⟨st', h1, h2⟩ := h.inv
  rw [hr] at h1
  cases h1
  have e : elem vs i = none := by
    unfold elem
    split
    · rfl
    · next hn => rcases hi with h | h
                 · exact absurd h hn
                 · simp [h]
  have e1 := lift_ok (st := st) (getObj_some (obj_some h2 hx))
  have e2 := lift_ok (st := st) (getC_some (mem_obj h2 ho))
  simp [runOp, index, e1, e2, conc, e, M.bind_apply]

example : ∃ s os, Legal (fun k => k == 7) false (demo.take 5) s os ∧ s.vars.look 2 = some ⟨some 2, 3⟩ ∧
    s.objs 2 = some (0, .arr [1, 2, 3]) ∧ s.vars.look 5 = none ∧ s.vars.look 6 = none := by
  refine ⟨_, _, ⟨rfl, ?_⟩, rfl, rfl, rfl, rfl⟩
  simp [demo, SupportedRun, Supported, specStep, State.empty, AL.look]
  constructor <;> (rintro h G d rfl hG -; simp at hG; subst hG; rfl)

/-- **C113 (the form of `delete`).** The last owner of a single object under `shared_ptr<T[]>`, or of an array
under `shared_ptr<T>`, ends in undefined behaviour: the default deleter is chosen by the type of the pointer
alone. -/
theorem C113_mismatched_delete (st : DSt V D) (x a c : Nat) (p : Option Nat) (u y : Nat)
    (hx : st.st.objs x = some ⟨p, some c⟩) (hac : a ≠ c) :
    (∀ v, st.st.mem c = some (.ctrl 1 u (some a) .arr) → st.st.mem a = some (.obj y (.one v)) →
      dtor frees virt x st = .ub .badFree) ∧
    (∀ vs, st.st.mem c = some (.ctrl 1 u (some a) .one) → st.st.mem a = some (.obj y (.arr vs)) →
      dtor frees virt x st = .ub .badFree) := by
  constructor <;> intro v hc ha <;>
    simp [dtor, getCtrl, destroy, delArr, delOne, lift, getObj, getC, setC, deref, hx, hc, ha, hac]

/-- `shared_ptr<T[]> x(new T{5});` followed by its destruction. -/
example : (do
    let a ← lift (allocC (.obj 0 (.one 5)))
    ctorPtr 0 0 (some a) true
    dtor (fun _ => false) false 0 : DM Nat Nat Unit) DSt.init = .ub .badFree := by
  rfl

end Cest.Sdel
