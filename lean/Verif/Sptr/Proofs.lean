import Verif.Sptr.Run
/-
Proofs for shared_ptr: every supported operation refines its specification.
-/
namespace Cest.Sptr
open Cest
variable {V : Type}

/-! ### Variable lists -/

def Vars.keys (l : Vars) : List Nat := l.map (·.1)

theorem look_none_iff (l : Vars) (x : Nat) : l.look x = none ↔ x ∉ l.keys := by
  induction l with
  | nil => simp [Vars.look, Vars.keys]
  | cons a l ih =>
    obtain ⟨y, h⟩ := a
    simp only [Vars.look, Vars.keys, List.map_cons, List.mem_cons] at *
    by_cases e : x = y
    · simp [e]
    · simp [e, ih]

theorem owners_pos {l : Vars} {x g : Nat} {h : Handle} (hx : l.look x = some h)
    (hg : h.grp = some g) : 0 < l.owners g := by
  induction l with
  | nil => simp [Vars.look] at hx
  | cons a l ih =>
    obtain ⟨y, k⟩ := a
    simp only [Vars.look] at hx
    simp only [Vars.owners]
    split at hx
    · cases hx; simp [hg]
    · have := ih hx; omega

theorem owners_drop {l : Vars} {x : Nat} {h : Handle} (hx : l.look x = some h) (g : Nat) :
    l.owners g = (l.drop x).owners g + if h.grp = some g then 1 else 0 := by
  induction l with
  | nil => simp [Vars.look] at hx
  | cons a l ih =>
    obtain ⟨y, k⟩ := a
    simp only [Vars.look] at hx
    simp only [Vars.drop]
    split at hx
    · next e => cases hx; simp [e, Vars.owners]
    · next e => simp only [e, if_false, Vars.owners, ih hx]; omega

theorem owners_put {l : Vars} {x : Nat} {h : Handle} (hx : l.look x = some h) (k : Handle) (g : Nat) :
    (l.put x k).owners g + (if h.grp = some g then 1 else 0) =
      l.owners g + if k.grp = some g then 1 else 0 := by
  induction l with
  | nil => simp [Vars.look] at hx
  | cons a l ih =>
    obtain ⟨y, k'⟩ := a
    simp only [Vars.look] at hx
    simp only [Vars.put]
    split at hx
    · next e => cases hx; simp only [e, if_true, Vars.owners]; omega
    · next e =>
      have := ih hx
      simp only [e, if_false, Vars.owners]; omega

theorem keys_drop_sub (l : Vars) (x : Nat) : ∀ y ∈ (l.drop x).keys, y ∈ l.keys := by
  induction l with
  | nil => simp [Vars.drop]
  | cons a l ih =>
    obtain ⟨y, k⟩ := a
    intro z hz
    simp only [Vars.drop] at hz
    split at hz
    · exact List.mem_cons_of_mem _ hz
    · simp only [Vars.keys, List.map_cons, List.mem_cons] at hz ⊢
      rcases hz with h | h
      · exact Or.inl h
      · exact Or.inr (ih z h)

theorem nodup_drop {l : Vars} (h : l.keys.Nodup) (x : Nat) : (l.drop x).keys.Nodup := by
  induction l with
  | nil => exact h
  | cons a l ih =>
    obtain ⟨y, k⟩ := a
    simp only [Vars.keys, List.map_cons, List.nodup_cons] at h
    simp only [Vars.drop]
    split
    · exact h.2
    · simp only [Vars.keys, List.map_cons, List.nodup_cons]
      exact ⟨fun hm => h.1 (keys_drop_sub l x y hm), ih h.2⟩

theorem look_drop {l : Vars} (h : l.keys.Nodup) (x y : Nat) :
    (l.drop x).look y = if y = x then none else l.look y := by
  induction l with
  | nil => simp [Vars.drop, Vars.look]
  | cons a l ih =>
    obtain ⟨z, k⟩ := a
    simp only [Vars.keys, List.map_cons, List.nodup_cons] at h
    simp only [Vars.drop]
    by_cases e : x = z
    · subst e
      simp only [if_true, Vars.look]
      by_cases e' : y = x
      · subst e'; simp; exact (look_none_iff l y).2 h.1
      · simp [e']
    · simp only [e, if_false, Vars.look, ih h.2]
      by_cases e' : y = x
      · subst e'; simp [e]
      · simp [e']

theorem look_put {l : Vars} {x : Nat} {h : Handle} (hx : l.look x = some h) (k : Handle) (y : Nat) :
    (l.put x k).look y = if y = x then some k else l.look y := by
  induction l with
  | nil => simp [Vars.look] at hx
  | cons a l ih =>
    obtain ⟨z, k'⟩ := a
    simp only [Vars.look] at hx
    simp only [Vars.put]
    by_cases e : x = z
    · subst e
      simp only [if_true, Vars.look]
      by_cases e' : y = x
      · simp [e']
      · simp [e']
    · simp only [e, if_false] at hx ⊢
      simp only [Vars.look, ih hx]
      by_cases e' : y = x
      · subst e'; simp [e]
      · simp [e']

theorem keys_put (l : Vars) (x : Nat) (k : Handle) : (l.put x k).keys = l.keys := by
  induction l with
  | nil => rfl
  | cons a l ih =>
    obtain ⟨z, k'⟩ := a
    simp only [Vars.put]
    split
    · rfl
    · simp only [Vars.keys, List.map_cons] at ih ⊢; rw [ih]

/-! ### Invariant -/

/-- Consistency of specification states. -/
structure SInv (s : State V) : Prop where
  nd : s.vars.keys.Nodup
  own : ∀ g, s.grps g ≠ none ↔ 0 < s.vars.owners g
  man : ∀ g o, s.grps g = some (some o) → s.objs o ≠ none
  inj : ∀ g g' o, s.grps g = some (some o) → s.grps g' = some (some o) → g = g'
  held : ∀ o, s.objs o ≠ none → ∃ g, s.grps g = some (some o)
  disj : ∀ a, s.objs a ≠ none → s.grps a = none
  fresh : ∀ a, s.next ≤ a → s.objs a = none ∧ s.grps a = none

def conc (h : Handle) : Obj := ⟨h.obj, h.grp⟩

def memOf (s : State V) (a : Nat) : Option (Cell V) :=
  match s.objs a with
  | some v => some (.val v)
  | none => match s.grps a with
    | some m => some (.ctrl (s.vars.owners a) m)
    | none => none

structure Inv (st : SSt V) (s : State V) : Prop where
  S : SInv s
  ob : ∀ x, st.objs x = (s.vars.look x).map conc
  mem : ∀ a, st.mem a = memOf s a
  next : st.next = s.next
  thr : st.thr = none

theorem Inv.init : Inv (St.init : SSt V) State.empty := by
  refine ⟨⟨?_, ?_, ?_, ?_, ?_, ?_, ?_⟩, fun _ => rfl, fun _ => rfl, rfl, rfl⟩ <;>
    simp [State.empty, Vars.keys, Vars.owners]

variable {st : SSt V} {s : State V} {x y z g : Nat} {h k : Handle} {m : Option Nat}

theorem memOf_val {o : Nat} {v : V} (h : s.objs o = some v) : memOf s o = some (.val v) := by
  simp [memOf, h]
theorem memOf_ctrl (hI : SInv s) (h : s.grps g = some m) :
    memOf s g = some (.ctrl (s.vars.owners g) m) := by
  have : s.objs g = none := by
    apply Classical.byContradiction
    intro hc
    rw [hI.disj g hc] at h
    cases h
  simp [memOf, this, h]

theorem obj_some (hI : Inv st s) (hx : s.vars.look x = some h) : st.objs x = some (conc h) := by
  simp [hI.ob, hx]
theorem obj_none (hI : Inv st s) (hx : s.vars.look x = none) : st.objs x = none := by
  simp [hI.ob, hx]

/-- The control block of a variable's group. -/
theorem grp_alive (hI : Inv st s) (hx : s.vars.look x = some h) (hg : h.grp = some g) :
    ∃ m, s.grps g = some m := by
  have := (hI.S.own g).2 (owners_pos hx hg)
  cases e : s.grps g with
  | none => exact absurd e this
  | some m => exact ⟨m, rfl⟩

theorem getCtrl_ok {st : SSt V} {n : Int} (h : st.mem g = some (.ctrl n m)) :
    getCtrl (some g) st = .ok (g, n, m) st := by
  simp [getCtrl, h]

theorem run_inv {α : Type} {m : SM V α} {a : α} {st st' : SSt V} {P : SSt V → Prop}
    (h1 : m st = .ok a st') (h2 : P st') : ∃ st', m st = .ok a st' ∧ P st' := ⟨st', h1, h2⟩

/-! ### Steps -/

theorem new_step (hI : Inv st s) (hx : s.vars.look x = none) :
    ∃ st', ctor x st = .ok () st' ∧ Inv st' { s with vars := (x, ⟨none, none⟩) :: s.vars } := by
  have ow : ∀ g, Vars.owners ((x, ⟨none, none⟩) :: s.vars) g = s.vars.owners g := by
    intro g; simp [Vars.owners]
  refine ⟨_, by rw [ctor, newObj_none (obj_none hI hx)], ?_⟩
  refine ⟨⟨?_, ?_, hI.S.man, hI.S.inj, hI.S.held, hI.S.disj, hI.S.fresh⟩, ?_, ?_, hI.next, hI.thr⟩
  · simp only [Vars.keys, List.map_cons, List.nodup_cons]
    exact ⟨(look_none_iff _ _).1 hx, hI.S.nd⟩
  · intro g; rw [ow]; exact hI.S.own g
  · intro y
    simp only [upd_apply, Vars.look]
    by_cases e : y = x
    · simp [e, conc]
    · simp [e, hI.ob]
  · intro a; rw [hI.mem]; simp only [memOf, ow]

/-- A new variable joins the group of `y`. -/
theorem join_step (hI : Inv st s) (hx : s.vars.look x = none) (hy : s.vars.look y = some h)
    (hg : h.grp = some g) (p : Option Nat) :
    ∃ st', (newObj x ⟨p, h.grp⟩ >>= fun _ => incr h.grp) st = .ok () st' ∧
      Inv st' { s with vars := (x, ⟨p, some g⟩) :: s.vars } := by
  obtain ⟨m, hm⟩ := grp_alive hI hy hg
  have hc : st.mem g = some (.ctrl (s.vars.owners g) m) := by rw [hI.mem, memOf_ctrl hI.S hm]
  apply run_inv
  · simp only [M.bind_apply, incr]
    rw [newObj_none (obj_none hI hx)]
    simp only [hg]
    rw [getCtrl_ok (by exact hc)]
    simp only []
    rw [setC_some (by exact hc)]
  · refine ⟨⟨?_, ?_, hI.S.man, hI.S.inj, hI.S.held, hI.S.disj, hI.S.fresh⟩, ?_, ?_, hI.next, hI.thr⟩
    · simp only [Vars.keys, List.map_cons, List.nodup_cons]
      exact ⟨(look_none_iff _ _).1 hx, hI.S.nd⟩
    · intro g'
      simp only [Vars.owners]
      have := hI.S.own g'
      by_cases e : g = g'
      · subst e; simp [hm]
      · simp [e]; simpa using this
    · intro y'
      simp only [upd_apply, Vars.look]
      by_cases e : y' = x
      · simp [e, conc]
      · simp [e, hI.ob]
    · intro a
      simp only [upd_apply]
      by_cases e : a = g
      · subst e
        have : s.objs a = none := by
          apply Classical.byContradiction
          intro hc'
          rw [hI.S.disj a hc'] at hm
          cases hm
        simp [memOf, this, hm, Vars.owners]
      · have e' : ¬ g = a := fun h => e h.symm
        simp [e, hI.mem, memOf, Vars.owners, e']

theorem copy_step (hI : Inv st s) (hx : s.vars.look x = none) (hy : s.vars.look y = some h)
    (hg : h.grp ≠ none) :
    ∃ st', ctorCopy x y st = .ok () st' ∧ Inv st' { s with vars := (x, h) :: s.vars } := by
  cases e : h.grp with
  | none => exact absurd e hg
  | some g =>
    obtain ⟨st', h1, h2⟩ := join_step hI hx hy e h.obj
    refine ⟨st', ?_, ?_⟩
    · simp only [ctorCopy, M.bind_apply]
      rw [getObj_some (obj_some hI hy)]
      exact h1
    · have : h = ⟨h.obj, some g⟩ := by cases h; simp at e; simp [e]
      rw [this]; exact h2

theorem alias_step (hI : Inv st s) (hx : s.vars.look x = none) (hy : s.vars.look y = some h)
    (hg : h.grp ≠ none) (p : Option Nat) :
    ∃ st', ctorAlias x y p st = .ok () st' ∧
      Inv st' { s with vars := (x, ⟨p, h.grp⟩) :: s.vars } := by
  cases e : h.grp with
  | none => exact absurd e hg
  | some g =>
    obtain ⟨st', h1, h2⟩ := join_step hI hx hy e p
    refine ⟨st', ?_, h2⟩
    simp only [ctorAlias, M.bind_apply]
    rw [getObj_some (obj_some hI hy)]
    exact h1

theorem owners_fresh (hI : SInv s) {a : Nat} (ha : s.next ≤ a) : s.vars.owners a = 0 := by
  have := (hI.own a)
  rw [(hI.fresh a ha).2] at this
  simp at this
  exact this

theorem make_step (hI : Inv st s) (hx : s.vars.look x = none) (v : V) :
    ∃ st', (allocC (.val v) >>= fun a => ctorPtr x (some a)) st = .ok () st' ∧ Inv st' {
        vars := (x, ⟨some s.next, some (s.next + 1)⟩) :: s.vars
        objs := fun o => if o = s.next then some v else s.objs o
        grps := fun g => if g = s.next + 1 then some (some s.next) else s.grps g
        next := s.next + 2 } := by
  have hn := obj_none hI hx
  apply run_inv
  · simp only [M.bind_apply, ctorPtr]
    rw [allocC_none hI.thr]
    simp only []
    rw [allocC_none (by exact hI.thr)]
    simp only []
    rw [newObj_none (by exact hn)]
  · have f0 := hI.S.fresh s.next (Nat.le_refl _)
    have f1 := hI.S.fresh (s.next + 1) (by omega)
    have o1 := owners_fresh hI.S (a := s.next + 1) (by omega)
    refine ⟨⟨?_, ?_, ?_, ?_, ?_, ?_, ?_⟩, ?_, ?_, ?_, hI.thr⟩
    · simp only [Vars.keys, List.map_cons, List.nodup_cons]
      exact ⟨(look_none_iff _ _).1 hx, hI.S.nd⟩
    · intro g'
      simp only [Vars.owners]
      have := hI.S.own g'
      by_cases e : g' = s.next + 1
      · subst e; simp
      · have e' : ¬ s.next + 1 = g' := fun h => e h.symm
        simp [e, e']; simpa using this
    · intro g' o hg'
      simp only [] at hg' ⊢
      split at hg'
      · cases hg'; simp
      · have := hI.S.man g' o hg'
        split
        · simp
        · exact this
    · intro g1 g2 o h1 h2
      simp only [] at h1 h2
      split at h1 <;> split at h2
      · omega
      · cases h1
        exact absurd f0.1 (hI.S.man _ _ h2)
      · cases h2
        exact absurd f0.1 (hI.S.man _ _ h1)
      · exact hI.S.inj _ _ _ h1 h2
    · intro o ho
      simp only [] at ho ⊢
      split at ho
      · next e => exact ⟨s.next + 1, by simp [e]⟩
      · obtain ⟨g', hg'⟩ := hI.S.held o ho
        refine ⟨g', ?_⟩
        have : g' ≠ s.next + 1 := by intro e; rw [e, f1.2] at hg'; cases hg'
        simp [this, hg']
    · intro a ha
      simp only [] at ha ⊢
      split at ha
      · next e =>
        have : a ≠ s.next + 1 := by omega
        simp only [this, if_false]; rw [e]; exact f0.2
      · have h1 := hI.S.disj a ha
        have : a ≠ s.next + 1 := by intro e; rw [e, f1.1] at ha; exact ha rfl
        simp [this, h1]
    · intro a ha
      simp only [] at ha ⊢
      have e1 : a ≠ s.next := by omega
      have e2 : a ≠ s.next + 1 := by omega
      simp [e1, e2]
      exact hI.S.fresh a (by omega)
    · intro y'
      simp only [upd_apply, Vars.look]
      by_cases e : y' = x
      · simp [e, conc, hI.next]
      · simp [e, hI.ob]
    · intro a
      simp only [upd_apply, hI.next]
      by_cases e : a = s.next + 1
      · subst e
        simp [memOf, f1.1, Vars.owners, o1]
      · by_cases e2 : a = s.next
        · subst e2; simp [memOf]
        · have e' : ¬ s.next + 1 = a := fun h => e h.symm
          simp [e, e2, hI.mem, memOf, Vars.owners, e']
    · simp [hI.next]

theorem makeNull_step (hI : Inv st s) (hx : s.vars.look x = none) :
    ∃ st', ctorPtr x none st = .ok () st' ∧ Inv st' { s with
        vars := (x, ⟨none, some s.next⟩) :: s.vars
        grps := fun g => if g = s.next then some none else s.grps g
        next := s.next + 1 } := by
  have hn := obj_none hI hx
  apply run_inv
  · simp only [M.bind_apply, ctorPtr]
    rw [allocC_none hI.thr]
    simp only []
    rw [newObj_none (by exact hn)]
  · have f0 := hI.S.fresh s.next (Nat.le_refl _)
    have o1 := owners_fresh hI.S (a := s.next) (by omega)
    refine ⟨⟨?_, ?_, ?_, ?_, ?_, ?_, ?_⟩, ?_, ?_, ?_, hI.thr⟩
    · simp only [Vars.keys, List.map_cons, List.nodup_cons]
      exact ⟨(look_none_iff _ _).1 hx, hI.S.nd⟩
    · intro g'
      simp only [Vars.owners]
      have := hI.S.own g'
      by_cases e : g' = s.next
      · subst e; simp
      · have e' : ¬ s.next = g' := fun h => e h.symm
        simp [e, e']; simpa using this
    · intro g' o hg'
      simp only [] at hg' ⊢
      split at hg'
      · cases hg'
      · exact hI.S.man g' o hg'
    · intro g1 g2 o h1 h2
      simp only [] at h1 h2
      split at h1 <;> split at h2
      · omega
      · cases h1
      · cases h2
      · exact hI.S.inj _ _ _ h1 h2
    · intro o ho
      obtain ⟨g', hg'⟩ := hI.S.held o ho
      refine ⟨g', ?_⟩
      have : g' ≠ s.next := by intro e; rw [e, f0.2] at hg'; cases hg'
      simp [this, hg']
    · intro a ha
      simp only [] at ha ⊢
      have h1 := hI.S.disj a ha
      have : a ≠ s.next := by intro e; rw [e, f0.1] at ha; exact ha rfl
      simp [this, h1]
    · intro a ha
      simp only [] at ha ⊢
      have e1 : a ≠ s.next := by omega
      simp [e1]
      exact hI.S.fresh a (by omega)
    · intro y'
      simp only [upd_apply, Vars.look]
      by_cases e : y' = x
      · simp [e, conc, hI.next]
      · simp [e, hI.ob]
    · intro a
      simp only [upd_apply, hI.next]
      by_cases e2 : a = s.next
      · subst e2; simp [memOf, f0.1, Vars.owners, o1]
      · have e' : ¬ s.next = a := fun h => e2 h.symm
        simp [e2, hI.mem, memOf, Vars.owners, e']
    · simp [hI.next]

theorem set_step (hI : Inv st s) (hx : s.vars.look x = some h) {o : Nat} (ho : h.obj = some o) {w : V}
    (hw : s.objs o = some w) (v : V) :
    ∃ st', starSet x v st = .ok () st' ∧
      Inv st' { s with objs := fun o' => if o' = o then some v else s.objs o' } := by
  have hc : st.mem o = some (.val w) := by rw [hI.mem, memOf_val hw]
  have hne : ∀ a, (if a = o then some v else s.objs a) ≠ none ↔ s.objs a ≠ none := by
    intro a
    split
    · next e => simp [e, hw]
    · rfl
  apply run_inv
  · simp only [M.bind_apply, starSet]
    rw [getObj_some (obj_some hI hx)]
    simp only [conc, ho, deref_some]
    rw [getC_some hc]
    simp only []
    rw [setC_some hc]
  · refine ⟨⟨hI.S.nd, hI.S.own, ?_, hI.S.inj, ?_, ?_, ?_⟩, hI.ob, ?_, hI.next, hI.thr⟩
    · intro g o' hg; exact (hne o').2 (hI.S.man g o' hg)
    · intro o' ho'; exact hI.S.held o' ((hne o').1 ho')
    · intro a ha; exact hI.S.disj a ((hne a).1 ha)
    · intro a ha
      have := hI.S.fresh a ha
      have e : a ≠ o := by intro e; rw [← e, this.1] at hw; cases hw
      simp [e, this]
    · intro a
      simp only [upd_apply]
      by_cases e : a = o
      · simp [e, memOf]
      · simp [e, memOf, hI.mem]

theorem destroy_step (hI : Inv st s) (hx : s.vars.look x = some h) :
    ∃ st', dtor x st = .ok () st' ∧
      Inv st' (({ s with vars := s.vars.drop x } : State V).collect h.grp) := by
  have hob := obj_some hI hx
  cases hg : h.grp with
  | none =>
    have ow : ∀ g, (s.vars.drop x).owners g = s.vars.owners g := by
      intro g; have := owners_drop hx g; simp [hg] at this; exact this.symm
    refine ⟨{ st with objs := upd st.objs x none }, ?_, ?_⟩
    · simp only [dtor, M.bind_apply]
      rw [getObj_some hob]
      simp only [conc, hg]
      rw [delObj_some hob]
    · refine ⟨⟨nodup_drop hI.S.nd x, ?_, hI.S.man, hI.S.inj, hI.S.held, hI.S.disj, hI.S.fresh⟩,
        ?_, ?_, hI.next, hI.thr⟩
      · intro g; simp only [State.collect, ow]; exact hI.S.own g
      · intro y
        simp only [upd_apply, State.collect, look_drop hI.S.nd]
        split
        · rfl
        · exact hI.ob y
      · intro a; simp only [State.collect, memOf, ow]; exact hI.mem a
  | some g =>
    obtain ⟨m, hm⟩ := grp_alive hI hx hg
    have hog : s.objs g = none := by
      apply Classical.byContradiction
      intro hc'
      rw [hI.S.disj g hc'] at hm
      cases hm
    have hc : st.mem g = some (.ctrl (s.vars.owners g) m) := by rw [hI.mem, memOf_ctrl hI.S hm]
    have ow := fun g' => owners_drop hx g'
    have owg := ow g
    simp only [hg, if_true] at owg
    have owne : ∀ g', g' ≠ g → (s.vars.drop x).owners g' = s.vars.owners g' := by
      intro g' hne
      have := ow g'
      have e : ¬ g = g' := fun h => hne h.symm
      simp [hg, e] at this
      exact this.symm
    by_cases hz : (s.vars.drop x).owners g = 0
    · -- last owner
      have hlast : ((s.vars.owners g : Int) - 1 = 0) := by omega
      have hfree : ∀ st1 : SSt V, (∀ a, a ≠ g → st1.mem a = st.mem a) →
          ∃ f : Nat → Option (Cell V), destroy m st1 = .ok () { st1 with mem := f } ∧
            ∀ a, f a = if m = some a then none else st1.mem a := by
        intro st1 h1
        match m with
        | none => exact ⟨st1.mem, rfl, fun a => by simp⟩
        | some o =>
          have hone : o ≠ g := by
            intro e; subst e; exact hI.S.man _ _ hm hog
          cases hv : s.objs o with
          | none => exact absurd hv (hI.S.man _ _ hm)
          | some v =>
            have : st1.mem o = some (.val v) := by rw [h1 o hone, hI.mem, memOf_val hv]
            refine ⟨upd st1.mem o none, by simp [destroy, del, this], ?_⟩
            intro a
            simp only [upd_apply]
            by_cases e : a = o
            · simp [e]
            · have e' : ¬ o = a := fun h => e h.symm
              simp [e, e']
      obtain ⟨f, hf1, hf2⟩ := hfree { st with mem := upd st.mem g (some (.ctrl (s.vars.owners g - 1) m)) }
        (by intro a ha; simp [ha])
      have hgm : ¬ m = some g := by
        intro e
        subst e
        exact hI.S.man _ _ hm hog
      have hfg : f g = some (.ctrl (s.vars.owners g - 1) m) := by rw [hf2 g]; simp [hgm]
      apply run_inv
      · simp only [dtor, M.bind_apply]
        rw [getObj_some hob]
        simp only [conc, hg, M.bind_apply]
        rw [getCtrl_ok hc]
        simp only []
        rw [setC_some hc]
        simp only [hlast, if_true, M.bind_apply]
        rw [hlast] at hf1 hfg
        rw [hf1]
        simp only []
        rw [freeC_some (by exact hfg)]
        simp only []
        rw [delObj_some (by exact hob)]
      · have hgm' : ∀ o, s.grps g = some (some o) ↔ m = some o := by
          intro o; rw [hm]; simp
        refine ⟨⟨?_, ?_, ?_, ?_, ?_, ?_, ?_⟩, ?_, ?_, ?_, ?_⟩
        · simp only [State.collect, hz, if_true]; exact nodup_drop hI.S.nd x
        · intro g'
          simp only [State.collect, hz, if_true]
          by_cases e : g' = g
          · subst e; simp [hz]
          · simp only [e, if_false, owne g' e]; exact hI.S.own g'
        · intro g' o hg'
          simp only [State.collect, hz, if_true] at hg' ⊢
          split at hg'
          · cases hg'
          · next e =>
            have hne : ¬ s.grps g = some (some o) := fun h => e (hI.S.inj _ _ _ hg' h)
            simp only [hne, if_false]
            exact hI.S.man g' o hg'
        · intro g1 g2 o h1 h2
          simp only [State.collect, hz, if_true] at h1 h2
          split at h1 <;> split at h2
          · cases h1
          · cases h1
          · cases h2
          · exact hI.S.inj _ _ _ h1 h2
        · intro o ho
          simp only [State.collect, hz, if_true] at ho ⊢
          split at ho
          · exact absurd rfl ho
          · next e =>
            obtain ⟨g', hg'⟩ := hI.S.held o ho
            have : g' ≠ g := by intro h; subst h; exact e hg'
            exact ⟨g', by simp [this, hg']⟩
        · intro a ha
          simp only [State.collect, hz, if_true] at ha ⊢
          split at ha
          · exact absurd rfl ha
          · have := hI.S.disj a ha
            split
            · rfl
            · exact this
        · intro a ha
          simp only [State.collect, hz, if_true] at ha ⊢
          have := hI.S.fresh a ha
          simp [this]
        · intro y
          simp only [State.collect, hz, if_true, upd_apply, look_drop hI.S.nd]
          split
          · rfl
          · exact hI.ob y
        · intro a
          simp only [State.collect, hz, if_true, upd_apply, hf2, memOf, hgm']
          by_cases e : a = g
          · subst e; simp [hgm, hog]
          · simp only [e, if_false, owne a e]
            by_cases e2 : m = some a
            · have hd : s.grps a = none := hI.S.disj a (hI.S.man g a (by rw [hm, e2]))
              simp [e2, hd]
            · simp only [e2, if_false]; exact hI.mem a
        · simp only [State.collect, hz, if_true]; exact hI.next
        · exact hI.thr
    · -- other owners remain
      have hnl : ¬ ((s.vars.owners g : Int) - 1 = 0) := by omega
      apply run_inv
      · simp only [dtor, M.bind_apply]
        rw [getObj_some hob]
        simp only [conc, hg, M.bind_apply]
        rw [getCtrl_ok hc]
        simp only []
        rw [setC_some hc]
        simp only [hnl, if_false]
        rw [delObj_some (by exact hob)]
      · simp only [State.collect, hz, if_false]
        refine ⟨⟨nodup_drop hI.S.nd x, ?_, hI.S.man, hI.S.inj, hI.S.held, hI.S.disj, hI.S.fresh⟩,
          ?_, ?_, hI.next, hI.thr⟩
        · intro g'
          by_cases e : g' = g
          · subst e; simp only [hm]; simp; omega
          · rw [owne g' e]; exact hI.S.own g'
        · intro y
          simp only [upd_apply, look_drop hI.S.nd]
          split
          · rfl
          · exact hI.ob y
        · intro a
          simp only [upd_apply, memOf]
          by_cases e : a = g
          · subst e
            have : ((s.vars.owners a : Int) - 1) = ((s.vars.drop x).owners a : Nat) := by omega
            simp [hog, hm, this]
          · simp only [e, if_false, owne a e]; exact hI.mem a

theorem assign_step (hI : Inv st s) (hx : s.vars.look x = some h) (hy : s.vars.look y = some k)
    (hg : h.grp = k.grp) :
    ∃ st', assign x y st = .ok () st' ∧
      Inv st' (({ s with vars := s.vars.put x k } : State V).collect h.grp) := by
  have hobx := obj_some hI hx
  have hoby := obj_some hI hy
  have ow : ∀ g, (s.vars.put x k).owners g = s.vars.owners g := by
    intro g; have := owners_put hx k g; rw [hg] at this; omega
  have hcol : ({ s with vars := s.vars.put x k } : State V).collect h.grp =
      { s with vars := s.vars.put x k } := by
    cases e : h.grp with
    | none => rfl
    | some g =>
      have := owners_pos hx e
      simp only [State.collect, ow]
      have hne : ¬ s.vars.owners g = 0 := by omega
      simp [hne]
  rw [hcol]
  apply run_inv
  · simp only [assign, M.bind_apply]
    rw [getObj_some hoby]
    simp only []
    rw [getObj_some hobx]
    simp only []
    rw [setObj_some hobx]
  · refine ⟨⟨?_, ?_, hI.S.man, hI.S.inj, hI.S.held, hI.S.disj, hI.S.fresh⟩, ?_, ?_, hI.next, hI.thr⟩
    · simp only [keys_put]; exact hI.S.nd
    · intro g; simp only [ow]; exact hI.S.own g
    · intro z
      simp only [upd_apply, look_put hx]
      split
      · rfl
      · exact hI.ob z
    · intro a; simp only [memOf, ow]; exact hI.mem a

theorem step_refines {s' : State V} {op : Op V} {o : Out V} (hI : Inv st s)
    (hs : specStep s op = some (s', o)) (hg : Supported s op) :
    ∃ st', runOp op st = .ok o st' ∧ Inv st' s' := by
  cases op with
  | new x =>
    simp only [specStep] at hs
    split at hs <;> simp at hs
    obtain ⟨rfl, rfl⟩ := hs
    next hx =>
    obtain ⟨st', h1, h2⟩ := new_step hI hx
    exact ⟨st', by simp [runOp, h1], h2⟩
  | make x v =>
    simp only [specStep] at hs
    split at hs <;> simp at hs
    obtain ⟨rfl, rfl⟩ := hs
    next hx =>
    obtain ⟨st', h1, h2⟩ := make_step hI hx v
    refine ⟨st', ?_, h2⟩
    simp only [runOp, M.bind_apply] at h1 ⊢
    rw [allocC_none hI.thr] at h1 ⊢
    simp only [] at h1 ⊢
    rw [h1]
    rfl
  | makeNull x =>
    simp only [specStep] at hs
    split at hs <;> simp at hs
    obtain ⟨rfl, rfl⟩ := hs
    next hx =>
    obtain ⟨st', h1, h2⟩ := makeNull_step hI hx
    exact ⟨st', by simp [runOp, h1], h2⟩
  | copy x y =>
    simp only [specStep] at hs
    split at hs <;> simp at hs
    obtain ⟨rfl, rfl⟩ := hs
    next hx hy =>
    obtain ⟨st', h1, h2⟩ := copy_step hI hx hy (hg _ hy)
    exact ⟨st', by simp [runOp, h1], h2⟩
  | alias x y z =>
    simp only [specStep] at hs
    split at hs <;> simp at hs
    obtain ⟨rfl, rfl⟩ := hs
    next h k hx hy hz =>
    obtain ⟨st', h1, h2⟩ := alias_step hI hx hy (hg _ hy) k.obj
    refine ⟨st', ?_, h2⟩
    have e : get z st = .ok k.obj st := by simp [get, obj_some hI hz, conc]
    simp [runOp, e, h1]
  | assign x y =>
    simp only [specStep] at hs
    split at hs <;> simp at hs
    obtain ⟨rfl, rfl⟩ := hs
    next hx hy =>
    obtain ⟨st', h1, h2⟩ := assign_step hI hx hy (hg _ _ hx hy)
    exact ⟨st', by simp [runOp, h1], h2⟩
  | destroy x =>
    simp only [specStep] at hs
    split at hs <;> simp at hs
    obtain ⟨rfl, rfl⟩ := hs
    next hx =>
    obtain ⟨st', h1, h2⟩ := destroy_step hI hx
    exact ⟨st', by simp [runOp, h1], h2⟩
  | useCount x =>
    simp only [specStep] at hs
    split at hs <;> simp at hs
    · obtain ⟨rfl, rfl⟩ := hs
      next hx =>
      exact ⟨st, by simp [runOp, useCount, obj_some hI hx, conc], hI⟩
    · obtain ⟨rfl, rfl⟩ := hs
      next g hx =>
      obtain ⟨m, hm⟩ := grp_alive hI hx rfl
      have hc : st.mem g = some (.ctrl (s.vars.owners g) m) := by rw [hI.mem, memOf_ctrl hI.S hm]
      exact ⟨st, by simp [runOp, useCount, obj_some hI hx, conc, getCtrl_ok hc], hI⟩
  | get x =>
    simp only [specStep] at hs
    split at hs
    · split at hs <;> simp at hs
      obtain ⟨rfl, rfl⟩ := hs
      next hx _ v hv =>
      have hc := hI.mem
      exact ⟨st, by simp [runOp, star, obj_some hI hx, conc, hI.mem, memOf_val hv], hI⟩
    · cases hs
  | set x v =>
    simp only [specStep] at hs
    split at hs
    · split at hs <;> simp at hs
      obtain ⟨rfl, rfl⟩ := hs
      next hx _ w hw =>
      obtain ⟨st', h1, h2⟩ := set_step hI hx rfl hw v
      exact ⟨st', by simp [runOp, h1], h2⟩
    · cases hs
  | toBool x =>
    simp only [specStep] at hs
    split at hs <;> simp at hs
    obtain ⟨rfl, rfl⟩ := hs
    next hx =>
    exact ⟨st, by simp [runOp, toBool, obj_some hI hx, conc], hI⟩
  | same x y =>
    simp only [specStep] at hs
    split at hs <;> simp at hs
    obtain ⟨rfl, rfl⟩ := hs
    next hx hy =>
    exact ⟨st, by simp [runOp, get, obj_some hI hx, obj_some hI hy, conc], hI⟩

theorem run_refines {s' : State V} {ops : List (Op V)} {os : List (Out V)} (hI : Inv st s)
    (hs : specRun s ops = some (s', os)) (hg : SupportedRun s ops) :
    ∃ st', runOps ops st = .ok os st' ∧ Inv st' s' := by
  induction ops generalizing st s os with
  | nil => simp [specRun] at hs; obtain ⟨rfl, rfl⟩ := hs; exact ⟨st, rfl, hI⟩
  | cons op ops ih =>
    simp only [specRun] at hs
    simp only [SupportedRun] at hg
    split at hs
    · cases hs
    · next e1 o h1 =>
      rw [h1] at hg
      split at hs
      · cases hs
      · next e2 os' h2 =>
        simp at hs
        obtain ⟨rfl, rfl⟩ := hs
        obtain ⟨st1, r1, g1⟩ := step_refines hI h1 hg.1
        obtain ⟨st2, r2, g2⟩ := ih g1 h2 hg.2
        exact ⟨st2, by simp [runOps, r1, r2], g2⟩

end Cest.Sptr
