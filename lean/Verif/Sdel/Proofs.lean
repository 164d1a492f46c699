import Verif.Sdel.Model
/-
Proofs: the supported operations of shared_ptr with deleters refine their specification.
-/
namespace Cest.Sdel
open Cest
variable {V D β : Type}

/-! ### Named lists -/

def AL.keys (l : AL β) : List Nat := l.map (·.1)

theorem look_none_iff (l : AL β) (x : Nat) : l.look x = none ↔ x ∉ l.keys := by
  induction l with
  | nil => simp [AL.look, AL.keys]
  | cons a l ih =>
    obtain ⟨y, h⟩ := a
    simp only [AL.look, AL.keys, List.map_cons, List.mem_cons] at *
    by_cases e : x = y
    · simp [e]
    · simp [e, ih]

theorem keys_drop_sub (l : AL β) (x : Nat) : ∀ y ∈ (l.drop x).keys, y ∈ l.keys := by
  induction l with
  | nil => simp [AL.drop]
  | cons a l ih =>
    obtain ⟨z, k⟩ := a
    intro y hy
    simp only [AL.drop] at hy
    simp only [AL.keys, List.map_cons, List.mem_cons]
    split at hy
    · exact .inr hy
    · simp only [AL.keys, List.map_cons, List.mem_cons] at hy
      rcases hy with h | h
      · exact .inl h
      · exact .inr (ih y h)

theorem nodup_drop {l : AL β} (h : l.keys.Nodup) (x : Nat) : (l.drop x).keys.Nodup := by
  induction l with
  | nil => simpa [AL.drop] using h
  | cons a l ih =>
    obtain ⟨y, k⟩ := a
    simp only [AL.keys, List.map_cons, List.nodup_cons] at h
    simp only [AL.drop]
    split
    · exact h.2
    · simp only [AL.keys, List.map_cons, List.nodup_cons]
      exact ⟨fun hm => h.1 (keys_drop_sub l x y hm), ih h.2⟩

theorem look_drop {l : AL β} (h : l.keys.Nodup) (x y : Nat) :
    (l.drop x).look y = if y = x then none else l.look y := by
  induction l with
  | nil => simp [AL.drop, AL.look]
  | cons a l ih =>
    obtain ⟨z, k⟩ := a
    simp only [AL.keys, List.map_cons, List.nodup_cons] at h
    simp only [AL.drop]
    by_cases e : x = z
    · subst e
      simp only [if_true, AL.look]
      by_cases e' : y = x
      · subst e'; simp; exact (look_none_iff l y).2 h.1
      · simp [e']
    · simp only [e, if_false, AL.look, ih h.2]
      by_cases e' : y = x
      · subst e'; simp [e]
      · simp [e']

theorem perm_drop {l : AL β} {x : Nat} {b : β} (h : l.look x = some b) : l.Perm ((x, b) :: l.drop x) := by
  induction l with
  | nil => simp [AL.look] at h
  | cons a l ih =>
    obtain ⟨z, k⟩ := a
    simp only [AL.look] at h
    simp only [AL.drop]
    split at h
    · next e => cases h; simp [e]
    · next e => simp only [e, if_false]; exact ((ih h).cons _).trans (.swap _ _ _)

theorem owners_pos {l : AL Handle} {x : Nat} {h : Handle} (hx : l.look x = some h) : 0 < owners l h.grp := by
  induction l with
  | nil => simp [AL.look] at hx
  | cons a l ih =>
    obtain ⟨y, k⟩ := a
    simp only [AL.look] at hx
    simp only [owners]
    split at hx
    · cases hx; simp
    · have := ih hx; omega

theorem owners_drop {l : AL Handle} {x : Nat} {h : Handle} (hx : l.look x = some h) (g : Nat) :
    owners l g = owners (l.drop x) g + if h.grp = g then 1 else 0 := by
  induction l with
  | nil => simp [AL.look] at hx
  | cons a l ih =>
    obtain ⟨y, k⟩ := a
    simp only [AL.look] at hx
    simp only [AL.drop]
    split at hx
    · next e => cases hx; simp [e, owners]
    · next e => simp only [e, if_false, owners, ih hx]; omega

theorem setAt_eq : ∀ (l : List V) (n : Nat) (v : V), setAt l n v = l.set n v
  | [], _, _ => by simp [setAt]
  | _ :: _, 0, _ => by simp [setAt]
  | _ :: l, n+1, v => by simp [setAt, setAt_eq l n v]

theorem perm_shuffle {α : Type} (l a b : List α) (c : α) (m : List α) (h : (l ++ b).Perm m) (hb : b.Perm (c :: a)) :
    ((l ++ [c]) ++ a).Perm m := by
  refine List.Perm.trans ?_ h
  rw [List.append_assoc]
  exact (hb.symm).append_left l

/-! ### Invariant -/

/-- Consistency of specification states. -/
structure SInv (virt : Bool) (s : State V D) : Prop where
  ndv : s.vars.keys.Nodup
  ndg : s.grps.keys.Nodup
  own : ∀ g, s.grps.look g ≠ none ↔ 0 < owners s.vars g
  man : ∀ g G o, s.grps.look g = some G → G.obj = some o → ∃ c, s.objs o = some (G.pty, c) ∧
    (G.del = none → (G.pty = 0 ∨ virt = true) ∧ (c.isArr = true → G.pty = 0))
  inj : ∀ g g' G G' o, s.grps.look g = some G → s.grps.look g' = some G' → G.obj = some o → G'.obj = some o → g = g'
  disj : ∀ a, s.objs a ≠ none → s.grps.look a = none
  fresh : ∀ a, s.next ≤ a → s.objs a = none ∧ s.grps.look a = none
  perm : (s.log ++ s.grps.filterMap fun p => p.2.call).Perm s.made

def conc (h : Handle) : Obj := ⟨h.obj, some h.grp⟩

/-- The deleter in a group's control block. -/
def delOf (s : State V D) (G : Group D) : Del D :=
  match G.del with
  | some (k, d) => .user k d
  | none => match G.obj with
    | none => .one
    | some o => match s.objs o with
      | some (_, c) => if c.isArr then .arr else .one
      | none => .one

def memOf (s : State V D) (a : Nat) : Option (Cell V D) :=
  match s.objs a with
  | some (y, c) => some (.obj y c)
  | none => match s.grps.look a with
    | some G => some (.ctrl (owners s.vars a) G.pty G.obj (delOf s G))
    | none => none

structure Inv (virt : Bool) (st : DSt V D) (s : State V D) : Prop where
  S : SInv virt s
  ob : ∀ x, st.st.objs x = (s.vars.look x).map conc
  mem : ∀ a, st.st.mem a = memOf s a
  next : st.st.next = s.next
  thr : st.st.thr = none
  log : st.log = s.log

theorem Inv.init {virt : Bool} : Inv virt (DSt.init : DSt V D) State.empty := by
  refine ⟨⟨?_, ?_, ?_, ?_, ?_, ?_, ?_, ?_⟩, fun _ => rfl, fun _ => rfl, rfl, rfl, rfl⟩ <;>
    simp [State.empty, AL.keys, owners, AL.look]

variable {virt : Bool} {frees : Nat → Bool} {st : DSt V D} {s : State V D} {x y z g : Nat} {h : Handle} {G : Group D}

theorem lift_ok {α : Type} {m : M (St Obj (Cell V D)) α} {a : α} {t : St Obj (Cell V D)} (h : m st.st = .ok a t) :
    lift m st = .ok a { st with st := t } := by simp [lift, h]

theorem objs_grp (hI : SInv virt s) (h : s.grps.look g = some G) : s.objs g = none := by
  apply Classical.byContradiction
  intro hc
  rw [hI.disj g hc] at h
  cases h

theorem mem_ctrl (hI : Inv virt st s) (h : s.grps.look g = some G) :
    st.st.mem g = some (.ctrl (owners s.vars g) G.pty G.obj (delOf s G)) := by
  rw [hI.mem]
  simp [memOf, objs_grp hI.S h, h]

theorem mem_obj (hI : Inv virt st s) {o y : Nat} {c : Content V} (h : s.objs o = some (y, c)) :
    st.st.mem o = some (.obj y c) := by
  rw [hI.mem]; simp [memOf, h]

theorem obj_some (hI : Inv virt st s) (hx : s.vars.look x = some h) : st.st.objs x = some (conc h) := by
  simp [hI.ob, hx]
theorem obj_none (hI : Inv virt st s) (hx : s.vars.look x = none) : st.st.objs x = none := by
  simp [hI.ob, hx]

theorem grp_alive (hI : Inv virt st s) (hx : s.vars.look x = some h) : ∃ G, s.grps.look h.grp = some G := by
  have := (hI.S.own h.grp).2 (owners_pos hx)
  cases e : s.grps.look h.grp with
  | none => exact absurd e this
  | some G => exact ⟨G, rfl⟩

theorem getCtrl_ok {n : Int} {u : Nat} {m : Option Nat} {d : Del D} (h : st.st.mem g = some (.ctrl n u m d)) :
    getCtrl (some g) st = .ok (g, n, u, m, d) st := by
  have := lift_ok (st := st) (getC_some h)
  simp [getCtrl, this]

theorem run_inv {α : Type} {m : DM V D α} {a : α} {st st' : DSt V D} {P : DSt V D → Prop}
    (h1 : m st = .ok a st') (h2 : P st') : ∃ st', m st = .ok a st' ∧ P st' := ⟨st', h1, h2⟩

/-! ### Steps -/

theorem copy_step (hI : Inv virt st s) (hx : s.vars.look x = none) (hz : s.vars.look z = some h) :
    ∃ st', ctorCopy x z st = .ok () st' ∧ Inv virt st' { s with vars := (x, h) :: s.vars } := by
  obtain ⟨G, hG⟩ := grp_alive hI hz
  have hc := mem_ctrl hI hG
  have hog := objs_grp hI.S hG
  apply run_inv
  · rw [ctorCopy]
    refine (M.bind_of_ok (lift_ok (getObj_some (obj_some hI hz)))).trans ?_
    refine (M.bind_of_ok (lift_ok (newObj_none (obj_none hI hx)))).trans ?_
    refine (M.bind_of_ok (getCtrl_ok (by exact hc))).trans ?_
    exact lift_ok (setC_some (by exact hc))
  · refine ⟨⟨?_, hI.S.ndg, ?_, hI.S.man, hI.S.inj, hI.S.disj, hI.S.fresh, hI.S.perm⟩, ?_, ?_, hI.next, hI.thr, hI.log⟩
    · simp only [AL.keys, List.map_cons, List.nodup_cons]
      exact ⟨(look_none_iff _ _).1 hx, hI.S.ndv⟩
    · intro g'
      simp only [owners]
      have := hI.S.own g'
      by_cases e : h.grp = g'
      · subst e; simp [hG]
      · simp [e]; simpa using this
    · intro y'
      simp only [upd_apply, AL.look]
      by_cases e : y' = x
      · simp [e, conc]
      · simp [e, hI.ob]
    · intro a
      simp only [upd_apply]
      by_cases e : a = h.grp
      · subst e
        simp [memOf, hog, hG, owners, delOf]
      · have e' : ¬ h.grp = a := fun h => e h.symm
        simp [e, hI.mem, memOf, owners, e', delOf]

/-- A state with a new group, managing a new object. -/
def addObj (s : State V D) (x y : Nat) (c : Content V) (d : Option (Nat × D)) : State V D :=
  { s with
    vars := (x, ⟨some s.next, s.next + 1⟩) :: s.vars
    grps := (s.next + 1, ⟨some s.next, d, y⟩) :: s.grps
    objs := fun o => if o = s.next then some (y, c) else s.objs o
    next := s.next + 2
    made := (d.map fun d => (⟨d.1, d.2, some s.next⟩ : Call D)).toList ++ s.made }

theorem delOf_ext {s s' : State V D} (h : ∀ o, G.obj = some o → s'.objs o = s.objs o) : delOf s' G = delOf s G := by
  unfold delOf
  cases G.del with
  | some _ => rfl
  | none =>
    cases e : G.obj with
    | none => rfl
    | some o => simp only [h o e]

theorem owners_fresh (hI : SInv virt s) {a : Nat} (ha : s.next ≤ a) : owners s.vars a = 0 := by
  have := hI.own a
  rw [(hI.fresh a ha).2] at this
  simp at this
  exact this

theorem addObj_inv (hI : Inv virt st s) (hx : s.vars.look x = none) {c : Content V} {d : Option (Nat × D)}
    (hd : d = none → (y = 0 ∨ virt = true) ∧ (c.isArr = true → y = 0)) {dl : Del D}
    (hdl : dl = match d with | some (k, v) => .user k v | none => if c.isArr then .arr else .one) :
    Inv virt { st with st := { st.st with
        objs := upd st.st.objs x (some ⟨some st.st.next, some (st.st.next + 1)⟩)
        mem := upd (upd st.st.mem st.st.next (some (.obj y c))) (st.st.next + 1)
          (some (.ctrl 1 y (some st.st.next) dl))
        next := st.st.next + 1 + 1 } } (addObj s x y c d) := by
  have f0 := hI.S.fresh s.next (Nat.le_refl _)
  have f1 := hI.S.fresh (s.next + 1) (by omega)
  have o1 := owners_fresh hI.S (a := s.next + 1) (by omega)
  have gl : ∀ g' G', s.grps.look g' = some G' → g' ≠ s.next + 1 ∧ g' ≠ s.next := by
    intro g' G' h'
    constructor <;> intro e
    · rw [e, f1.2] at h'; cases h'
    · rw [e, f0.2] at h'; cases h'
  have gobj : ∀ g' G' o, s.grps.look g' = some G' → G'.obj = some o → o ≠ s.next := by
    intro g' G' o h' ho e
    obtain ⟨c, hc, -⟩ := hI.S.man g' G' o h' ho
    rw [e, f0.1] at hc; cases hc
  refine ⟨⟨?_, ?_, ?_, ?_, ?_, ?_, ?_, ?_⟩, ?_, ?_, ?_, hI.thr, hI.log⟩
  · simp only [addObj, AL.keys, List.map_cons, List.nodup_cons]
    exact ⟨(look_none_iff _ _).1 hx, hI.S.ndv⟩
  · simp only [addObj, AL.keys, List.map_cons, List.nodup_cons]
    exact ⟨(look_none_iff _ _).1 f1.2, hI.S.ndg⟩
  · intro g'
    simp only [addObj, AL.look, owners]
    have := hI.S.own g'
    by_cases e : g' = s.next + 1
    · subst e; simp
    · have e' : ¬ s.next + 1 = g' := fun h => e h.symm
      simp [e, e']; simpa using this
  · intro g' G' o hg' ho
    simp only [addObj, AL.look] at hg' ⊢
    split at hg'
    · cases hg'
      cases ho
      exact ⟨c, by simp, hd⟩
    · obtain ⟨c', h1, h2⟩ := hI.S.man g' G' o hg' ho
      exact ⟨c', by simp [gobj g' G' o hg' ho, h1], h2⟩
  · intro g1 g2 G1 G2 o h1 h2 e1 e2
    simp only [addObj, AL.look] at h1 h2
    split at h1 <;> split at h2
    · omega
    · cases h1; cases e1; exact absurd rfl (gobj _ _ _ h2 e2)
    · cases h2; cases e2; exact absurd rfl (gobj _ _ _ h1 e1)
    · exact hI.S.inj _ _ _ _ _ h1 h2 e1 e2
  · intro a ha
    simp only [addObj, AL.look] at ha ⊢
    split at ha
    · next e =>
      have : a ≠ s.next + 1 := by omega
      simp only [this, if_false]; rw [e]; exact f0.2
    · have h1 := hI.S.disj a ha
      have : a ≠ s.next + 1 := by intro e; rw [e, f1.1] at ha; exact ha rfl
      simp [this, h1]
  · intro a ha
    simp only [addObj, AL.look] at ha ⊢
    have e1 : a ≠ s.next := by omega
    have e2 : a ≠ s.next + 1 := by omega
    simp [e1, e2]
    exact hI.S.fresh a (by omega)
  · simp only [addObj, List.filterMap_cons, Group.call]
    cases d with
    | none => exact hI.S.perm
    | some d =>
      simp only [Option.map_some, Option.toList_some, List.singleton_append]
      exact List.perm_middle.trans (hI.S.perm.cons _)
  · intro y'
    simp only [upd_apply, AL.look, addObj]
    by_cases e : y' = x
    · simp [e, conc, hI.next]
    · simp [e, hI.ob]
  · intro a
    simp only [upd_apply, hI.next]
    by_cases e : a = s.next + 1
    · subst e
      subst hdl
      cases d with
      | none => simp [memOf, addObj, f1.1, owners, o1, AL.look, delOf]
      | some d => simp [memOf, addObj, f1.1, owners, o1, AL.look, delOf]
    · by_cases e2 : a = s.next
      · subst e2; simp [memOf, addObj]
      · have e' : ¬ s.next + 1 = a := fun h => e h.symm
        simp only [e, e2, if_false, hI.mem, memOf, addObj, AL.look, owners, e', Nat.add_zero]
        cases s.objs a with
        | some p => rfl
        | none =>
          cases hl : s.grps.look a with
          | none => rfl
          | some G' =>
            simp only []
            congr 2
            symm
            apply delOf_ext
            intro o ho
            simp [gobj a G' o hl ho]
  · simp [hI.next, addObj]

theorem makeNull_inv (hI : Inv virt st s) (hx : s.vars.look x = none) (k : Nat) (d : D) :
    Inv virt { st with st := { st.st with
        objs := upd st.st.objs x (some ⟨none, some st.st.next⟩)
        mem := upd st.st.mem st.st.next (some (.ctrl 1 y none (.user k d)))
        next := st.st.next + 1 } } { s with
        vars := (x, ⟨none, s.next⟩) :: s.vars
        grps := (s.next, ⟨none, some (k, d), y⟩) :: s.grps
        next := s.next + 1
        made := ⟨k, d, none⟩ :: s.made } := by
  have f0 := hI.S.fresh s.next (Nat.le_refl _)
  have o1 := owners_fresh hI.S (a := s.next) (by omega)
  refine ⟨⟨?_, ?_, ?_, ?_, ?_, ?_, ?_, ?_⟩, ?_, ?_, ?_, hI.thr, hI.log⟩
  · simp only [AL.keys, List.map_cons, List.nodup_cons]
    exact ⟨(look_none_iff _ _).1 hx, hI.S.ndv⟩
  · simp only [AL.keys, List.map_cons, List.nodup_cons]
    exact ⟨(look_none_iff _ _).1 f0.2, hI.S.ndg⟩
  · intro g'
    simp only [AL.look, owners]
    have := hI.S.own g'
    by_cases e : g' = s.next
    · subst e; simp
    · have e' : ¬ s.next = g' := fun h => e h.symm
      simp [e, e']; simpa using this
  · intro g' G' o hg' ho
    simp only [AL.look] at hg' ⊢
    split at hg'
    · cases hg'; cases ho
    · exact hI.S.man g' G' o hg' ho
  · intro g1 g2 G1 G2 o h1 h2 e1 e2
    simp only [AL.look] at h1 h2
    split at h1 <;> split at h2
    · omega
    · cases h1; cases e1
    · cases h2; cases e2
    · exact hI.S.inj _ _ _ _ _ h1 h2 e1 e2
  · intro a ha
    simp only [AL.look] at ha ⊢
    have h1 := hI.S.disj a ha
    have : a ≠ s.next := by intro e; rw [e, f0.1] at ha; exact ha rfl
    simp [this, h1]
  · intro a ha
    simp only [AL.look] at ha ⊢
    have e1 : a ≠ s.next := by omega
    simp [e1]
    exact hI.S.fresh a (by omega)
  · simp only [List.filterMap_cons, Group.call, Option.map_some]
    exact List.perm_middle.trans (hI.S.perm.cons _)
  · intro y'
    simp only [upd_apply, AL.look]
    by_cases e : y' = x
    · simp [e, conc, hI.next]
    · simp [e, hI.ob]
  · intro a
    simp only [upd_apply, hI.next]
    by_cases e2 : a = s.next
    · subst e2; simp [memOf, f0.1, owners, o1, AL.look, delOf]
    · have e' : ¬ s.next = a := fun h => e2 h.symm
      simp [e2, hI.mem, memOf, owners, e', AL.look, delOf]
  · simp [hI.next]

theorem set_step (hI : Inv virt st s) (hx : s.vars.look x = some h) {o y : Nat} (ho : h.obj = some o) {vs : List V}
    (hw : s.objs o = some (y, .arr vs)) {i : Int} (hi : 0 ≤ i) (hlt : i.toNat < vs.length) (v : V) :
    ∃ st', indexSet x i v st = .ok () st' ∧ Inv virt st'
      { s with objs := fun o' => if o' = o then some (y, .arr (setAt vs i.toNat v)) else s.objs o' } := by
  have hc := mem_obj hI hw
  apply run_inv
  · rw [indexSet]
    refine (M.bind_of_ok (lift_ok (getObj_some (obj_some hI hx)))).trans ?_
    simp only [conc, ho]
    refine (M.bind_of_ok deref_some).trans ?_
    refine (M.bind_of_ok (lift_ok (getC_some hc))).trans ?_
    simp only [elem, Int.not_lt.mpr hi, if_false, List.getElem?_eq_getElem hlt]
    exact lift_ok (setC_some hc)
  · have hob : ∀ a, (if a = o then some (y, Content.arr (setAt vs i.toNat v)) else s.objs a) ≠ none ↔ s.objs a ≠ none := by
      intro a
      split
      · next e => simp [e, hw]
      · rfl
    refine ⟨⟨hI.S.ndv, hI.S.ndg, hI.S.own, ?_, hI.S.inj, ?_, ?_, hI.S.perm⟩, hI.ob, ?_, hI.next, hI.thr, hI.log⟩
    · intro g G o' h1 h2
      obtain ⟨c, h3, h4⟩ := hI.S.man g G o' h1 h2
      by_cases e : o' = o
      · subst e
        rw [hw] at h3
        cases h3
        exact ⟨.arr (setAt vs i.toNat v), if_pos rfl, h4⟩
      · exact ⟨c, by simp [e, h3], h4⟩
    · intro a ha; exact hI.S.disj a ((hob a).1 ha)
    · intro a ha
      have := hI.S.fresh a ha
      have e : a ≠ o := by intro e; rw [← e, this.1] at hw; cases hw
      exact ⟨(if_neg e).trans this.1, this.2⟩
    · intro a
      simp only [upd_apply]
      by_cases e : a = o
      · simp [e, memOf, setAt_eq]
      · simp only [e, if_false, memOf, hI.mem]
        cases s.objs a with
        | some p => rfl
        | none =>
          cases hl : s.grps.look a with
          | none => rfl
          | some G' =>
            simp only []
            congr 2
            unfold delOf
            cases G'.del with
            | some _ => rfl
            | none =>
              cases e : G'.obj with
              | none => rfl
              | some o' =>
                by_cases e' : o' = o
                · subst e'; simp [hw, Content.isArr]
                · simp [e']

theorem logCall_ok (c : Call D) : logCall c st = .ok () { st with log := st.log ++ [c] } := rfl

/-- Running the deleter of a group with no owner left. -/
theorem destroy_ok (hI : Inv virt st s) (hG : s.grps.look g = some G) (cg : Option (Cell V D)) :
    ∃ f : Nat → Option (Cell V D),
      destroy frees virt G.obj (delOf s G) { st with st := { st.st with mem := upd st.st.mem g cg } } =
        .ok () ⟨{ st.st with mem := f }, st.log ++ G.call.toList⟩ ∧
      ∀ a, f a = if G.destroys frees = true ∧ G.obj = some a then none else upd st.st.mem g cg a := by
  obtain ⟨m, dl, u⟩ := G
  have key : ∀ o, m = some o → ∃ c, upd st.st.mem g cg o = some (.obj u c) ∧ s.objs o = some (u, c) ∧
      (dl = none → (u = 0 ∨ virt = true) ∧ (c.isArr = true → u = 0)) := by
    intro o ho
    obtain ⟨c, h1, h2⟩ := hI.S.man g _ o hG ho
    have hne : o ≠ g := by
      intro e; rw [e] at h1; rw [objs_grp hI.S hG] at h1; cases h1
    exact ⟨c, by simp [hne, mem_obj hI h1], h1, h2⟩
  generalize upd st.st.mem g cg = mm at key
  cases m with
  | none =>
    refine ⟨mm, ?_, by simp⟩
    cases dl with
    | none => simp [destroy, delOf, delOne, Group.call]
    | some d => obtain ⟨k, d⟩ := d; simp [destroy, delOf, callDel, Group.call, logCall_ok]
  | some o =>
    obtain ⟨c, k1, k2, k3⟩ := key o rfl
    have fr : ∀ l : List (Call D), lift (freeC o) ⟨{ st.st with mem := mm }, l⟩ =
        .ok () ⟨{ st.st with mem := upd mm o none }, l⟩ := fun l => lift_ok (freeC_some (by exact k1))
    have gt : ∀ l : List (Call D), lift (getC o) ⟨{ st.st with mem := mm }, l⟩ =
        .ok (.obj u c) ⟨{ st.st with mem := mm }, l⟩ := fun l => lift_ok (getC_some (by exact k1))
    have up : ∀ a, upd mm o none a = if (some o : Option Nat) = some a then none else mm a := by
      intro a
      simp only [upd_apply]
      by_cases e : a = o
      · simp [e]
      · have e' : ¬ o = a := fun h => e h.symm
        simp [e, e']
    cases dl with
    | none =>
      obtain ⟨q1, q2⟩ := k3 rfl
      refine ⟨upd mm o none, ?_, fun a => by rw [up]; simp [Group.destroys]⟩
      simp only [delOf, k2]
      cases c with
      | one v => simp [Content.isArr, destroy, delOne, gt, fr, Group.call, q1]
      | arr vs =>
        have := q2 rfl
        simp [Content.isArr, destroy, delArr, gt, fr, Group.call, this]
    | some d =>
      obtain ⟨k, d⟩ := d
      by_cases hf : frees k = true
      · refine ⟨upd mm o none, ?_, fun a => by rw [up]; simp [Group.destroys, hf]⟩
        simp [delOf, destroy, callDel, Group.call, hf, gt, fr, logCall_ok]
      · refine ⟨mm, ?_, fun a => by simp [Group.destroys, hf]⟩
        simp [delOf, destroy, callDel, Group.call, hf, logCall_ok]

theorem destroy_step (hI : Inv virt st s) (hx : s.vars.look x = some h) :
    ∃ st', dtor frees virt x st = .ok () st' ∧
      Inv virt st' (({ s with vars := s.vars.drop x } : State V D).collect frees h.grp) := by
  have hob := obj_some hI hx
  obtain ⟨G, hG⟩ := grp_alive hI hx
  have hc := mem_ctrl hI hG
  have hog := objs_grp hI.S hG
  have owg := owners_drop hx h.grp
  simp only [if_true] at owg
  have owne : ∀ g', g' ≠ h.grp → owners (s.vars.drop x) g' = owners s.vars g' := by
    intro g' hne
    have := owners_drop hx g'
    have e : ¬ h.grp = g' := fun h => hne h.symm
    simp [e] at this
    exact this.symm
  have hgm : ¬ G.obj = some h.grp := by
    intro e
    obtain ⟨c, h1, -⟩ := hI.S.man _ _ _ hG e
    rw [hog] at h1; cases h1
  by_cases hz : owners (s.vars.drop x) h.grp = 0
  · have hlast : ((owners s.vars h.grp : Int) - 1 = 0) := by omega
    obtain ⟨f, hf1, hf2⟩ := destroy_ok (frees := frees) hI hG (some (.ctrl (owners s.vars h.grp - 1) G.pty G.obj (delOf s G)))
    have hfg : f h.grp = some (.ctrl (owners s.vars h.grp - 1) G.pty G.obj (delOf s G)) := by
      rw [hf2]; simp [hgm]
    apply run_inv
    · rw [dtor]
      refine (M.bind_of_ok (lift_ok (getObj_some hob))).trans ?_
      simp only [conc]
      refine (M.bind_of_ok (getCtrl_ok hc)).trans ?_
      refine (M.bind_of_ok (lift_ok (setC_some hc))).trans ?_
      rw [if_pos hlast]
      refine (M.bind_of_ok hf1).trans ?_
      refine (M.bind_of_ok (lift_ok (freeC_some (by exact hfg)))).trans ?_
      exact lift_ok (delObj_some (by exact hob))
    · have hcol : ({ s with vars := s.vars.drop x } : State V D).collect frees h.grp =
          { s with
            vars := s.vars.drop x
            grps := s.grps.drop h.grp
            objs := fun o => if G.destroys frees = true ∧ G.obj = some o then none else s.objs o
            log := s.log ++ G.call.toList } := by
        simp only [State.collect, hz, if_true, hG]
      rw [hcol]
      refine ⟨⟨nodup_drop hI.S.ndv x, nodup_drop hI.S.ndg _, ?_, ?_, ?_, ?_, ?_, ?_⟩, ?_, ?_, hI.next, hI.thr, ?_⟩
      · intro g'
        simp only [look_drop hI.S.ndg]
        by_cases e : g' = h.grp
        · simp [e, hz]
        · simp only [e, if_false, owne g' e]; exact hI.S.own g'
      · intro g' G' o hg' ho
        simp only [look_drop hI.S.ndg] at hg'
        split at hg'
        · cases hg'
        · next e =>
          obtain ⟨c, h1, h2⟩ := hI.S.man g' G' o hg' ho
          refine ⟨c, ?_, h2⟩
          have : ¬ G.obj = some o := fun h' => e (hI.S.inj _ _ _ _ _ hg' hG ho h')
          simp [this, h1]
      · intro g1 g2 G1 G2 o h1 h2 e1 e2
        simp only [look_drop hI.S.ndg] at h1 h2
        split at h1 <;> split at h2
        · cases h1
        · cases h1
        · cases h2
        · exact hI.S.inj _ _ _ _ _ h1 h2 e1 e2
      · intro a ha
        simp only [look_drop hI.S.ndg] at ha ⊢
        split at ha
        · exact absurd rfl ha
        · have := hI.S.disj a ha
          split
          · rfl
          · exact this
      · intro a ha
        have := hI.S.fresh a ha
        simp [look_drop hI.S.ndg, this]
      · have p := (perm_drop hG).filterMap (fun p => p.2.call)
        simp only [List.filterMap_cons] at p
        cases hcall : G.call with
        | none =>
          rw [hcall] at p
          simp only [Option.toList_none, List.append_nil]
          exact (p.symm.append_left _).trans hI.S.perm
        | some c =>
          rw [hcall] at p
          exact perm_shuffle _ _ _ _ _ hI.S.perm p
      · intro y
        simp only [upd_apply, look_drop hI.S.ndv]
        split
        · rfl
        · exact hI.ob y
      · intro a
        simp only [upd_apply, hf2, memOf, look_drop hI.S.ndg]
        by_cases e : a = h.grp
        · subst e; simp [hgm, hog]
        · simp only [e, if_false, owne a e]
          by_cases e2 : G.destroys frees = true ∧ G.obj = some a
          · have hd : s.grps.look a = none := by
              apply hI.S.disj
              obtain ⟨c, h1, -⟩ := hI.S.man _ _ _ hG e2.2
              rw [h1]; simp
            simp [e2, hd]
          · simp only [e2, if_false]
            rw [hI.mem, memOf]
            cases s.objs a with
            | some p => rfl
            | none =>
              cases hl : s.grps.look a with
              | none => rfl
              | some G' =>
                simp only []
                congr 2
                symm
                apply delOf_ext
                intro o ho
                have : ¬ G.obj = some o := fun h' => e (hI.S.inj _ _ _ _ _ hl hG ho h')
                simp [this]
      · simp only [hI.log]
  · have hnl : ¬ ((owners s.vars h.grp : Int) - 1 = 0) := by omega
    apply run_inv
    · rw [dtor]
      refine (M.bind_of_ok (lift_ok (getObj_some hob))).trans ?_
      simp only [conc]
      refine (M.bind_of_ok (getCtrl_ok hc)).trans ?_
      refine (M.bind_of_ok (lift_ok (setC_some hc))).trans ?_
      rw [if_neg hnl]
      exact lift_ok (delObj_some (by exact hob))
    · simp only [State.collect, hz, if_false]
      refine ⟨⟨nodup_drop hI.S.ndv x, hI.S.ndg, ?_, hI.S.man, hI.S.inj, hI.S.disj, hI.S.fresh, hI.S.perm⟩,
        ?_, ?_, hI.next, hI.thr, hI.log⟩
      · intro g'
        by_cases e : g' = h.grp
        · subst e; simp only [hG]; simp; omega
        · rw [owne g' e]; exact hI.S.own g'
      · intro y
        simp only [upd_apply, look_drop hI.S.ndv]
        split
        · rfl
        · exact hI.ob y
      · intro a
        simp only [upd_apply, memOf]
        by_cases e : a = h.grp
        · subst e
          have : ((owners s.vars h.grp : Int) - 1) = ((owners (s.vars.drop x) h.grp : Nat) : Int) := by omega
          simp [hog, hG, this, delOf]
        · simp only [e, if_false, owne a e]
          exact hI.mem a

theorem step_refines {s' : State V D} {op : Op V D} {o : Out V D} (hI : Inv virt st s)
    (hs : specStep frees s op = some (s', o)) (hg : Supported virt s op) :
    ∃ st', runOp frees virt op st = .ok o st' ∧ Inv virt st' s' := by
  cases op with
  | make x y₀ c₀ =>
    have main : s.vars.look x = none → (c₀.isArr = true → y₀ = 0) →
        ∃ st', runOp frees virt (.make x y₀ c₀) st = .ok .unit st' ∧ Inv virt st' (addObj s x y₀ c₀ none) := by
      intro hx hy
      refine run_inv ?_ (addObj_inv (d := none) hI hx (fun _ => ⟨hg, hy⟩) rfl)
      have hob : st.st.objs x = none := obj_none hI hx
      simp only [runOp, ctorPtr]
      refine (M.bind_of_ok (lift_ok (allocC_none hI.thr))).trans ?_
      exact (M.bind_of_ok ((M.bind_of_ok (lift_ok (allocC_none (by exact hI.thr)))).trans
        (lift_ok (newObj_none (by exact hob))))).trans rfl
    simp only [specStep] at hs
    split at hs
    · cases hs
    · rename_i c₀ y₀ _ _ _ hx hne
      simp at hs
      obtain ⟨rfl, rfl⟩ := hs
      refine main hx ?_
      intro hc
      exact Classical.byContradiction fun hy => by
        cases c₀ with
        | one v => cases hc
        | arr vs =>
          cases y₀ with
          | zero => exact hy rfl
          | succ n => exact hne vs n rfl rfl
    · cases hs
  | makeDel x y c k d =>
    cases c with
    | none =>
      simp only [specStep] at hs
      split at hs <;> simp at hs
      obtain ⟨rfl, rfl⟩ := hs
      next hx =>
      refine run_inv ?_ (makeNull_inv hI hx k d)
      have hob : st.st.objs x = none := obj_none hI hx
      simp only [runOp, ctorDel]
      exact (M.bind_of_ok ((M.bind_of_ok (lift_ok (allocC_none (by exact hI.thr)))).trans
        (lift_ok (newObj_none (by exact hob))))).trans rfl
    | some c =>
      simp only [specStep] at hs
      split at hs <;> simp at hs
      obtain ⟨rfl, rfl⟩ := hs
      next hx =>
      refine run_inv ?_ (addObj_inv (c := c) (y := y) (d := some (k, d)) hI hx (fun h => by cases h) rfl)
      have hob : st.st.objs x = none := obj_none hI hx
      simp only [runOp, ctorDel]
      refine (M.bind_of_ok (lift_ok (allocC_none hI.thr))).trans ?_
      exact (M.bind_of_ok ((M.bind_of_ok (lift_ok (allocC_none (by exact hI.thr)))).trans
        (lift_ok (newObj_none (by exact hob))))).trans rfl
  | copy x z =>
    simp only [specStep] at hs
    split at hs <;> simp at hs
    obtain ⟨rfl, rfl⟩ := hs
    next hx hz =>
    obtain ⟨st', h1, h2⟩ := copy_step hI hx hz
    exact ⟨st', by simp [runOp, h1], h2⟩
  | destroy x =>
    simp only [specStep] at hs
    split at hs <;> simp at hs
    obtain ⟨rfl, rfl⟩ := hs
    next hx =>
    obtain ⟨st', h1, h2⟩ := destroy_step (frees := frees) hI hx
    exact ⟨st', by simp [runOp, h1], h2⟩
  | useCount x =>
    simp only [specStep] at hs
    split at hs <;> simp at hs
    obtain ⟨rfl, rfl⟩ := hs
    next h hx =>
    obtain ⟨G, hG⟩ := grp_alive hI hx
    refine ⟨st, ?_, hI⟩
    simp only [runOp, useCount]
    refine (M.bind_of_ok ((M.bind_of_ok (lift_ok (getObj_some (obj_some hI hx)))).trans ?_)).trans rfl
    exact (M.bind_of_ok (getCtrl_ok (mem_ctrl hI hG))).trans rfl
  | getDel x k =>
    simp only [specStep] at hs
    split at hs
    · cases hs
    · next h hx =>
      have run : ∀ G, s.grps.look h.grp = some G → runOp frees virt (.getDel x k) st =
          .ok (.del (match delOf s G with
            | .user k' d => if G.pty = 0 ∧ k' = k then some d else none
            | _ => none)) st := by
        intro G hG
        simp only [runOp, getDeleter]
        refine (M.bind_of_ok ((M.bind_of_ok (lift_ok (getObj_some (obj_some hI hx)))).trans
          ((M.bind_of_ok (getCtrl_ok (mem_ctrl hI hG))).trans ?_))).trans rfl
        cases delOf s G <;> rfl
      split at hs
      · next m k' d u hG =>
        simp at hs
        obtain ⟨rfl, rfl⟩ := hs
        refine ⟨st, ?_, hI⟩
        rw [run _ hG]
        simp only [delOf]
        by_cases e : k' = k
        · have := hg h _ d hx hG (by rw [e])
          simp only at this
          simp [e, this]
        · simp [e]
      · next m u hG =>
        simp at hs
        obtain ⟨rfl, rfl⟩ := hs
        refine ⟨st, ?_, hI⟩
        rw [run _ hG]
        have : ∀ k d, delOf s ⟨m, none, u⟩ ≠ .user k d := by
          intro k d
          simp only [delOf]
          split
          · simp
          · split
            · split <;> simp
            · simp
        cases e : delOf s ⟨m, none, u⟩ with
        | user k d => exact absurd e (this k d)
        | one => rfl
        | arr => rfl
      · cases hs
  | get x =>
    simp only [specStep] at hs
    split at hs
    · next o g hx =>
      split at hs <;> simp at hs
      obtain ⟨rfl, rfl⟩ := hs
      next y v hv =>
      refine ⟨st, ?_, hI⟩
      simp only [runOp, star]
      refine (M.bind_of_ok ((M.bind_of_ok (lift_ok (getObj_some (obj_some hI hx)))).trans ?_)).trans rfl
      refine (M.bind_of_ok deref_some).trans ?_
      exact (M.bind_of_ok (lift_ok (getC_some (mem_obj hI hv)))).trans rfl
    · cases hs
  | idx x i =>
    simp only [specStep] at hs
    split at hs
    · next o g hx =>
      split at hs
      · next y vs hv =>
        split at hs
        · next hi =>
          split at hs <;> simp at hs
          obtain ⟨rfl, rfl⟩ := hs
          next v hvs =>
          refine ⟨st, ?_, hI⟩
          simp only [runOp, index]
          refine (M.bind_of_ok ((M.bind_of_ok (lift_ok (getObj_some (obj_some hI hx)))).trans ?_)).trans rfl
          refine (M.bind_of_ok deref_some).trans ?_
          refine (M.bind_of_ok (lift_ok (getC_some (mem_obj hI hv)))).trans ?_
          simp only [elem, Int.not_lt.mpr hi, if_false, hvs]
          rfl
        · cases hs
      · cases hs
    · cases hs
  | idxSet x i v =>
    simp only [specStep] at hs
    split at hs
    · next o g hx =>
      split at hs
      · next y vs hv =>
        split at hs
        · next hi =>
          simp at hs
          obtain ⟨rfl, rfl⟩ := hs
          obtain ⟨st', h1, h2⟩ := set_step hI hx rfl hv hi.1 hi.2 v
          exact ⟨st', by simp [runOp, h1], h2⟩
        · cases hs
      · cases hs
    · cases hs

theorem run_refines {s' : State V D} {ops : List (Op V D)} {os : List (Out V D)} (hI : Inv virt st s)
    (hs : specRun frees s ops = some (s', os)) (hg : SupportedRun frees virt s ops) :
    ∃ st', runOps frees virt ops st = .ok os st' ∧ Inv virt st' s' := by
  induction ops generalizing st s os with
  | nil => simp [specRun] at hs; obtain ⟨rfl, rfl⟩ := hs; exact ⟨st, rfl, hI⟩
  | cons op ops ih =>
    simp only [specRun] at hs
    simp only [SupportedRun] at hg
    split at hs
    · cases hs
    · next e1 o h1 =>
      rw [h1] at hg
      split at hs
      · cases hs
      · next e2 os' h2 =>
        simp at hs
        obtain ⟨rfl, rfl⟩ := hs
        obtain ⟨st1, r1, g1⟩ := step_refines hI h1 hg.1
        obtain ⟨st2, r2, g2⟩ := ih g1 h2 hg.2
        exact ⟨st2, by simp [runOps, r1, r2], g2⟩

end Cest.Sdel
