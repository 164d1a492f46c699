import Verif.Core.World
import Verif.Uptr.Run
/-
Proofs for unique_ptr and function: every operation refines its specification.
-/
namespace Cest.Uptr
open Cest
variable {V A R : Type}

/-- A variable together with the object it owns and where that object lives. -/
inductive AV (V : Type) where
  | ptr (k : Kind) (own : Option (Nat × V))
  | val (v : V)

def AV.ids : AV V → List Nat
  | .ptr _ (some (a, _)) => [a]
  | _ => []

def AV.rep (m : Nat → Option V) (o : Obj V) : AV V → Prop
  | .ptr k none => o = .ptr k none
  | .ptr k (some (a, v)) => o = .ptr k (some a) ∧ m a = some v
  | .val v => o = .val v

def AV.cell : AV V → Cell V
  | .ptr .up own => .up (own.map (·.2))
  | .ptr .raw own => .raw (own.map (·.2))
  | .val v => .callable v

def iface (V : Type) : Iface (Obj V) V (AV V) where
  ids := AV.ids
  Rep m _ o s := AV.rep m o s
  loc := by
    intro m m' x o s h hm
    match s with
    | .ptr k none => exact h
    | .ptr k (some (a, v)) => exact ⟨h.1, by rw [hm a (by simp [AV.ids])]; exact h.2⟩
    | .val v => exact h
  alloc := by
    intro m x o s h a ha
    match s with
    | .ptr k none => simp [AV.ids] at ha
    | .ptr k (some (b, v)) =>
      simp only [AV.ids, List.mem_singleton] at ha
      subst ha
      simp [h.2]
    | .val v => simp [AV.ids] at ha

abbrev W (st : USt V) (σ : Nat → Option (AV V)) := World (iface V) st σ

@[simp] theorem ids_none (k : Kind) : (iface V).ids (.ptr k none) = [] := rfl
@[simp] theorem ids_some (k : Kind) (a : Nat) (v : V) : (iface V).ids (.ptr k (some (a, v))) = [a] := rfl
@[simp] theorem ids_val (v : V) : (iface V).ids (.val v) = [] := rfl
@[simp] theorem rep_none (m : Nat → Option V) (x : Nat) (o : Obj V) (k : Kind) :
    (iface V).Rep m x o (.ptr k none) ↔ o = .ptr k none := Iff.rfl
@[simp] theorem rep_some (m : Nat → Option V) (x : Nat) (o : Obj V) (k : Kind) (a : Nat) (v : V) :
    (iface V).Rep m x o (.ptr k (some (a, v))) ↔ (o = .ptr k (some a) ∧ m a = some v) := Iff.rfl
@[simp] theorem rep_val (m : Nat → Option V) (x : Nat) (o : Obj V) (v : V) :
    (iface V).Rep m x o (.val v) ↔ o = .val v := Iff.rfl

/-- Address part. -/
def adr (own : Option (Nat × V)) : Option Nat := own.map (·.1)
@[simp] theorem adr_none : adr (none : Option (Nat × V)) = none := rfl
@[simp] theorem adr_some (a : Nat) (v : V) : adr (some (a, v)) = some a := rfl

variable {st : USt V} {σ : Nat → Option (AV V)} {x y r : Nat} {k : Kind} {own oy : Option (Nat × V)}
  {v : V}

theorem W_obj (h : W st σ) (hx : σ x = some (.ptr k own)) : st.objs x = some (.ptr k (adr own)) := by
  obtain ⟨o, ho, hr⟩ := h.rep x _ hx
  match own, hr with
  | none, hr => rw [ho, (rep_none ..).1 hr]; rfl
  | some (a, v), hr => rw [ho, ((rep_some ..).1 hr).1]; rfl

theorem W_val (h : W st σ) (hx : σ x = some (.val v)) : st.objs x = some (.val v) := by
  obtain ⟨o, ho, hr⟩ := h.rep x _ hx
  rw [ho, (rep_val ..).1 hr]

theorem W_mem (h : W st σ) {a : Nat} (hx : σ x = some (.ptr k (some (a, v)))) : st.mem a = some v := by
  obtain ⟨o, ho, hr⟩ := h.rep x _ hx
  exact ((rep_some ..).1 hr).2

theorem W_ne (h : W st σ) {a b : Nat} {v w : V} {k k' : Kind} (hx : σ x = some (.ptr k (some (a, v))))
    (hy : σ y = some (.ptr k' (some (b, w)))) (hxy : x ≠ y) : a ≠ b := by
  intro e
  subst e
  exact hxy (h.disj x y a (by simp [hx]) (by simp [hy]))

theorem getPtr_ok {p : Option Nat} (h : st.objs x = some (.ptr k p)) : getPtr k x st = .ok p st := by
  simp [getPtr, h]
theorem setPtr_ok {p q : Option Nat} (h : st.objs x = some (.ptr k p)) :
    setPtr k x q st = .ok () { st with objs := upd st.objs x (some (.ptr k q)) } := by
  simp only [setPtr, M.bind_apply, getPtr_ok h]
  simp [h]
theorem getVal_ok (h : st.objs x = some (.val v)) : getVal x st = .ok v st := by
  simp [getVal, h]

/-- State after deleting `own`. -/
def freed (m : Nat → Option V) : Option (Nat × V) → Nat → Option V
  | none => m
  | some (a, _) => upd m a none

theorem del_ok {st : USt V} (h : ∀ a v, own = some (a, v) → ∃ w, st.mem a = some w) :
    del (adr own) st = .ok () { st with mem := freed st.mem own } := by
  match own with
  | none => rfl
  | some (a, v) =>
    obtain ⟨w, hw⟩ := h a v rfl
    simp [del, freed, hw]

theorem delIf_ok {st : USt V} (h : ∀ a v, own = some (a, v) → ∃ w, st.mem a = some w) :
    (if (adr own).isSome then del (adr own) else pure ()) st
      = .ok () { st with mem := freed st.mem own } := by
  match own with
  | none => rfl
  | some (a, v) => exact del_ok h

theorem fresh_freed (h : W st σ) {n : Nat} (hn : st.next ≤ n) : freed st.mem own n = none := by
  match own with
  | none => exact h.fresh n hn
  | some (a, v) => simp [freed, h.fresh n hn]

/-! ### World steps -/

/-- A variable comes to life (or is overwritten) owning nothing while what it owned is deleted. -/
theorem W_clear (h : W st σ) (hx : σ x = some (.ptr k own)) :
    W { st with objs := upd st.objs x (some (.ptr k none)), mem := freed st.mem own }
      (upd σ x (some (.ptr k none))) := by
  refine h.step1 x (.ptr k none) _ rfl rfl ?_ (by simp) ?_ (fun a ha => fresh_freed h ha) h.thr
  · intro a h1 _
    match own with
    | none => rfl
    | some (b, w) => simp [hx] at h1; simp [freed, h1]
  · intro a h1 _
    match own with
    | none => simp [hx] at h1
    | some (b, w) => simp [hx] at h1; simp [freed, h1]

/-- A variable that owns nothing starts to own a fresh object. -/
theorem W_fresh (h : W st σ) (hx : (iface V).oids (σ x) = []) :
    W { st with objs := upd st.objs x (some (.ptr k (some st.next))),
                mem := upd st.mem st.next (some v), next := st.next + 1 }
      (upd σ x (some (.ptr k (some (st.next, v))))) := by
  refine h.step1 x (.ptr k (some st.next)) _ rfl (by simp) ?_ ?_ ?_ ?_ h.thr
  · intro a _ h2
    simp at h2
    simp [h2]
  · intro a ha; right; simp at ha; omega
  · intro a ha; simp [hx] at ha
  · intro a ha
    have : st.next + 1 ≤ a := ha
    have h1 : a ≠ st.next := by omega
    simp [h1, h.fresh a (by omega)]

/-- A variable without object, owning nothing. -/
theorem W_null (h : W st σ) (hx : σ x = none) :
    W { st with objs := upd st.objs x (some (.ptr k none)) } (upd σ x (some (.ptr k none))) :=
  h.step1 x (.ptr k none) _ rfl rfl (fun _ _ _ => rfl) (by simp) (by simp [hx]) h.fresh h.thr

/-- A callable variable is created or changed. -/
theorem W_setVal (h : W st σ) (hx : (iface V).oids (σ x) = []) :
    W { st with objs := upd st.objs x (some (.val v)) } (upd σ x (some (.val v))) :=
  h.step1 x (.val v) _ rfl rfl (fun _ _ _ => rfl) (by simp) (by simp [hx]) h.fresh h.thr

/-- The object owned by a variable changes value. -/
theorem W_write (h : W st σ) {a : Nat} {w : V} (hx : σ x = some (.ptr k (some (a, w)))) :
    W { st with mem := upd st.mem a (some v) } (upd σ x (some (.ptr k (some (a, v))))) := by
  refine h.step1 x (.ptr k (some a)) _ ?_ (by simp) ?_ ?_ ?_ ?_ h.thr
  · have := W_obj h hx
    funext z
    simp only [upd_apply]
    split
    · next e => rw [e, this]; rfl
    · rfl
  · intro b h1 _
    simp [hx] at h1; simp [h1]
  · intro b hb; left; simp [hx] at hb ⊢; exact hb
  · intro b hb h2; simp [hx] at hb; simp [hb] at h2
  · intro b hb
    have : st.mem a = some w := W_mem h hx
    have h1 : b ≠ a := by
      intro e; subst e; rw [h.fresh b hb] at this; cases this
    simp [h1, h.fresh b hb]

/-- A variable ends; what it owned is deleted. -/
theorem W_del (h : W st σ) (hx : σ x = some (.ptr k own)) :
    W { st with objs := upd st.objs x none, mem := freed st.mem own } (upd σ x none) := by
  refine h.stepDel x rfl ?_ ?_ (fun a ha => fresh_freed h ha) h.thr
  · intro a h1
    match own with
    | none => rfl
    | some (b, w) => simp [hx] at h1; simp [freed, h1]
  · intro a h1
    match own with
    | none => simp [hx] at h1
    | some (b, w) => simp [hx] at h1; simp [freed, h1]

theorem W_delVal (h : W st σ) (hx : σ x = some (.val v)) :
    W { st with objs := upd st.objs x none } (upd σ x none) :=
  h.stepDel x rfl (fun _ _ => rfl) (by simp [hx]) h.fresh h.thr

theorem rep_own {m : Nat → Option V} (h : ∀ a v, own = some (a, v) → m a = some v) :
    (iface V).Rep m x (.ptr k (adr own)) (.ptr k own) := by
  match own with
  | none => rfl
  | some (a, v) => exact ⟨rfl, h a v rfl⟩

/-- What `y` owns goes to `x`, what `x` owns (if it exists) goes to `y`. -/
theorem W_exchange (h : W st σ) (hxy : x ≠ y) {kx ky : Kind} {ox : Option (Nat × V)}
    (hx : σ x = some (.ptr kx ox) ∨ (σ x = none ∧ ox = none)) (hy : σ y = some (.ptr ky oy)) :
    W { st with objs := upd (upd st.objs x (some (.ptr kx (adr oy)))) y (some (.ptr ky (adr ox))) }
      (upd (upd σ x (some (.ptr kx oy))) y (some (.ptr ky ox))) := by
  refine h.step2 hxy _ _ _ _ rfl rfl rfl h.thr ?_ ?_ ?_ ?_
  · exact rep_own fun a v e => W_mem h (by rw [hy, e])
  · refine rep_own fun a v e => ?_
    rcases hx with hx | hx
    · exact W_mem h (by rw [hx, e])
    · rw [hx.2] at e; cases e
  · intro a
    rcases hx with hx | ⟨hx, e⟩
    · simp only [hx, hy, Iface.oids_some]
      rcases ox with _ | ⟨b, w⟩ <;> rcases oy with _ | ⟨b', w'⟩ <;> simp [Or.comm]
    · subst e
      simp only [hx, hy, Iface.oids_some]
      rcases oy with _ | ⟨b', w'⟩ <;> simp
  · intro a ha hb
    rcases hx with hx | ⟨hx, e⟩
    · match ox, oy with
      | none, _ => simp at hb
      | some (b, w), none => simp at ha
      | some (b, w), some (b', w') =>
        simp at ha hb
        exact W_ne h hx hy hxy (by rw [← ha, ← hb])
    · subst e; simp at hb

/-! ### Functions of the model -/

theorem ctor_spec (h : W st σ) (hx : σ x = none) :
    ∃ st', ctor x st = .ok () st' ∧ W st' (upd σ x (some (.ptr .up none))) :=
  ⟨_, by rw [ctor, newObj_none (h.dom x hx)], W_null h hx⟩

theorem make_spec (h : W st σ) (hx : σ x = none) (v : V) :
    ∃ st', makeUnique x v st = .ok () st' ∧ W st' (upd σ x (some (.ptr .up (some (st.next, v))))) := by
  refine ⟨_, ?_, W_fresh h (v := v) (by simp [hx])⟩
  simp only [makeUnique, M.bind_apply, ctorPtr]
  rw [allocC_none h.thr]
  simp only []
  rw [newObj_none (by exact h.dom x hx)]

theorem release_ok (h : W st σ) (hx : σ x = some (.ptr .up own)) :
    release x st = .ok (adr own) { st with objs := upd st.objs x (some (.ptr .up none)) } := by
  have hob := W_obj h hx
  simp only [release, M.bind_apply]
  rw [getPtr_ok hob]
  simp only []
  rw [setPtr_ok hob]
  rfl

/-- `release` followed by giving the pointer to a new variable. -/
theorem releaseTo_spec (h : W st σ) (hx : σ x = none) (hy : σ y = some (.ptr .up oy)) (k : Kind) :
    ∃ st', (release y >>= fun p => newObj x (.ptr k p)) st = .ok () st' ∧
      W st' (upd (upd σ x (some (.ptr k oy))) y (some (.ptr .up none))) := by
  have hxy : x ≠ y := by intro e; subst e; rw [hx] at hy; cases hy
  refine ⟨_, ?_, W_exchange h hxy (kx := k) (ox := none) (Or.inr ⟨hx, rfl⟩) hy⟩
  simp only [M.bind_apply]
  rw [release_ok h hy]
  simp only []
  rw [newObj_none (by simp [hxy, h.dom x hx])]
  congr 2
  funext z
  simp only [upd_apply]
  by_cases h1 : z = x
  · subst h1; simp [hxy]
  · simp [h1]

theorem ctorMove_spec (h : W st σ) (hx : σ x = none) (hy : σ y = some (.ptr .up oy)) :
    ∃ st', ctorMove x y st = .ok () st' ∧
      W st' (upd (upd σ x (some (.ptr .up oy))) y (some (.ptr .up none))) :=
  releaseTo_spec h hx hy .up

theorem moveAssign_spec (h : W st σ) (hx : σ x = some (.ptr .up own)) (hy : σ y = some (.ptr .up oy)) :
    ∃ st', moveAssign x y st = .ok () st' ∧
      W st' (upd (upd σ x (some (.ptr .up oy))) y (some (.ptr .up own))) := by
  have hobx := W_obj h hx
  have hoby := W_obj h hy
  by_cases hxy : x = y
  · subst hxy
    rw [hx] at hy
    cases hy
    have e1 : upd (upd σ x (some (.ptr .up own))) x (some (.ptr .up own)) = σ := by
      rw [upd_upd, ← hx, upd_self]
    rw [e1]
    refine ⟨st, ?_, h⟩
    have e2 : upd st.objs x (some (.ptr .up (adr own))) = st.objs := by rw [← hobx, upd_self]
    simp only [moveAssign, M.bind_apply]
    rw [getPtr_ok hobx]
    simp only []
    rw [getPtr_ok hobx]
    simp only []
    rw [setPtr_ok hobx]
    simp only [e2]
    rw [setPtr_ok hobx, e2]
  · refine ⟨_, ?_, W_exchange h hxy (kx := .up) (Or.inl hx) hy⟩
    simp only [moveAssign, M.bind_apply]
    rw [getPtr_ok hoby]
    simp only []
    rw [getPtr_ok hobx]
    simp only []
    rw [setPtr_ok hoby]
    simp only []
    rw [setPtr_ok (p := adr own) (by simp [hxy, hobx])]
    congr 2
    funext z
    simp only [upd_apply]
    by_cases h1 : z = x
    · subst h1; simp [hxy]
    · simp [h1]

theorem dtor_spec (h : W st σ) (hx : σ x = some (.ptr .up own)) :
    ∃ st', dtor x st = .ok () st' ∧ W st' (upd σ x none) := by
  have hob := W_obj h hx
  refine ⟨_, ?_, W_del h hx⟩
  simp only [dtor, M.bind_apply]
  rw [getPtr_ok hob]
  simp only []
  match own with
  | none =>
    show delObj x st = _
    rw [delObj_some hob]
    rfl
  | some (a, v) =>
    show (freeC a >>= fun _ => delObj x) st = _
    simp only [M.bind_apply]
    rw [freeC_some (W_mem h hx)]
    simp only []
    rw [delObj_some (by exact hob)]
    rfl

theorem reset_spec (h : W st σ) (hx : σ x = some (.ptr .up own)) :
    ∃ st', reset x none st = .ok () st' ∧ W st' (upd σ x (some (.ptr .up none))) := by
  have hob := W_obj h hx
  refine ⟨_, ?_, W_clear h hx⟩
  simp only [reset, M.bind_apply]
  rw [getPtr_ok hob]
  simp only []
  rw [setPtr_ok hob]
  simp only []
  rw [delIf_ok (fun a v e => ⟨v, by exact W_mem h (by rw [hx, e])⟩)]

theorem resetNew_spec (h : W st σ) (hx : σ x = some (.ptr .up own)) (v : V) :
    ∃ st', (allocC v >>= fun a => reset x (some a)) st = .ok () st' ∧
      W st' (upd σ x (some (.ptr .up (some (st.next, v))))) := by
  have hob := W_obj h hx
  have h1 := W_fresh (v := v) (k := .up) (x := x) (W_clear h hx) (by simp)
  simp only [upd_upd] at h1
  refine ⟨_, ?_, h1⟩
  have hne : ∀ a v, own = some (a, v) → a ≠ st.next := by
    intro a v e h2
    have := W_mem h (x := x) (k := .up) (a := a) (v := v) (by rw [hx, e])
    rw [h2, h.fresh _ (Nat.le_refl _)] at this
    cases this
  simp only [M.bind_apply]
  rw [allocC_none h.thr]
  simp only [reset, M.bind_apply]
  rw [getPtr_ok (by exact hob)]
  simp only []
  rw [setPtr_ok (by exact hob)]
  simp only []
  rw [delIf_ok]
  · congr 2
    match own, hne with
    | none, _ => rfl
    | some (a, w), hne =>
      have := hne a w rfl
      funext z
      simp only [freed, upd_apply]
      by_cases h1 : z = a
      · subst h1; simp [this]
      · simp [h1]
  · intro a v' e
    refine ⟨v', ?_⟩
    have h2 := W_mem h (x := x) (k := .up) (a := a) (v := v') (by rw [hx, e])
    simp [hne a v' e, h2]

theorem adopt_spec (h : W st σ) (hx : σ x = none) (hr : σ r = some (.ptr .raw own)) :
    ∃ st', (getPtr .raw r >>= fun p => ctorPtr x p >>= fun _ => setPtr .raw r none) st = .ok () st' ∧
      W st' (upd (upd σ x (some (.ptr .up own))) r (some (.ptr .raw none))) := by
  have hxr : x ≠ r := by intro e; subst e; rw [hx] at hr; cases hr
  have hob := W_obj h hr
  refine ⟨_, ?_, W_exchange h hxr (kx := .up) (ox := none) (Or.inr ⟨hx, rfl⟩) hr⟩
  simp only [M.bind_apply, ctorPtr]
  rw [getPtr_ok hob]
  simp only []
  rw [newObj_none (h.dom x hx)]
  simp only []
  rw [setPtr_ok (p := adr own) (by simp [Ne.symm hxr, hob])]
  rfl

theorem resetRaw_spec (h : W st σ) (hx : σ x = some (.ptr .up own)) (hr : σ r = some (.ptr .raw oy)) :
    ∃ st', (getPtr .raw r >>= fun p => reset x p >>= fun _ => setPtr .raw r none) st = .ok () st' ∧
      W st' (upd (upd σ x (some (.ptr .up oy))) r (some (.ptr .raw none))) := by
  have hxr : x ≠ r := by intro e; subst e; rw [hx] at hr; cases hr
  have hobr := W_obj h hr
  have hobx := W_obj h hx
  have h1 := W_clear (W_exchange h hxr (kx := .up) (Or.inl hx) hr) (x := r) (own := own) (k := .raw)
    (by simp)
  simp only [upd_upd] at h1
  refine ⟨_, ?_, h1⟩
  simp only [M.bind_apply, reset]
  rw [getPtr_ok hobr]
  simp only []
  rw [getPtr_ok hobx]
  simp only []
  rw [setPtr_ok hobx]
  simp only []
  rw [delIf_ok (fun a v e => ⟨v, by exact W_mem h (by rw [hx, e])⟩)]
  simp only []
  rw [setPtr_ok (p := adr oy) (by simp [Ne.symm hxr, hobr])]

theorem deleteRaw_spec (h : W st σ) (hr : σ r = some (.ptr .raw own)) :
    ∃ st', (getPtr .raw r >>= fun p => del p >>= fun _ => setPtr .raw r none) st = .ok () st' ∧
      W st' (upd σ r (some (.ptr .raw none))) := by
  have hob := W_obj h hr
  refine ⟨_, ?_, W_clear h hr⟩
  simp only [M.bind_apply]
  rw [getPtr_ok hob]
  simp only []
  rw [del_ok (fun a v e => ⟨v, by exact W_mem h (by rw [hr, e])⟩)]
  simp only []
  rw [setPtr_ok (by exact hob)]

theorem dropRaw_spec (h : W st σ) (hr : σ r = some (.ptr .raw none)) :
    ∃ st', (getPtr .raw r >>= fun _ => delObj r) st = .ok () st' ∧ W st' (upd σ r none) := by
  have hob := W_obj h hr
  refine ⟨_, ?_, W_del h hr⟩
  simp only [M.bind_apply]
  rw [getPtr_ok hob]
  simp only []
  rw [delObj_some hob]
  rfl

theorem starSet_spec (h : W st σ) {a : Nat} {w : V} (hx : σ x = some (.ptr .up (some (a, w)))) (v : V) :
    ∃ st', starSet x v st = .ok () st' ∧ W st' (upd σ x (some (.ptr .up (some (a, v))))) := by
  have hob := W_obj h hx
  refine ⟨_, ?_, W_write h hx⟩
  simp only [starSet, M.bind_apply]
  rw [getPtr_ok hob]
  simp only [adr_some, deref_some]
  rw [setC_some (W_mem h hx)]

theorem star_spec (h : W st σ) {a : Nat} {w : V} (hx : σ x = some (.ptr .up (some (a, w)))) :
    star x st = .ok w st := by
  have hob := W_obj h hx
  simp only [star, M.bind_apply]
  rw [getPtr_ok hob]
  simp only [adr_some, deref_some]
  rw [getC_some (W_mem h hx)]

theorem toBool_spec (h : W st σ) (hx : σ x = some (.ptr .up own)) :
    toBool x st = .ok own.isSome st := by
  simp only [toBool, M.bind_apply]
  rw [getPtr_ok (W_obj h hx)]
  simp [adr]

theorem adr_eq (h : W st σ) (hx : σ x = some (.ptr .up own)) (hy : σ y = some (.ptr .up oy)) :
    (adr own == adr oy) = (x == y || (own.isNone && oy.isNone)) := by
  by_cases hxy : x = y
  · subst hxy
    rw [hx] at hy
    cases hy
    simp
  · match own, oy with
    | none, none => simp
    | none, some (b, w) => simp [hxy]
    | some (b, w), none => simp [hxy]
    | some (a, v), some (b, w) =>
      have := W_ne h hx hy hxy
      rw [beq_eq_false_iff_ne.2 hxy]
      simp [this]

theorem eq_spec (h : W st σ) (hx : σ x = some (.ptr .up own)) (hy : σ y = some (.ptr .up oy)) :
    eq x y st = .ok (x == y || (own.isNone && oy.isNone)) st := by
  simp only [eq, get, M.bind_apply]
  rw [getPtr_ok (W_obj h hx)]
  simp only []
  rw [getPtr_ok (W_obj h hy)]
  simp only [M.pure_apply]
  rw [adr_eq h hx hy]

theorem ne_spec (h : W st σ) (hx : σ x = some (.ptr .up own)) (hy : σ y = some (.ptr .up oy)) :
    ne x y st = .ok (!(x == y || (own.isNone && oy.isNone))) st := by
  simp only [ne, get, M.bind_apply]
  rw [getPtr_ok (W_obj h hx)]
  simp only []
  rw [getPtr_ok (W_obj h hy)]
  simp only [M.pure_apply, bne]
  rw [adr_eq h hx hy]

/-! ### function -/

theorem funCtor_spec (h : W st σ) (hx : σ x = none) (hc : σ y = some (.val v)) :
    ∃ st', funCtor x y st = .ok () st' ∧ W st' (upd σ x (some (.ptr .up (some (st.next, v))))) := by
  obtain ⟨st', h1, h2⟩ := make_spec h hx v
  refine ⟨st', ?_, h2⟩
  simp only [funCtor, M.bind_apply]
  rw [getVal_ok (W_val h hc)]
  exact h1

theorem funCall_spec (call : V → A → R × V) (h : W st σ) {a : Nat}
    (hx : σ x = some (.ptr .up (some (a, v)))) (arg : A) :
    ∃ st', funCall call x arg st = .ok (call v arg).1 st' ∧
      W st' (upd σ x (some (.ptr .up (some (a, (call v arg).2))))) := by
  have hob := W_obj h hx
  refine ⟨_, ?_, W_write h hx⟩
  simp only [funCall, M.bind_apply]
  rw [getPtr_ok hob]
  simp only [adr_some, deref_some]
  rw [getC_some (W_mem h hx)]
  simp only []
  rw [setC_some (W_mem h hx)]
  rfl

theorem callVal_spec (call : V → A → R × V) (h : W st σ) (hx : σ x = some (.val v)) (arg : A) :
    ∃ st', callVal call x arg st = .ok (call v arg).1 st' ∧
      W st' (upd σ x (some (.val (call v arg).2))) := by
  have hob := W_val h hx
  refine ⟨_, ?_, W_setVal h (by simp [hx])⟩
  simp only [callVal, M.bind_apply]
  rw [getVal_ok hob]
  simp only []
  rw [setObj_some hob]
  rfl

/-! ### Histories -/

/-- The environment a world stands for. -/
def envOf (σ : Nat → Option (AV V)) : Env V := fun x => (σ x).map AV.cell

theorem envOf_upd (σ : Nat → Option (AV V)) (x : Nat) (s : Option (AV V)) :
    envOf (upd σ x s) = (envOf σ).set x (s.map AV.cell) := by
  funext y; simp only [envOf, upd_apply, Env.set]; split <;> rfl

theorem env_none {e : Env V} (he : envOf σ = e) (hx : e x = none) : σ x = none := by
  subst he
  simp only [envOf] at hx
  cases h : σ x with
  | none => rfl
  | some s => simp [h] at hx

theorem env_up {e : Env V} {o : Option V} (he : envOf σ = e) (hx : e x = some (.up o)) :
    ∃ own, σ x = some (.ptr .up own) ∧ o = own.map (·.2) := by
  subst he
  simp only [envOf] at hx
  cases h : σ x with
  | none => simp [h] at hx
  | some s =>
    match s with
    | .ptr .up own => simp [h, AV.cell] at hx; exact ⟨own, rfl, hx.symm⟩
    | .ptr .raw own => simp [h, AV.cell] at hx
    | .val v => simp [h, AV.cell] at hx

theorem env_raw {e : Env V} {o : Option V} (he : envOf σ = e) (hx : e x = some (.raw o)) :
    ∃ own, σ x = some (.ptr .raw own) ∧ o = own.map (·.2) := by
  subst he
  simp only [envOf] at hx
  cases h : σ x with
  | none => simp [h] at hx
  | some s =>
    match s with
    | .ptr .raw own => simp [h, AV.cell] at hx; exact ⟨own, rfl, hx.symm⟩
    | .ptr .up own => simp [h, AV.cell] at hx
    | .val v => simp [h, AV.cell] at hx

theorem env_val {e : Env V} {v : V} (he : envOf σ = e) (hx : e x = some (.callable v)) :
    σ x = some (.val v) := by
  subst he
  simp only [envOf] at hx
  cases h : σ x with
  | none => simp [h] at hx
  | some s =>
    match s with
    | .ptr .raw own => simp [h, AV.cell] at hx
    | .ptr .up own => simp [h, AV.cell] at hx
    | .val v' => simp [h, AV.cell] at hx; rw [hx]

/-- The machine state `st` represents the environment `e`. -/
def Reps (st : USt V) (e : Env V) : Prop := ∃ σ, W st σ ∧ envOf σ = e

theorem Reps.mk' {st' : USt V} {σ' : Nat → Option (AV V)} {e' : Env V} (h : W st' σ')
    (he : envOf σ' = e') : Reps st' e' := ⟨σ', h, he⟩

theorem step_refines {e e' : Env V} {op : Op V} {o : Out V R} (h : Reps st e)
    (hs : specStep e op = some (e', o)) : ∃ st', runOp op st = .ok o st' ∧ Reps st' e' := by
  obtain ⟨σ, hW, he⟩ := h
  cases op <;> simp only [specStep] at hs <;> split at hs <;> simp at hs <;> obtain ⟨rfl, rfl⟩ := hs
  · rename_i x hx
    obtain ⟨st', h1, h2⟩ := ctor_spec hW (env_none he hx)
    exact ⟨st', by simp [runOp, h1], _, h2, by simp [envOf_upd, he, AV.cell]⟩
  · rename_i x v _ hx
    obtain ⟨st', h1, h2⟩ := make_spec hW (env_none he hx) v
    exact ⟨st', by simp [runOp, h1], _, h2, by simp [envOf_upd, he, AV.cell]⟩
  · rename_i x y _ _ o hx hy
    obtain ⟨own, hy', rfl⟩ := env_up he hy
    obtain ⟨st', h1, h2⟩ := ctorMove_spec hW (env_none he hx) hy'
    exact ⟨st', by simp [runOp, h1], _, h2, by simp [envOf_upd, he, AV.cell]⟩
  · rename_i x y _ _ ox oy hx hy
    obtain ⟨own, hx', rfl⟩ := env_up he hx
    obtain ⟨own', hy', rfl⟩ := env_up he hy
    obtain ⟨st', h1, h2⟩ := moveAssign_spec hW hx' hy'
    exact ⟨st', by simp [runOp, h1], _, h2, by simp [envOf_upd, he, AV.cell]⟩
  · rename_i x ox hx
    obtain ⟨own, hx', rfl⟩ := env_up he hx
    obtain ⟨st', h1, h2⟩ := reset_spec hW hx'
    exact ⟨st', by simp [runOp, h1], _, h2, by simp [envOf_upd, he, AV.cell]⟩
  · rename_i x v _ ox hx
    obtain ⟨own, hx', rfl⟩ := env_up he hx
    obtain ⟨st', h1, h2⟩ := resetNew_spec hW hx' v
    refine ⟨st', ?_, _, h2, by simp [envOf_upd, he, AV.cell]⟩
    simp only [runOp, M.bind_apply] at h1 ⊢
    split at h1 <;> simp_all
  · rename_i r x _ _ o hr hx
    obtain ⟨own, hx', rfl⟩ := env_up he hx
    obtain ⟨st', h1, h2⟩ := releaseTo_spec hW (env_none he hr) hx' .raw
    refine ⟨st', ?_, _, h2, by simp [envOf_upd, he, AV.cell]⟩
    simp only [runOp, M.bind_apply] at h1 ⊢
    split at h1 <;> simp_all
  · rename_i x r _ _ o hx hr
    obtain ⟨own, hr', rfl⟩ := env_raw he hr
    obtain ⟨st', h1, h2⟩ := adopt_spec hW (env_none he hx) hr'
    refine ⟨st', ?_, _, h2, by simp [envOf_upd, he, AV.cell]⟩
    simp only [runOp, M.bind_apply] at h1 ⊢
    split at h1 <;> simp_all
    split at h1 <;> simp_all
  · rename_i x r _ _ o1 o hx hr
    obtain ⟨own, hr', rfl⟩ := env_raw he hr
    obtain ⟨own', hx', rfl⟩ := env_up he hx
    obtain ⟨st', h1, h2⟩ := resetRaw_spec hW hx' hr'
    refine ⟨st', ?_, _, h2, by simp [envOf_upd, he, AV.cell]⟩
    simp only [runOp, M.bind_apply] at h1 ⊢
    split at h1 <;> simp_all
    split at h1 <;> simp_all
  · rename_i r o hr
    obtain ⟨own, hr', rfl⟩ := env_raw he hr
    obtain ⟨st', h1, h2⟩ := deleteRaw_spec hW hr'
    refine ⟨st', ?_, _, h2, by simp [envOf_upd, he, AV.cell]⟩
    simp only [runOp, M.bind_apply] at h1 ⊢
    split at h1 <;> simp_all
    split at h1 <;> simp_all
  · rename_i r hr
    obtain ⟨own, hr', e⟩ := env_raw he hr
    have : own = none := by
      match own, e with
      | none, _ => rfl
    subst this
    obtain ⟨st', h1, h2⟩ := dropRaw_spec hW hr'
    refine ⟨st', ?_, _, h2, by simp [envOf_upd, he]⟩
    simp only [runOp, M.bind_apply] at h1 ⊢
    rw [getPtr_ok (W_obj hW hr')] at h1 ⊢
    simp only [] at h1 ⊢
    rw [h1]
    rfl
  · rename_i x ox hx
    obtain ⟨own, hx', rfl⟩ := env_up he hx
    obtain ⟨st', h1, h2⟩ := dtor_spec hW hx'
    exact ⟨st', by simp [runOp, h1], _, h2, by simp [envOf_upd, he]⟩
  · rename_i x v _ w hx
    obtain ⟨own, hx', e⟩ := env_up he hx
    match own, e with
    | some (a, w), e =>
      obtain ⟨st', h1, h2⟩ := starSet_spec hW hx' v
      exact ⟨st', by simp [runOp, h1], _, h2, by simp [envOf_upd, he, AV.cell]⟩
  · rename_i x w hx
    obtain ⟨own, hx', e⟩ := env_up he hx
    match own, e with
    | some (a, w'), e =>
      have h1 := star_spec hW hx'
      simp at e
      exact ⟨st, by simp [runOp, h1, e], σ, hW, he⟩
  · rename_i x o hx
    obtain ⟨own, hx', rfl⟩ := env_up he hx
    have h1 := toBool_spec hW hx'
    exact ⟨st, by simp [runOp, h1], σ, hW, he⟩
  · rename_i x y _ _ ox oy hx hy
    obtain ⟨own, hx', rfl⟩ := env_up he hx
    obtain ⟨own', hy', rfl⟩ := env_up he hy
    have h1 := eq_spec hW hx' hy'
    exact ⟨st, by simp [runOp, h1], σ, hW, he⟩
  · rename_i x y _ _ ox oy hx hy
    obtain ⟨own, hx', rfl⟩ := env_up he hx
    obtain ⟨own', hy', rfl⟩ := env_up he hy
    have h1 := ne_spec hW hx' hy'
    exact ⟨st, by simp [runOp, h1], σ, hW, he⟩

theorem run_refines {e e' : Env V} {ops : List (Op V)} {os : List (Out V R)} (h : Reps st e)
    (hs : specRun e ops = some (e', os)) : ∃ st', runOps ops st = .ok os st' ∧ Reps st' e' := by
  induction ops generalizing st e os with
  | nil => simp [specRun] at hs; obtain ⟨rfl, rfl⟩ := hs; exact ⟨st, rfl, h⟩
  | cons op ops ih =>
    simp only [specRun] at hs
    split at hs
    · cases hs
    · next e1 o h1 =>
      split at hs
      · cases hs
      · next e2 os' h2 =>
        simp at hs
        obtain ⟨rfl, rfl⟩ := hs
        obtain ⟨st1, r1, g1⟩ := step_refines h h1
        obtain ⟨st2, r2, g2⟩ := ih g1 h2
        exact ⟨st2, by simp [runOps, r1, r2], g2⟩

theorem fstep_refines (call : V → A → R × V) {e e' : Env V} {op : FOp V A} {o : Out V R}
    (h : Reps st e) (hs : fspecStep call e op = some (e', o)) :
    ∃ st', runFOp call op st = .ok o st' ∧ Reps st' e' := by
  obtain ⟨σ, hW, he⟩ := h
  cases op <;> simp only [fspecStep] at hs <;> split at hs <;> simp at hs <;> obtain ⟨rfl, rfl⟩ := hs
  · rename_i c v _ hc
    have hn := env_none he hc
    refine ⟨_, ?_, _, W_setVal (x := c) (v := v) hW (by simp [hn]), by simp [envOf_upd, he, AV.cell]⟩
    simp only [runFOp, M.bind_apply]
    rw [newObj_none (hW.dom c hn)]
    rfl
  · rename_i c v _ hc
    have hn := env_val he hc
    refine ⟨_, ?_, _, W_delVal hW hn, by simp [envOf_upd, he]⟩
    simp only [runFOp, M.bind_apply]
    rw [getVal_ok (W_val hW hn)]
    simp only []
    rw [delObj_some (W_val hW hn)]
    rfl
  · rename_i c a _ v hc
    obtain ⟨st', h1, h2⟩ := callVal_spec call hW (env_val he hc) a
    exact ⟨st', by simp [runFOp, h1], _, h2, by simp [envOf_upd, he, AV.cell]⟩
  · rename_i x c _ _ v hx hc
    obtain ⟨st', h1, h2⟩ := funCtor_spec hW (env_none he hx) (env_val he hc)
    exact ⟨st', by simp [runFOp, h1], _, h2, by simp [envOf_upd, he, AV.cell]⟩
  · rename_i x a _ v hx
    obtain ⟨own, hx', e⟩ := env_up he hx
    match own, e with
    | some (b, w), e =>
      simp at e
      subst e
      obtain ⟨st', h1, h2⟩ := funCall_spec call hW hx' a
      exact ⟨st', by simp [runFOp, h1], _, h2, by simp [envOf_upd, he, AV.cell]⟩
  · rename_i x y _ _ o hx hy
    obtain ⟨own, hy', rfl⟩ := env_up he hy
    obtain ⟨st', h1, h2⟩ := ctorMove_spec hW (env_none he hx) hy'
    exact ⟨st', by simp [runFOp, funMove, h1], _, h2, by simp [envOf_upd, he, AV.cell]⟩
  · rename_i x y _ _ ox oy hx hy
    obtain ⟨own, hx', rfl⟩ := env_up he hx
    obtain ⟨own', hy', rfl⟩ := env_up he hy
    obtain ⟨st', h1, h2⟩ := moveAssign_spec hW hx' hy'
    exact ⟨st', by simp [runFOp, funMoveAssign, h1], _, h2, by simp [envOf_upd, he, AV.cell]⟩
  · rename_i x ox hx
    obtain ⟨own, hx', rfl⟩ := env_up he hx
    obtain ⟨st', h1, h2⟩ := dtor_spec hW hx'
    exact ⟨st', by simp [runFOp, funDtor, h1], _, h2, by simp [envOf_upd, he]⟩

theorem frun_refines (call : V → A → R × V) {e e' : Env V} {ops : List (FOp V A)}
    {os : List (Out V R)} (h : Reps st e) (hs : fspecRun call e ops = some (e', os)) :
    ∃ st', runFOps call ops st = .ok os st' ∧ Reps st' e' := by
  induction ops generalizing st e os with
  | nil => simp [fspecRun] at hs; obtain ⟨rfl, rfl⟩ := hs; exact ⟨st, rfl, h⟩
  | cons op ops ih =>
    simp only [fspecRun] at hs
    split at hs
    · cases hs
    · next e1 o h1 =>
      split at hs
      · cases hs
      · next e2 os' h2 =>
        simp at hs
        obtain ⟨rfl, rfl⟩ := hs
        obtain ⟨st1, r1, g1⟩ := fstep_refines call h h1
        obtain ⟨st2, r2, g2⟩ := ih g1 h2
        exact ⟨st2, by simp [runFOps, r1, r2], g2⟩

theorem Reps.init : Reps (St.init : USt V) Env.none := ⟨fun _ => none, World.init, rfl⟩

/-- Every allocated object is owned by exactly one variable, and that variable's cell shows its value. -/
theorem Reps.owner {e : Env V} (h : Reps st e) {a : Nat} {v : V} (ha : st.mem a = some v) :
    ∃ x k, st.objs x = some (.ptr k (some a)) ∧
      (∀ y k', st.objs y = some (.ptr k' (some a)) → y = x) ∧
      (e x = some (.up (some v)) ∨ e x = some (.raw (some v))) := by
  obtain ⟨σ, hW, rfl⟩ := h
  obtain ⟨x, hx⟩ := hW.own a (by simp [ha])
  cases hs : σ x with
  | none => simp [hs] at hx
  | some s =>
    match s with
    | .ptr k none => simp [hs] at hx
    | .val v => simp [hs] at hx
    | .ptr k (some (b, w)) =>
      simp [hs] at hx
      subst hx
      have hw := W_mem hW hs
      rw [ha] at hw
      cases hw
      refine ⟨x, k, by rw [W_obj hW hs]; rfl, ?_, ?_⟩
      · intro y k' hy
        cases hsy : σ y with
        | none => rw [hW.dom y hsy] at hy; cases hy
        | some t =>
          match t with
          | .ptr k2 oy =>
            rw [W_obj hW hsy] at hy
            match oy with
            | none => simp at hy
            | some (c, u) =>
              simp at hy
              obtain ⟨_, rfl⟩ := hy
              exact (hW.disj y x c (by simp [hsy]) (by simp [hs]))
          | .val u => rw [W_val hW hsy] at hy; simp at hy
      · cases k with
        | up => left; simp [envOf, hs, AV.cell]
        | raw => right; simp [envOf, hs, AV.cell]

end Cest.Uptr
