import Verif.Core.Arr
import Verif.Vector.Model
import Verif.Vector.Spec
/-
Representation invariant and method lemmas for cest::vector.
-/
namespace Cest.Vec
open Cest
variable {V : Type}

/-- Abstract vector value: contents, capacity, storage. -/
structure AV (V : Type) where
  xs : List V
  cap : Nat
  p : Option Nat

/-- Representation of an abstract vector. -/
def VRep (m : Nat → Option (Blk V)) (o : Obj) (s : AV V) : Prop :=
  o = ⟨s.xs.length, s.cap, s.p⟩ ∧ s.xs.length ≤ s.cap ∧
  match s.p with
  | none => s.cap = 0
  | some a => s.cap ≠ 0 ∧ m a = some (arr s.cap s.xs)

def vecI : Iface Obj (Blk V) (AV V) where
  ids s := s.p.toList
  Rep m _ o s := VRep m o s
  loc := by
    intro m m' x o s h hm
    obtain ⟨h1, h2, h3⟩ := h
    refine ⟨h1, h2, ?_⟩
    cases hp : s.p with
    | none => simpa [hp] using h3
    | some a =>
      simp [hp] at h3 hm ⊢
      exact ⟨h3.1, by rw [hm]; exact h3.2⟩
  alloc := by
    intro m x o s h a ha
    obtain ⟨h1, h2, h3⟩ := h
    cases hp : s.p with
    | none => simp [hp] at ha
    | some b =>
      simp [hp] at h3 ha
      subst ha
      simp [h3.2]

abbrev VW (st : VSt V) (σ : Nat → Option (AV V)) : Prop := World vecI st σ

@[simp] theorem vecI_ids (s : AV V) : vecI.ids s = s.p.toList := rfl
@[simp] theorem vecI_Rep (m : Nat → Option (Blk V)) (x o) (s : AV V) :
    vecI.Rep m x o s = VRep m o s := rfl

section view
variable {st : VSt V} {σ : Nat → Option (AV V)} {x : Nat} {xs : List V} {c : Nat} {p : Option Nat}

theorem W_obj (W : VW st σ) {s : AV V} (h : σ x = some s) :
    st.objs x = some ⟨s.xs.length, s.cap, s.p⟩ := by
  obtain ⟨o, ho, hr⟩ := W.rep x s h
  rw [ho, hr.1]

theorem W_len (W : VW st σ) {s : AV V} (h : σ x = some s) : s.xs.length ≤ s.cap := by
  obtain ⟨o, ho, hr⟩ := W.rep x s h
  exact hr.2.1

theorem W_null (W : VW st σ) (h : σ x = some ⟨xs, c, none⟩) : c = 0 ∧ xs = [] := by
  obtain ⟨o, ho, hr⟩ := W.rep x _ h
  obtain ⟨h1, h2, h3⟩ := hr
  simp at h2 h3
  subst h3
  exact ⟨rfl, by simpa using h2⟩

theorem W_mem (W : VW st σ) {a : Nat} (h : σ x = some ⟨xs, c, some a⟩) :
    st.mem a = some (arr c xs) ∧ c ≠ 0 := by
  obtain ⟨o, ho, hr⟩ := W.rep x _ h
  obtain ⟨h1, h2, h3⟩ := hr
  exact ⟨h3.2, h3.1⟩

theorem W_lt (W : VW st σ) {a : Nat} (h : σ x = some ⟨xs, c, some a⟩) : a < st.next :=
  W.lt_next (x := x) (by simp [h])

theorem W_ne (W : VW st σ) {y a b : Nat} {ys : List V} {d : Nat} (hxy : x ≠ y)
    (h : σ x = some ⟨xs, c, some a⟩) (h' : σ y = some ⟨ys, d, some b⟩) : a ≠ b := by
  intro hab
  subst hab
  exact hxy (W.disj x y a (by simp [h]) (by simp [h']))
end view

/-- Update of a variable that keeps its storage block and stays within it. -/
theorem W_inplace {st : VSt V} {σ : Nat → Option (AV V)} {x a c : Nat} {xs ys : List V}
    (W : VW st σ) (h : σ x = some ⟨xs, c, some a⟩) (hl : ys.length ≤ c) :
    VW { st with objs := upd st.objs x (some ⟨ys.length, c, some a⟩),
                 mem := upd st.mem a (some (arr c ys)) }
       (upd σ x (some ⟨ys, c, some a⟩)) := by
  have hm := W_mem W h
  have hlt := W_lt W h
  refine W.step1 x ⟨ys.length, c, some a⟩ ⟨ys, c, some a⟩ rfl ?_ ?_ ?_ ?_ ?_ W.thr
  · exact ⟨rfl, hl, by simp [hm.2]⟩
  · intro b h1 h2; simp at h2; simp [h2]
  · intro b hb; left; simpa [h] using hb
  · intro b h1 h2; simp [h] at h1; simp [h1] at h2
  · intro b hb; simp at hb ⊢
    rw [if_neg (by omega)]; exact W.fresh b hb

theorem ctor_spec {st : VSt V} {σ : Nat → Option (AV V)} {x : Nat} (W : VW st σ)
    (h : σ x = none) : ∃ st', ctor x st = .ok () st' ∧ VW st' (upd σ x (some ⟨[], 0, none⟩)) := by
  refine ⟨_, newObj_none (W.dom x h), ?_⟩
  refine W.step1 x ⟨0, 0, none⟩ _ rfl ⟨rfl, by simp, rfl⟩ ?_ ?_ ?_ ?_ W.thr
  · intros; rfl
  · intro a ha; simp at ha
  · intro a ha; simp [h] at ha
  · exact W.fresh

/-- Value after `reserve(n)`. -/
def AV.reserve (s : AV V) (n next : Nat) : AV V :=
  if n > s.cap then ⟨s.xs, n, some next⟩ else s

theorem reserve_spec {st : VSt V} {σ : Nat → Option (AV V)} {x n : Nat} {s : AV V} (W : VW st σ)
    (h : σ x = some s) :
    ∃ st', reserve x n st = .ok () st' ∧ VW st' (upd σ x (some (s.reserve n st.next))) := by
  obtain ⟨xs, c, p⟩ := s
  have ho := W_obj W h
  have hl := W_len W h
  simp at ho hl
  unfold reserve AV.reserve
  by_cases hn : n > c
  · simp only [M.bind_apply, getObj_some ho, hn, if_true]
    have hq := W.fresh st.next (Nat.le_refl _)
    simp only [allocArr, allocC_none W.thr]
    cases p with
    | none =>
      obtain ⟨hc, hx⟩ := W_null W h
      subst hc; subst hx
      simp only [List.length_nil, forN, M.pure_apply]
      simp [ho]
      refine W.step1 x ⟨0, n, some st.next⟩ ⟨[], n, some st.next⟩ rfl ?_ ?_ ?_ ?_ ?_ W.thr
      · refine ⟨rfl, by simp, ?_⟩; simp; constructor; omega; rfl
      · intro b h1 h2; simp at h2; simp [h2]
      · intro b hb; simp at hb; simp [hb]
      · intro b h1 h2; simp [h] at h1
      · intro b hb; simp at hb ⊢
        rw [if_neg (by omega)]; exact W.fresh b (by omega)
    | some a =>
      obtain ⟨hm, hc⟩ := W_mem W h
      have hlt := W_lt W h
      have hne : a ≠ st.next := by omega
      have hcopy := copyLoop_ok (O := Obj)
        (s := { st with mem := upd st.mem st.next (some ⟨n, fun _ => none⟩), next := st.next + 1 })
        (a := a) (q := st.next) (c := c) (n := n) (i := 0) (m := xs.length) (xs := xs) (ys := [])
        hne (by simp [hne, hm]) hl (by simp; rfl) rfl (by omega) (by omega) W.thr
      simp only [hcopy]
      have hc' : (0 ≠ c) := Ne.symm hc
      simp only [M.bind_apply, hc', if_true, ne_eq, not_false_eq_true, List.nil_append, List.drop_zero,
        List.take_length, upd_upd]
      rw [destroyN_ok (b := arr c xs) (by simp [hne, hm]) (by simpa using hl)
        (by intro j _ hj; simp at hj ⊢; exact hj)]
      simp only [arr_hole c xs 0 xs.length (by omega), List.take_zero]
      rw [freeArr_ok (b := arr c []) (by simp) (by simp) (by simp)]
      simp only []
      rw [setObj_some (by exact ho)]
      refine ⟨_, rfl, ?_⟩
      refine W.step1 x ⟨xs.length, n, some st.next⟩ ⟨xs, n, some st.next⟩ rfl ?_ ?_ ?_ ?_ ?_ W.thr
      · refine ⟨rfl, ?_, ?_⟩
        · show xs.length ≤ n
          omega
        · simp [Ne.symm hne]; omega
      · intro b h1 h2
        simp [h] at h1 h2
        have e1 : b ≠ a := fun e => h1 (by simp [e])
        simp [h2, e1]
      · intro b hb; simp at hb; simp [hb]
      · intro b h1 h2; simp [h] at h1; subst h1; simp
      · intro b hb; simp at hb ⊢
        intro hb1
        have e2 : b ≠ a := by omega
        have e3 : b ≠ st.next := by omega
        simp [e2, e3]; exact W.fresh b (by omega)
  · simp only [M.bind_apply, getObj_some ho, hn, if_false, M.pure_apply]
    refine ⟨st, rfl, ?_⟩
    rw [upd_eq_self h]; exact W

theorem clear_spec {st : VSt V} {σ : Nat → Option (AV V)} {x : Nat} {s : AV V} (W : VW st σ)
    (h : σ x = some s) :
    ∃ st', clear x st = .ok () st' ∧ VW st' (upd σ x (some ⟨[], s.cap, s.p⟩)) := by
  obtain ⟨xs, c, p⟩ := s
  have ho := W_obj W h
  have hl := W_len W h
  simp at ho hl
  unfold clear
  simp only [M.bind_apply, getObj_some ho]
  cases p with
  | none =>
    obtain ⟨hc, hx⟩ := W_null W h
    subst hc; subst hx
    simp only [List.length_nil, destroyN_null]
    rw [setObj_some ho]
    refine ⟨_, rfl, ?_⟩
    rw [upd_eq_self h]
    have : { st with objs := upd st.objs x (some ⟨0, 0, none⟩) } = st := by
      cases st; simp; exact upd_eq_self ho
    simp only [this]
    exact W
  | some a =>
    obtain ⟨hm, hc⟩ := W_mem W h
    rw [destroyN_ok hm (by simpa using hl) (by intro j _ hj; simp at hj ⊢; exact hj)]
    simp only [arr_hole c xs 0 xs.length (by omega), List.take_zero]
    rw [setObj_some (by exact ho)]
    exact ⟨_, rfl, W_inplace W h (ys := []) (by simp)⟩

theorem dtor_spec {st : VSt V} {σ : Nat → Option (AV V)} {x : Nat} {s : AV V} (W : VW st σ)
    (h : σ x = some s) :
    ∃ st', dtor x st = .ok () st' ∧ VW st' (upd σ x none) := by
  obtain ⟨xs, c, p⟩ := s
  obtain ⟨st1, h1, W1⟩ := clear_spec W h
  unfold dtor
  simp only [M.bind_apply, h1]
  have hx1 : (upd σ x (some ⟨[], c, p⟩)) x = some ⟨[], c, p⟩ := upd_same _ _ _
  have ho := W_obj W1 hx1
  simp only [getObj_some ho]
  rw [← upd_upd σ x (some ⟨[], c, p⟩) none]
  cases p with
  | none =>
    obtain ⟨hc, hx⟩ := W_null W1 hx1
    subst hc
    simp only [ne_eq, not_true, if_false]
    rw [delObj_some ho]
    refine ⟨_, rfl, W1.stepDel x rfl ?_ ?_ ?_ W1.thr⟩
    · intros; rfl
    · intro a ha; simp at ha
    · exact W1.fresh
  | some a =>
    obtain ⟨hm, hc⟩ := W_mem W1 hx1
    have hc' : 0 ≠ c := Ne.symm hc
    simp only [hc', if_true, ne_eq, not_false_eq_true]
    simp only [M.bind_apply]
    rw [freeArr_ok hm (by simp) (by simp)]
    simp only []
    rw [delObj_some (by exact ho)]
    refine ⟨_, rfl, W1.stepDel x rfl ?_ ?_ ?_ W1.thr⟩
    · intro b hb; simp at hb; simp [hb]
    · intro b hb; simp at hb; simp [hb]
    · intro b hb; simp at hb ⊢; intro _; exact W1.fresh b hb

/-- Value after `push_back(v)`. -/
def AV.push (s : AV V) (v : V) (next : Nat) : AV V :=
  ⟨s.xs ++ [v],
   if s.cap = 0 then 1 else if s.cap = s.xs.length then s.cap * 2 else s.cap,
   if s.xs.length < s.cap then s.p else some next⟩

/-- The growth step of `push_back`: afterwards there is room for one more element. -/
theorem grow_spec {st : VSt V} {σ : Nat → Option (AV V)} {x : Nat} {s : AV V} (v : V)
    (W : VW st σ) (h : σ x = some s) :
    ∃ st1 c a, grow x st = .ok () st1 ∧
      VW st1 (upd σ x (some ⟨s.xs, c, some a⟩)) ∧ s.xs.length < c ∧
      (s.xs.length < s.cap → some a = s.p) ∧
      s.push v st.next = ⟨s.xs ++ [v], c, some a⟩ := by
  have hl := W_len W h
  have ho := W_obj W h
  unfold grow
  simp only [M.bind_apply, getObj_some ho]
  by_cases h0 : 0 = s.cap
  · have h0' : s.xs.length = 0 := by omega
    obtain ⟨st1, h1, W1⟩ := reserve_spec (n := 1) W h
    refine ⟨st1, 1, st.next, by simp [h0, h1], ?_, by omega, by omega, ?_⟩
    · simpa [AV.reserve, ← h0] using W1
    · simp [AV.push, ← h0]
  · by_cases h1 : s.cap = s.xs.length
    · obtain ⟨st1, h2, W1⟩ := reserve_spec (n := s.cap * 2) W h
      refine ⟨st1, s.cap * 2, st.next, by rw [if_neg h0, if_pos h1]; exact h2,
        ?_, by omega, by omega, ?_⟩
      · have : s.cap * 2 > s.cap := by omega
        simpa [AV.reserve, this] using W1
      · have : ¬ s.cap = 0 := by omega
        simp only [AV.push, if_neg this, if_pos h1]
        rw [if_neg (by omega)]
    · obtain ⟨xs, c, p⟩ := s
      cases p with
      | none => have := W_null W h; simp at h0; omega
      | some a =>
        refine ⟨st, c, a, by rw [if_neg h0, if_neg h1]; rfl, ?_, ?_, ?_, ?_⟩
        · rw [upd_eq_self h]; exact W
        · simp at hl h1 ⊢; omega
        · simp
        · simp at h0 h1 hl
          simp [AV.push, h1, Ne.symm h0]; omega

theorem pushBack_spec {st : VSt V} {σ : Nat → Option (AV V)} {x : Nat} {s : AV V} {r : Ref V} {v : V}
    (W : VW st σ) (h : σ x = some s)
    (hr : ∀ (st' : VSt V) c' p', VW st' (upd σ x (some ⟨s.xs, c', p'⟩)) →
      (s.xs.length < s.cap → p' = s.p) →
      ∀ objs', r.read { st' with objs := objs' } = .ok v { st' with objs := objs' }) :
    ∃ st', pushBack x r st = .ok () st' ∧ VW st' (upd σ x (some (s.push v st.next))) := by
  obtain ⟨st1, c, a, hk, W1, hlen, hp, hpush⟩ := grow_spec v W h
  unfold pushBack
  have hx1 : (upd σ x (some ⟨s.xs, c, some a⟩)) x = some ⟨s.xs, c, some a⟩ := upd_same _ _ _
  have ho1 := W_obj W1 hx1
  obtain ⟨hm, hc⟩ := W_mem W1 hx1
  rw [hpush, ← upd_upd σ x (some ⟨s.xs, c, some a⟩)]
  simp only [M.bind_apply, hk, getObj_some ho1]
  rw [setObj_some ho1]
  simp only []
  rw [hr st1 c (some a) W1 hp]
  simp only []
  rw [constructAt_arr (by exact hm) rfl hlen (by exact W1.thr)]
  refine ⟨_, rfl, ?_⟩
  have := W_inplace W1 hx1 (ys := s.xs ++ [v]) (by simp; omega)
  simpa using this

theorem St_objs_self {O C : Type} {s : St O C} {x : Nat} {o : Option O} (h : s.objs x = o) :
    { s with objs := upd s.objs x o } = s := by
  cases s; simp at h ⊢; exact upd_eq_self h

theorem swap_spec {st : VSt V} {σ : Nat → Option (AV V)} {x y : Nat} {sx sy : AV V} (W : VW st σ)
    (hx : σ x = some sx) (hy : σ y = some sy) :
    ∃ st', swap x y st = .ok () st' ∧ VW st' (upd (upd σ x (some sy)) y (some sx)) := by
  have hox := W_obj W hx
  have hoy := W_obj W hy
  by_cases hxy : x = y
  · subst hxy
    rw [hx] at hy; cases hy
    refine ⟨st, ?_, ?_⟩
    · unfold swap
      simp only [M.bind_apply, getObj_some hox, setObj_some hox, St_objs_self hox]
    · rw [upd_upd, upd_eq_self hx]; exact W
  · have hyx : y ≠ x := Ne.symm hxy
    refine ⟨{ st with objs := (upd (upd st.objs x (some ⟨sy.xs.length, sy.cap, sy.p⟩)) y
        (some ⟨sx.xs.length, sx.cap, sx.p⟩)) }, ?_, ?_⟩
    · simp [swap, getObj, setObj, hox, hoy, hxy, hyx]
      funext z
      simp only [upd_apply]
      split <;> simp_all
    · obtain ⟨ox, h1, hrx⟩ := W.rep x sx hx
      obtain ⟨oy, h2, hry⟩ := W.rep y sy hy
      rw [hox] at h1; cases h1
      rw [hoy] at h2; cases h2
      refine W.step2 hxy _ _ sy sx rfl rfl rfl W.thr hry hrx ?_ ?_
      · intro a; simp [hx, hy]; exact Or.comm
      · intro a h1 h2
        exact hxy (W.disj x y a (by simpa [hx] using h2) (by simpa [hy] using h1))

theorem moveCtor_spec {st : VSt V} {σ : Nat → Option (AV V)} {x y : Nat} {sy : AV V} (W : VW st σ)
    (hx : σ x = none) (hy : σ y = some sy) :
    ∃ st', moveCtor x y st = .ok () st' ∧
      VW st' (upd (upd σ x (some sy)) y (some ⟨[], 0, none⟩)) := by
  obtain ⟨st1, h1, W1⟩ := ctor_spec W hx
  have hyx : y ≠ x := by intro h; subst h; simp [hx] at hy
  obtain ⟨st2, h2, W2⟩ := swap_spec (x := x) (y := y) (sx := ⟨[], 0, none⟩) (sy := sy) W1
    (by simp) (by simp [hyx, hy])
  refine ⟨st2, by simp [moveCtor, h1, h2], ?_⟩
  rwa [upd_upd] at W2

theorem copyCtor_spec {st : VSt V} {σ : Nat → Option (AV V)} {x y : Nat} {sy : AV V} (W : VW st σ)
    (hx : σ x = none) (hy : σ y = some sy) :
    ∃ st', copyCtor x y st = .ok () st' ∧
      VW st' (upd σ x (some ⟨sy.xs, sy.cap, if sy.cap = 0 then none else some st.next⟩)) := by
  obtain ⟨st1, h1, W1⟩ := ctor_spec W hx
  have hyx : y ≠ x := by intro h; subst h; simp [hx] at hy
  have hst1 : st1.next = st.next := by
    have := newObj_none (o' := (⟨0, 0, none⟩ : Obj)) (W.dom x hx)
    unfold ctor at h1; rw [this] at h1; cases h1; rfl
  have hy1 : (upd σ x (some (⟨[], 0, none⟩ : AV V))) y = some sy := by simp [hyx, hy]
  have hoy1 := W_obj W1 hy1
  obtain ⟨st2, h2, W2⟩ := reserve_spec (x := x) (n := sy.cap) (s := ⟨[], 0, none⟩) W1 (by simp)
  rw [upd_upd] at W2
  have hx2 : (upd σ x (some ((⟨[], 0, none⟩ : AV V).reserve sy.cap st1.next))) x =
    some ((⟨[], 0, none⟩ : AV V).reserve sy.cap st1.next) := upd_same _ _ _
  have hy2 : (upd σ x (some ((⟨[], 0, none⟩ : AV V).reserve sy.cap st1.next))) y = some sy := by
    simp [hyx, hy]
  have hox2 := W_obj W2 hx2
  have hoy2 := W_obj W2 hy2
  unfold copyCtor
  simp only [M.bind_apply, h1]
  obtain ⟨ys, c, p⟩ := sy
  have hl := W_len W hy
  simp only [] at hl
  suffices hs : ∃ st', (do
      let oy ← getObj y
      reserve x oy.cap
      let oy ← getObj y
      let o ← getObj x
      setObj x { o with size := oy.size }
      let o ← getObj x
      forN (fun i => do
        let v ← load oy.p i
        constructAt o.p i v) 0 o.size : VM V Unit) st1 = .ok () st' ∧
      VW st' (upd σ x (some ⟨ys, c, if c = 0 then none else some st.next⟩)) by
    obtain ⟨st', h', W'⟩ := hs
    exact ⟨st', M.onThrow_of_ok h', W'⟩
  simp only [M.bind_apply, getObj_some hoy1, h2, getObj_some hoy2, getObj_some hox2,
    setObj_some hox2]
  rw [getObj_some (by exact upd_same _ _ _)]
  simp only []
  cases p with
  | none =>
    obtain ⟨hc, hys⟩ := W_null W hy
    subst hc; subst hys
    simp only [AV.reserve] at hox2 W2 ⊢
    simp at hox2 W2 ⊢
    simp only [forN, M.pure_apply]
    refine ⟨_, rfl, ?_⟩
    have := St_objs_self hox2
    simp only [this]
    exact W2
  | some b =>
    obtain ⟨hmy, hc⟩ := W_mem W2 hy2
    have hc' : 0 < c := by omega
    simp only [AV.reserve, hc', if_true] at hx2 hy2 hox2 W2 ⊢
    obtain ⟨hmx, _⟩ := W_mem W2 hx2
    have hbn : b ≠ st1.next := W_ne W2 hyx hy2 hx2
    rw [copyLoop_ok (i := 0) (c := c) (n := c) (xs := ys) (ys := []) hbn (by simpa using hmy) hl
      (by simpa using hmx) rfl (by simp) (by simpa using hl) (by exact W2.thr)]
    refine ⟨_, rfl, ?_⟩
    have := W_inplace W2 hx2 (ys := ys) hl
    simp only [upd_upd] at this
    simpa [hc, hst1] using this

theorem ctorN_spec' [Inhabited V] {st : VSt V} {σ : Nat → Option (AV V)} {x n : Nat} (W : VW st σ)
    (hx : σ x = none) :
    ∃ st' s', ctorN x n st = .ok () st' ∧ VW st' (upd σ x (some s')) ∧
      s'.xs = List.replicate n default ∧ s'.cap = n := by
  obtain ⟨st1, h1, W1⟩ := ctor_spec W hx
  obtain ⟨st2, h2, W2⟩ := reserve_spec (x := x) (n := n) (s := ⟨[], 0, none⟩) W1 (by simp)
  rw [upd_upd] at W2
  have hx2 : (upd σ x (some ((⟨[], 0, none⟩ : AV V).reserve n st1.next))) x =
    some ((⟨[], 0, none⟩ : AV V).reserve n st1.next) := upd_same _ _ _
  have hox2 := W_obj W2 hx2
  unfold ctorN
  simp only [M.bind_apply, h1]
  suffices hs : ∃ st' s', (do
      reserve x n
      let o ← getObj x
      setObj x { o with size := n }
      let o ← getObj x
      forN (fun i => constructAt o.p i default) 0 o.size : VM V Unit) st1 = .ok () st' ∧
      VW st' (upd σ x (some s')) ∧ s'.xs = List.replicate n default ∧ s'.cap = n by
    obtain ⟨st', s', h', W'⟩ := hs
    exact ⟨st', s', M.onThrow_of_ok h', W'⟩
  simp only [M.bind_apply, h2, getObj_some hox2, setObj_some hox2]
  rw [getObj_some (by exact upd_same _ _ _)]
  simp only []
  by_cases hn : n = 0
  · subst hn
    simp only [AV.reserve] at hox2 W2 ⊢
    simp at hox2 W2 ⊢
    simp only [forN, M.pure_apply]
    refine ⟨_, rfl, ⟨[], 0, none⟩, ?_, rfl, rfl⟩
    have := St_objs_self hox2
    simp only [this]
    exact W2
  · have hn' : 0 < n := by omega
    simp only [AV.reserve, hn', if_true] at hx2 hox2 W2 ⊢
    obtain ⟨hmx, _⟩ := W_mem W2 hx2
    rw [fillLoop_ok (i := 0) (n := n) (ys := []) (by exact hmx) rfl (by omega) (by exact W2.thr)]
    refine ⟨_, ⟨List.replicate n default, n, some st1.next⟩, rfl, ?_, rfl, rfl⟩
    have := W_inplace W2 hx2 (ys := List.replicate n default) (by simp)
    simp only [upd_upd] at this
    simpa using this

theorem ctorN_spec [Inhabited V] {st : VSt V} {σ : Nat → Option (AV V)} {x n : Nat} (W : VW st σ)
    (hx : σ x = none) :
    ∃ st' s', ctorN x n st = .ok () st' ∧ VW st' (upd σ x (some s')) ∧
      s'.xs = List.replicate n default := by
  obtain ⟨st', s', h1, h2, h3, _⟩ := ctorN_spec' W hx
  exact ⟨st', s', h1, h2, h3⟩

theorem pushBack_ext {st : VSt V} {σ : Nat → Option (AV V)} {x : Nat} {s : AV V} {v : V}
    (W : VW st σ) (h : σ x = some s) :
    ∃ st', pushBack x (.ext v) st = .ok () st' ∧ VW st' (upd σ x (some (s.push v st.next))) :=
  pushBack_spec W h (fun _ _ _ _ _ _ => rfl)

theorem pushAll_spec {vs : List V} {st : VSt V} {σ : Nat → Option (AV V)} {x : Nat} {s : AV V}
    (W : VW st σ) (h : σ x = some s) :
    ∃ st' s', pushAll x vs st = .ok () st' ∧ VW st' (upd σ x (some s')) ∧ s'.xs = s.xs ++ vs := by
  induction vs generalizing st σ s with
  | nil => exact ⟨st, s, rfl, by rw [upd_eq_self h]; exact W, by simp⟩
  | cons v vs ih =>
    obtain ⟨st1, h1, W1⟩ := pushBack_ext (v := v) W h
    obtain ⟨st2, s2, h2, W2, hs2⟩ := ih W1 (upd_same _ _ _)
    refine ⟨st2, s2, by simp [pushAll, h1, h2], by rwa [upd_upd] at W2, ?_⟩
    rw [hs2]; simp [AV.push]

theorem ctorList_spec {vs : List V} {st : VSt V} {σ : Nat → Option (AV V)} {x : Nat}
    (W : VW st σ) (h : σ x = none) :
    ∃ st' s', ctorList x vs st = .ok () st' ∧ VW st' (upd σ x (some s')) ∧ s'.xs = vs := by
  obtain ⟨st1, h1, W1⟩ := ctor_spec W h
  obtain ⟨st2, s2, h2, W2, hs2⟩ := pushAll_spec (vs := vs) W1 (upd_same _ _ _)
  refine ⟨st2, s2, ?_, by rwa [upd_upd] at W2, by simpa using hs2⟩
  unfold ctorList
  simp only [M.bind_apply, h1]
  rw [M.onThrow_of_ok h2]

theorem popBack_spec {st : VSt V} {σ : Nat → Option (AV V)} {x : Nat} {s : AV V} (W : VW st σ)
    (h : σ x = some s) (hne : s.xs ≠ []) :
    ∃ st', popBack x st = .ok () st' ∧ VW st' (upd σ x (some ⟨s.xs.dropLast, s.cap, s.p⟩)) := by
  obtain ⟨xs, c, p⟩ := s
  have ho := W_obj W h
  have hl := W_len W h
  simp at ho hl hne
  have hpos : 0 < xs.length := List.length_pos_iff.mpr hne
  cases p with
  | none => exact absurd (W_null W h).2 hne
  | some a =>
    obtain ⟨hm, hc⟩ := W_mem W h
    unfold popBack
    simp only [M.bind_apply, getObj_some ho]
    rw [if_neg (by omega)]
    simp only [M.bind_apply]
    rw [setObj_some ho]
    simp only []
    rw [destroyN_ok (b := arr c xs) (by exact hm) (by simp; omega)
      (by intro j h1 h2; simp; omega)]
    rw [arr_hole c xs (xs.length - 1) 1 (by omega), ← List.dropLast_eq_take]
    refine ⟨_, rfl, ?_⟩
    have := W_inplace W h (ys := xs.dropLast) (by simp; omega)
    simpa using this

theorem resize_spec [Inhabited V] {st : VSt V} {σ : Nat → Option (AV V)} {x n : Nat} {s : AV V}
    (W : VW st σ) (h : σ x = some s) :
    ∃ st' s', resize x n st = .ok () st' ∧ VW st' (upd σ x (some s')) ∧
      s'.xs = s.xs.take n ++ List.replicate (n - s.xs.length) default ∧
      s'.cap = max s.cap n ∧ (n ≤ s.cap → s'.p = s.p) := by
  obtain ⟨xs, c, p⟩ := s
  have ho := W_obj W h
  have hl := W_len W h
  simp only [] at ho hl ⊢
  unfold resize
  simp only [M.bind_apply, getObj_some ho]
  by_cases hn : n > xs.length
  · rw [if_pos hn]
    obtain ⟨st1, h1, W1⟩ := reserve_spec (n := n) W h
    have hx1 : (upd σ x (some ((⟨xs, c, p⟩ : AV V).reserve n st.next))) x =
      some ((⟨xs, c, p⟩ : AV V).reserve n st.next) := upd_same _ _ _
    have ho1 := W_obj W1 hx1
    simp only [M.bind_apply, h1, getObj_some ho1]
    obtain ⟨c1, a1, hs1, hc1, hp1, hcm⟩ : ∃ c1 a1, (⟨xs, c, p⟩ : AV V).reserve n st.next = ⟨xs, c1, some a1⟩ ∧
        n ≤ c1 ∧ (n ≤ c → some a1 = p) ∧ c1 = max c n := by
      unfold AV.reserve
      by_cases hnc : n > c
      · exact ⟨n, st.next, by simp [hnc], Nat.le_refl _, by omega, by omega⟩
      · cases p with
        | none => have := W_null W h; simp_all
        | some a => exact ⟨c, a, by simp [hnc], by omega, by simp, by omega⟩
    rw [hs1] at ho1 hx1 W1 ⊢
    simp only at ho1 ⊢
    obtain ⟨hm1, _⟩ := W_mem W1 hx1
    rw [fillLoop_ok hm1 rfl (by omega) W1.thr]
    simp only []
    rw [getObj_some (by exact ho1)]
    simp only []
    rw [setObj_some (by exact ho1)]
    refine ⟨_, ⟨xs ++ List.replicate (n - xs.length) default, c1, some a1⟩, rfl, ?_, ?_, hcm, ?_⟩
    · have := W_inplace W1 hx1 (ys := xs ++ List.replicate (n - xs.length) default)
        (by simp; omega)
      simp only [upd_upd] at this
      have e : (xs ++ List.replicate (n - xs.length) (default : V)).length = n := by simp; omega
      rw [e] at this
      exact this
    · simp only []; rw [List.take_of_length_le (by omega)]
    · intro hh; exact hp1 hh
  · rw [if_neg hn]
    by_cases hn2 : n < xs.length
    · rw [if_pos hn2]
      cases p with
      | none => have := (W_null W h).2; simp [this] at hn2
      | some a =>
        obtain ⟨hm, hc⟩ := W_mem W h
        simp only [M.bind_apply]
        rw [destroyN_ok (b := arr c xs) (by exact hm) (by simp; omega)
          (by intro j h1 h2; simp; omega)]
        rw [arr_hole c xs n (xs.length - n) (by omega)]
        simp only []
        rw [getObj_some (by exact ho)]
        simp only []
        rw [setObj_some (by exact ho)]
        refine ⟨_, ⟨xs.take n, c, some a⟩, rfl, ?_, ?_, by show c = max c n; omega, fun _ => rfl⟩
        · have := W_inplace W h (ys := xs.take n) (by simp; omega)
          have e : (xs.take n).length = n := by simp; omega
          rw [e] at this
          exact this
        · have : n - xs.length = 0 := by omega
          simp [this]
    · rw [if_neg hn2]
      have hn3 : n = xs.length := by omega
      subst hn3
      simp only [M.bind_apply, getObj_some ho]
      rw [setObj_some ho]
      refine ⟨_, ⟨xs, c, p⟩, rfl, ?_, by simp, by show c = max c _; omega, fun _ => rfl⟩
      rw [upd_eq_self h]
      have := St_objs_self ho
      simp only [this]; exact W

theorem set_spec {st : VSt V} {σ : Nat → Option (AV V)} {x i : Nat} {s : AV V} {v : V}
    (W : VW st σ) (h : σ x = some s) (hi : i < s.xs.length) :
    ∃ st', set x i v st = .ok () st' ∧ VW st' (upd σ x (some ⟨s.xs.set i v, s.cap, s.p⟩)) := by
  obtain ⟨xs, c, p⟩ := s
  have ho := W_obj W h
  have hl := W_len W h
  simp only [] at ho hl hi ⊢
  cases p with
  | none => have := (W_null W h).2; simp [this] at hi
  | some a =>
    obtain ⟨hm, hc⟩ := W_mem W h
    unfold set
    simp only [M.bind_apply, getObj_some ho]
    rw [store_arr hm hi hl W.thr]
    refine ⟨_, rfl, ?_⟩
    have := W_inplace W h (ys := xs.set i v) (by simpa using hl)
    simp only [List.length_set] at this
    have e := upd_eq_self ho
    rwa [e] at this

/-- The shifting loop of `erase`. -/
theorem eraseLoop_ok {O : Type} {s : St O (Blk V)} {a n i j k m : Nat} {xs : List V}
    (hij : i ≤ j) (hn : xs.length ≤ n) (hm : j + (k + m) = xs.length) (ht : s.thr = none)
    {zs : List V} (hz : s.mem a = some (arr n zs)) (hzl : zs.length = xs.length)
    (hz1 : ∀ l, l < i → zs[l]? = xs[l]?) (hz2 : ∀ l, l < k → zs[i+l]? = xs[j+l]?)
    (hz3 : ∀ l, i + k ≤ l → zs[l]? = xs[l]?) :
    ∃ zs', forN (fun k => do let v ← load (some a) (j + k); store (some a) (i + k) v) k m s =
      .ok () { s with mem := upd s.mem a (some (arr n zs')) } ∧ zs'.length = xs.length ∧
      (∀ l, l < i → zs'[l]? = xs[l]?) ∧ (∀ l, l < k + m → zs'[i+l]? = xs[j+l]?) := by
  induction m generalizing k s zs with
  | zero =>
    refine ⟨zs, ?_, hzl, hz1, by simpa using hz2⟩
    simp only [forN, M.pure_apply]; rw [St.mem_self hz]
  | succ m ih =>
    unfold forN
    have hv : zs[j+k]? = some xs[j+k] := by rw [hz3 _ (by omega)]; simp
    have h1 := load_arr hz (by omega) hv
    have h2 := store_arr (i := i+k) (v := xs[j+k]) hz (by omega) (by omega) ht
    simp only [M.bind_apply, h1, h2]
    obtain ⟨zs', h3, h4, h5, h6⟩ := ih (k := k+1)
      (s := { s with mem := upd s.mem a (some (arr n (zs.set (i+k) xs[j+k]))) })
      (zs := zs.set (i+k) xs[j+k]) (by omega) ht (by simp) (by simpa using hzl)
      (by intro l hl; rw [List.getElem?_set_ne (by omega)]; exact hz1 l hl)
      (by
        intro l hl
        by_cases hlk : l = k
        · subst hlk; rw [List.getElem?_set_self (by omega)]; simp
        · rw [List.getElem?_set_ne (by omega)]; exact hz2 l (by omega))
      (by intro l hl; rw [List.getElem?_set_ne (by omega)]; exact hz3 l (by omega))
    refine ⟨zs', ?_, h4, h5, ?_⟩
    · rw [h3]; simp only [upd_upd]
    · intro l hl; exact h6 l (by omega)

theorem erase_spec {st : VSt V} {σ : Nat → Option (AV V)} {x i j : Nat} {s : AV V}
    (W : VW st σ) (h : σ x = some s) (hij : i ≤ j) (hj : j ≤ s.xs.length) :
    ∃ st', erase x i j st = .ok i st' ∧
      VW st' (upd σ x (some ⟨s.xs.take i ++ s.xs.drop j, s.cap, s.p⟩)) := by
  obtain ⟨xs, c, p⟩ := s
  have ho := W_obj W h
  have hl := W_len W h
  simp only [] at ho hl hj ⊢
  unfold erase
  simp only [M.bind_apply, getObj_some ho]
  rw [if_neg (by omega)]
  cases p with
  | none =>
    have := (W_null W h).2; subst this
    simp at hj; subst hj
    have : i = 0 := by omega
    subst this
    simp only [M.bind_apply, List.length_nil, forN, M.pure_apply, destroyN_null, Nat.sub_self]
    rw [setObj_some ho]
    refine ⟨_, rfl, ?_⟩
    simp
    rw [upd_eq_self h]
    have := St_objs_self ho
    simp only [List.length_nil] at this
    simp only [this]; exact W
  | some a =>
    obtain ⟨hm, hc⟩ := W_mem W h
    obtain ⟨zs, h1, h2, h3, h4⟩ := eraseLoop_ok (i := i) (j := j) (k := 0) (m := xs.length - j)
      (xs := xs) hij hl (by omega) W.thr hm rfl (fun _ _ => rfl) (by intros; omega) (fun _ _ => rfl)
    simp only [M.bind_apply, h1]
    rw [destroyN_ok (b := arr c zs) (by simp) (by simp; omega) (by intro l hl1 hl2; simp; omega)]
    rw [arr_hole c zs _ (j - i) (by omega)]
    simp only [upd_upd]
    rw [setObj_some (by exact ho)]
    refine ⟨_, rfl, ?_⟩
    have e : zs.take (xs.length - (j - i)) = xs.take i ++ xs.drop j := by
      apply List.ext_getElem?
      intro l
      by_cases hl1 : l < i
      · rw [List.getElem?_take_of_lt (by omega), h3 l hl1,
          List.getElem?_append_left (by simp; omega), List.getElem?_take_of_lt hl1]
      · by_cases hl2 : l < xs.length - (j - i)
        · rw [List.getElem?_take_of_lt hl2, List.getElem?_append_right (by simp; omega),
            List.getElem?_drop]
          have := h4 (l - i) (by omega)
          have e1 : i + (l - i) = l := by omega
          rw [e1] at this
          rw [this]; congr 1; simp; omega
        · rw [List.getElem?_eq_none (by simp; omega), List.getElem?_eq_none (by simp; omega)]
    rw [e]
    have := W_inplace W h (ys := xs.take i ++ xs.drop j) (by simp; omega)
    have e2 : (xs.take i ++ xs.drop j).length = xs.length - (j - i) := by simp; omega
    rw [e2] at this
    exact this

/-- Value after copy assignment. -/
def AV.assign (s sy : AV V) (next : Nat) : AV V :=
  ⟨sy.xs, max s.cap sy.cap, if sy.cap > s.cap then some next else s.p⟩

theorem copyAssign_spec {st : VSt V} {σ : Nat → Option (AV V)} {x y : Nat} {s sy : AV V}
    (W : VW st σ) (hx : σ x = some s) (hy : σ y = some sy) :
    ∃ st', copyAssign x y st = .ok () st' ∧ VW st' (upd σ x (some (s.assign sy st.next))) := by
  obtain ⟨xs, c, p⟩ := s
  obtain ⟨ys, d, q⟩ := sy
  have hoy := W_obj W hy
  have hl := W_len W hx
  have hly := W_len W hy
  simp only [] at hoy hl hly
  unfold copyAssign
  obtain ⟨st1, h1, W1⟩ := reserve_spec (n := d) W hx
  have hx1 : (upd σ x (some ((⟨xs, c, p⟩ : AV V).reserve d st.next))) x =
    some ((⟨xs, c, p⟩ : AV V).reserve d st.next) := upd_same _ _ _
  have ho1 := W_obj W1 hx1
  simp only [M.bind_apply, getObj_some hoy, h1]
  by_cases hxy : x = y
  · subst hxy
    rw [hx] at hy; cases hy
    have hres : (⟨xs, c, p⟩ : AV V).reserve c st.next = ⟨xs, c, p⟩ := by simp [AV.reserve]
    have has : (⟨xs, c, p⟩ : AV V).assign ⟨xs, c, p⟩ st.next = ⟨xs, c, p⟩ := by simp [AV.assign]
    rw [hres, upd_eq_self hx] at W1
    have ho1 := W_obj W1 hx
    simp only [] at ho1
    simp only [getObj_some ho1]
    rw [if_pos (by omega), has, upd_eq_self hx]
    simp only [Nat.sub_self]
    cases p with
    | none =>
      have := (W_null W hx).2; subst this
      simp only [M.bind_apply, List.length_nil, forN, M.pure_apply]
      rw [getObj_some (by exact ho1)]
      simp only []
      rw [getObj_some (by exact ho1)]
      simp only []
      rw [setObj_some (by exact ho1)]
      refine ⟨_, rfl, ?_⟩
      have := St_objs_self ho1
      simp only [this]; exact W1
    | some a =>
      obtain ⟨hm, hc⟩ := W_mem W1 hx
      simp only [M.bind_apply]
      rw [assignLoop_ok (i := 0) (xs := xs) (ys := xs) (c := c) (n := c) hm hl hm hl (by omega) (by omega)
        (fun _ => rfl) rfl W1.thr]
      simp only [forN, M.pure_apply]
      have e : xs.take (0 + xs.length) ++ xs.drop (0 + xs.length) = xs := by simp
      rw [e, St.mem_self hm]
      rw [getObj_some (by exact ho1)]
      simp only []
      rw [getObj_some (by exact ho1)]
      simp only []
      rw [setObj_some (by exact ho1)]
      refine ⟨_, rfl, ?_⟩
      have := St_objs_self ho1
      simp only [this]; exact W1
  · have hyx : y ≠ x := Ne.symm hxy
    have hy1 : (upd σ x (some ((⟨xs, c, p⟩ : AV V).reserve d st.next))) y = some ⟨ys, d, q⟩ := by
      simp [hyx, hy]
    have hoy1 := W_obj W1 hy1
    simp only [] at hoy1
    simp only [getObj_some hoy1, getObj_some ho1]
    -- name the state of x after reserve
    obtain ⟨c1, p1, hs1, hc1, hp1⟩ : ∃ c1 p1, (⟨xs, c, p⟩ : AV V).reserve d st.next = ⟨xs, c1, p1⟩ ∧
        d ≤ c1 ∧ (⟨xs, c, p⟩ : AV V).assign ⟨ys, d, q⟩ st.next = ⟨ys, c1, p1⟩ := by
      unfold AV.reserve AV.assign
      by_cases hnc : d > c
      · exact ⟨d, some st.next, by simp [hnc], Nat.le_refl _, by simp [hnc]; omega⟩
      · exact ⟨c, p, by simp [hnc], by omega, by simp [hnc]; omega⟩
    rw [hs1] at ho1 hx1 W1 hy1 ⊢
    rw [hp1]
    simp only [] at ho1 ⊢
    have hl1 := W_len W1 hx1
    simp only [] at hl1
    cases p1 with
    | none =>
      obtain ⟨e1, e2⟩ := W_null W1 hx1
      subst e1; subst e2
      have hd : d = 0 := by omega
      subst hd
      have hys : ys = [] := by simpa using hly
      subst hys
      rw [if_pos (by simp)]
      simp only [M.bind_apply, List.length_nil, forN, M.pure_apply, Nat.sub_self]
      rw [getObj_some (by exact hoy1)]
      simp only []
      rw [getObj_some (by exact ho1)]
      simp only []
      rw [setObj_some (by exact ho1)]
      refine ⟨_, rfl, ?_⟩
      have := St_objs_self ho1
      simp only [List.length_nil] at this ⊢
      simp only [this]; exact W1
    | some a =>
      obtain ⟨hm, hc⟩ := W_mem W1 hx1
      have fin := W_inplace W1 hx1 (ys := ys) (by omega)
      simp only [upd_upd] at fin
      cases q with
      | none =>
        obtain ⟨e1, e2⟩ := W_null W1 hy1
        subst e1; subst e2
        by_cases hge : ([] : List V).length ≥ xs.length
        · rw [if_pos hge]
          have hxs : xs = [] := by simpa using hge
          subst hxs
          simp only [M.bind_apply, List.length_nil, forN, M.pure_apply, Nat.sub_self]
          rw [getObj_some (by exact hoy1)]
          simp only []
          rw [getObj_some (by exact ho1)]
          simp only []
          rw [setObj_some (by exact ho1)]
          refine ⟨_, rfl, ?_⟩
          rw [upd_eq_self hm] at fin
          exact fin
        · rw [if_neg hge]
          simp only [M.bind_apply, List.length_nil, forN, M.pure_apply]
          rw [destroyN_ok (b := arr c1 xs) hm (by simp; omega) (by intro l hl1 hl2; simp; omega)]
          rw [arr_hole _ _ _ _ (by omega)]
          simp only []
          rw [getObj_some (by exact hoy1)]
          simp only []
          rw [getObj_some (by exact ho1)]
          simp only []
          rw [setObj_some (by exact ho1)]
          exact ⟨_, rfl, fin⟩
      | some b =>
        obtain ⟨hmy, hd⟩ := W_mem W1 hy1
        have hab : b ≠ a := W_ne W1 hyx hy1 hx1
        by_cases hge : ys.length ≥ xs.length
        · rw [if_pos hge]
          simp only [M.bind_apply]
          rw [assignLoop_ok (i := 0) (xs := ys) (ys := xs) (c := d) (n := c1) hmy hly hm hl1 (by omega)
            (by omega) (fun h => absurd h hab) rfl W1.thr]
          simp only []
          rw [copyLoop_ok (i := xs.length) (xs := ys) (ys := ys.take xs.length) (c := d) (n := c1) hab
            (by simp [hab, hmy]) hly (by simp) (by simp; omega) (by omega) (by omega) (by exact W1.thr)]
          simp only [upd_upd]
          rw [getObj_some (by exact hoy1)]
          simp only []
          rw [getObj_some (by exact ho1)]
          simp only []
          rw [setObj_some (by exact ho1)]
          refine ⟨_, rfl, ?_⟩
          have e : ys.take xs.length ++ (ys.drop xs.length).take (ys.length - xs.length) = ys := by
            rw [List.take_of_length_le (l := ys.drop xs.length) (by simp), List.take_append_drop]
          rw [e]
          exact fin
        · rw [if_neg hge]
          simp only [M.bind_apply]
          rw [assignLoop_ok (i := 0) (xs := ys) (ys := xs) (c := d) (n := c1) hmy hly hm hl1 (by omega)
            (by omega) (fun h => absurd h hab) rfl W1.thr]
          simp only []
          rw [destroyN_ok (b := arr c1 (ys.take (0 + ys.length) ++ xs.drop (0 + ys.length))) (by simp)
            (by simp; omega) (by intro l hl1 hl2; simp; omega)]
          rw [arr_hole _ _ _ _ (by simp)]
          simp only [upd_upd]
          rw [getObj_some (by exact hoy1)]
          simp only []
          rw [getObj_some (by exact ho1)]
          simp only []
          rw [setObj_some (by exact ho1)]
          refine ⟨_, rfl, ?_⟩
          have e : (ys.take (0 + ys.length) ++ xs.drop (0 + ys.length)).take ys.length = ys := by simp
          rw [e]
          exact fin

/-! ### Observers -/

section observers
variable {st : VSt V} {σ : Nat → Option (AV V)} {x : Nat} {s : AV V}

theorem get_spec (W : VW st σ) (h : σ x = some s) {i : Nat} {v : V} (hv : s.xs[i]? = some v) :
    get x i st = .ok v st := by
  obtain ⟨xs, c, p⟩ := s
  have ho := W_obj W h
  have hl := W_len W h
  simp only [] at ho hl hv
  cases p with
  | none => have := (W_null W h).2; simp [this] at hv
  | some a =>
    unfold get
    simp only [M.bind_apply, getObj_some ho]
    exact load_arr (W_mem W h).1 hl hv

theorem size_spec (W : VW st σ) (h : σ x = some s) : size x st = .ok s.xs.length st := by
  simp [size, W_obj W h]
theorem empty_spec (W : VW st σ) (h : σ x = some s) : empty x st = .ok s.xs.isEmpty st := by
  simp [empty, W_obj W h]
  cases s.xs <;> simp
theorem capacity_spec (W : VW st σ) (h : σ x = some s) : capacity x st = .ok s.cap st := by
  simp [capacity, W_obj W h]
theorem data_spec (W : VW st σ) (h : σ x = some s) : data x st = .ok s.p st := by
  simp [data, W_obj W h]

theorem at_spec (W : VW st σ) (h : σ x = some s) {i : Nat} {v : V} (hv : s.xs[i]? = some v) :
    at_ x i st = .ok v st := by
  have hi : i < s.xs.length := by grind
  have := get_spec W h hv
  unfold get at this
  unfold at_
  simp only [M.bind_apply, getObj_some (W_obj W h)] at this ⊢
  rw [if_neg (by omega)]
  exact this

theorem at_throw (W : VW st σ) (h : σ x = some s) {i : Nat} (hv : s.xs.length ≤ i) :
    at_ x i st = .throw .outOfRange st := by
  unfold at_
  simp only [M.bind_apply, getObj_some (W_obj W h)]
  rw [if_pos (by omega)]
  rfl

theorem front_spec (W : VW st σ) (h : σ x = some s) {v : V} (hv : s.xs.head? = some v) :
    front x st = .ok v st := by
  have := get_spec W h (i := 0) (v := v) (by rw [← List.head?_eq_getElem?]; exact hv)
  exact this

theorem back_spec (W : VW st σ) (h : σ x = some s) {v : V} (hv : s.xs.getLast? = some v) :
    back x st = .ok v st := by
  rw [List.getLast?_eq_getElem?] at hv
  have hne : 0 < s.xs.length := by grind
  have := get_spec W h hv
  unfold get at this
  unfold back
  simp only [M.bind_apply, getObj_some (W_obj W h)] at this ⊢
  rw [if_neg (by omega)]
  exact this

theorem collect_arr {st : VSt V} {a n i m : Nat} {xs : List V}
    (h : st.mem a = some (arr n xs)) (hn : xs.length ≤ n) (hm : i + m = xs.length) :
    collect (some a) i m st = .ok (xs.drop i) st := by
  induction m generalizing i with
  | zero => simp [collect]; omega
  | succ m ih =>
    have hv : xs[i]? = some xs[i] := by simp
    simp only [collect, M.bind_apply, load_arr h hn hv, ih (i := i+1) (by omega), M.pure_apply]
    congr 1
    simp

theorem toList_spec (W : VW st σ) (h : σ x = some s) : toList x st = .ok s.xs st := by
  obtain ⟨xs, c, p⟩ := s
  have ho := W_obj W h
  have hl := W_len W h
  simp only [] at ho hl
  unfold toList
  simp only [M.bind_apply, getObj_some ho]
  cases p with
  | none => have := (W_null W h).2; subst this; rfl
  | some a => rw [collect_arr (W_mem W h).1 hl (by omega)]; simp

theorem equalLoop_arr [BEq V] {st : VSt V} {a b n k i m : Nat} {xs ys : List V}
    (h : st.mem a = some (arr n xs)) (hn : xs.length ≤ n) (hm : i + m = xs.length)
    (h' : st.mem b = some (arr k ys)) (hk : ys.length ≤ k) (hm' : i + m = ys.length) :
    equalLoop (some a) (some b) i m st = .ok (xs.drop i == ys.drop i) st := by
  induction m generalizing i with
  | zero =>
    have e1 : xs.drop i = [] := by simp; omega
    have e2 : ys.drop i = [] := by simp; omega
    simp [equalLoop, e1, e2]
  | succ m ih =>
    have hv : xs[i]? = some xs[i] := by simp
    have hv' : ys[i]? = some ys[i] := by simp
    have e1 : xs.drop i = xs[i] :: xs.drop (i+1) := by simp
    have e2 : ys.drop i = ys[i] :: ys.drop (i+1) := by simp
    simp only [equalLoop, M.bind_apply, load_arr h hn hv, load_arr h' hk hv']
    rw [e1, e2, List.cons_beq_cons]
    by_cases hc : (xs[i] == ys[i]) = true
    · rw [if_pos hc, ih (i := i+1) (by omega) (by omega)]; simp [hc]
    · rw [if_neg hc]; simp [hc]

theorem beq_false_of_length [BEq V] {xs ys : List V} (hlen : ¬ xs.length = ys.length) :
    (xs == ys) = false := by
  rw [Bool.eq_false_iff]
  intro hc
  apply hlen
  clear hlen
  induction xs generalizing ys with
  | nil => cases ys with
    | nil => rfl
    | cons b ys => simp at hc
  | cons a xs ih =>
    cases ys with
    | nil => simp at hc
    | cons b ys =>
      rw [List.cons_beq_cons] at hc
      simp only [Bool.and_eq_true] at hc
      have := ih hc.2
      simpa using this

theorem eq_spec [BEq V] {y : Nat} {sy : AV V} (W : VW st σ) (h : σ x = some s) (hy : σ y = some sy) :
    eq x y st = .ok (s.xs == sy.xs) st := by
  obtain ⟨xs, c, p⟩ := s
  obtain ⟨ys, d, q⟩ := sy
  have ho := W_obj W h
  have hl := W_len W h
  have hoy := W_obj W hy
  have hly := W_len W hy
  simp only [] at ho hl hoy hly
  unfold eq
  simp only [M.bind_apply, getObj_some ho, getObj_some hoy]
  by_cases hlen : xs.length = ys.length
  · rw [if_pos (by simpa using hlen)]
    cases p with
    | none =>
      have := (W_null W h).2; subst this
      have : ys = [] := by simpa using hlen.symm
      subst this
      simp [equalLoop]
    | some a =>
      cases q with
      | none =>
        have := (W_null W hy).2; subst this
        have : xs = [] := by simpa using hlen
        subst this
        simp [equalLoop]
      | some b =>
        rw [equalLoop_arr (W_mem W h).1 hl (by omega) (W_mem W hy).1 hly (by omega)]
        simp
  · rw [if_neg (by simpa using hlen)]
    have := beq_false_of_length hlen
    simp [this]
end observers

end Cest.Vec
