import Verif.List.Model
import Verif.Core.World
import Verif.Core.Arr
/-
Helper lemmas: doubly linked paths, and effects of link assignments on the machine state.
-/
namespace Cest.Lst
open Cest

section path
variable {P : Type}

/-- Following `nx` from `p` gives `l`, and `pv` goes back. -/
def Path (nx pv : P → Option P) : P → List P → Prop
  | _, [] => True
  | p, q :: t => nx p = some q ∧ pv q = some p ∧ Path nx pv q t

variable {nx pv nx' pv' : P → Option P}

theorem Path.congr {p : P} {l : List P} (h : Path nx pv p l)
    (h1 : ∀ r ∈ (p :: l).dropLast, nx' r = nx r) (h2 : ∀ r ∈ l, pv' r = pv r) : Path nx' pv' p l := by
  induction l generalizing p with
  | nil => trivial
  | cons q t ih =>
    obtain ⟨a, b, c⟩ := h
    rw [List.dropLast_cons_cons] at h1
    exact ⟨by rw [h1 p List.mem_cons_self, a], by rw [h2 q List.mem_cons_self, b],
      ih c (fun r hr => h1 r (List.mem_cons_of_mem _ hr))
        (fun r hr => h2 r (List.mem_cons_of_mem _ hr))⟩

theorem Path.append {p q : P} {l1 l2 : List P} :
    Path nx pv p (l1 ++ q :: l2) ↔ Path nx pv p (l1 ++ [q]) ∧ Path nx pv q l2 := by
  induction l1 generalizing p with
  | nil => simp [Path, and_assoc]
  | cons b l1 ih => simp only [List.cons_append, Path, ih, and_assoc]

/-- Predecessor of a position: nx of it is the pointer at the position and conversely. -/
theorem Path.mid {p q : P} {l1 l2 : List P} (h : Path nx pv p (l1 ++ q :: l2)) :
    nx (l1.getLastD p) = some q ∧ pv q = some (l1.getLastD p) := by
  induction l1 generalizing p with
  | nil => exact ⟨h.1, h.2.1⟩
  | cons b l1 ih => rw [List.getLastD_cons]; exact ih h.2.2

theorem getLastD_mem (p : P) (l : List P) : l.getLastD p ∈ p :: l := by
  induction l generalizing p with
  | nil => simp
  | cons b l ih => rw [List.getLastD_cons]; exact List.mem_cons_of_mem _ (ih b)

theorem Path.insert [DecidableEq P] {h q n : P} {l1 l2 : List P} (P' : Path nx pv h (l1 ++ q :: l2))
    (hs : (h :: (l1 ++ q :: l2)).dropLast.Nodup) (ht : (l1 ++ q :: l2).Nodup)
    (hn : n ∉ h :: (l1 ++ q :: l2))
    (hnx : ∀ r, nx' r = if r = l1.getLastD h then some n else if r = n then some q else nx r)
    (hpv : ∀ r, pv' r = if r = q then some n else if r = n then some (l1.getLastD h) else pv r) :
    Path nx' pv' h (l1 ++ n :: q :: l2) := by
  induction l1 generalizing h with
  | nil =>
    simp only [List.nil_append, List.mem_cons, not_or, List.dropLast_cons_cons] at *
    obtain ⟨a, b, c⟩ := P'
    refine ⟨by simp [hnx], by simp [hpv, hn.2.1], by simp [hnx, hn.1], by simp [hpv], ?_⟩
    refine c.congr ?_ ?_
    · intro r hr
      rw [hnx, if_neg, if_neg]
      · rintro rfl
        have := List.dropLast_subset _ hr
        simp only [List.mem_cons] at this
        exact this.elim hn.2.1 hn.2.2
      · rintro rfl
        exact (List.nodup_cons.1 hs).1 hr
    · intro r hr
      rw [hpv, if_neg, if_neg]
      · rintro rfl; exact hn.2.2 hr
      · rintro rfl; exact (List.nodup_cons.1 ht).1 hr
  | cons b l1 ih =>
    simp only [List.cons_append, List.dropLast_cons_cons] at hs ht ⊢
    obtain ⟨a, b', c⟩ := P'
    have hne : h ≠ l1.getLastD b := by
      intro e
      apply (List.nodup_cons.1 hs).1
      rw [e]
      have := getLastD_mem b l1
      rw [← List.cons_append, List.dropLast_append_of_ne_nil (by simp)]
      exact List.mem_append_left _ this
    refine ⟨?_, ?_, ih c (by exact (List.nodup_cons.1 hs).2) (List.nodup_cons.1 ht).2
      (by simp at hn ⊢; simp [hn]) (by intro r; rw [hnx, List.getLastD_cons]) (by intro r; rw [hpv, List.getLastD_cons])⟩
    · rw [hnx, List.getLastD_cons, if_neg hne, if_neg, a]
      rintro rfl; simp at hn
    · rw [hpv, if_neg, if_neg, b']
      · rintro rfl; simp at hn
      · rintro rfl; simp at ht

theorem Path.erase [DecidableEq P] {h q n : P} {l1 l2 : List P} (P' : Path nx pv h (l1 ++ n :: q :: l2))
    (hs : (h :: (l1 ++ n :: q :: l2)).dropLast.Nodup) (ht : (l1 ++ n :: q :: l2).Nodup)
    (hnx : ∀ r, r ≠ n → nx' r = if r = l1.getLastD h then some q else nx r)
    (hpv : ∀ r, r ≠ n → pv' r = if r = q then some (l1.getLastD h) else pv r) :
    Path nx' pv' h (l1 ++ q :: l2) := by
  induction l1 generalizing h with
  | nil =>
    simp only [List.nil_append, List.dropLast_cons_cons] at *
    obtain ⟨a, b, a', b', c⟩ := P'
    have h1 := List.nodup_cons.1 hs
    have h2 := List.nodup_cons.1 ht
    have hhn : h ≠ n := by rintro rfl; simp at h1
    have hqn : q ≠ n := by rintro rfl; simp at h2
    refine ⟨by simp [hnx h hhn], by simp [hpv q hqn], ?_⟩
    refine c.congr ?_ ?_
    · intro r hr
      rw [hnx, if_neg]
      · rintro rfl
        exact h1.1 (List.mem_cons_of_mem _ hr)
      · rintro rfl
        exact (List.nodup_cons.1 h1.2).1 hr
    · intro r hr
      rw [hpv, if_neg]
      · rintro rfl; exact (List.nodup_cons.1 h2.2).1 hr
      · rintro rfl; exact h2.1 (List.mem_cons_of_mem _ hr)
  | cons b l1 ih =>
    simp only [List.cons_append, List.dropLast_cons_cons] at hs ht ⊢
    obtain ⟨a, b', c⟩ := P'
    have hmem : ∀ r, r ∈ b :: l1 → r ∈ (b :: (l1 ++ n :: q :: l2)).dropLast := by
      intro r hr
      rw [← List.cons_append, List.dropLast_append_of_ne_nil (by simp)]
      exact List.mem_append_left _ hr
    have hne : h ≠ l1.getLastD b := by
      intro e
      apply (List.nodup_cons.1 hs).1
      rw [e]
      exact hmem _ (getLastD_mem b l1)
    have hhn : h ≠ n := by
      rintro rfl
      apply (List.nodup_cons.1 hs).1
      rw [← List.cons_append, List.dropLast_append_of_ne_nil (by simp)]
      exact List.mem_append_right _ (by simp)
    have hbn : b ≠ n := by rintro rfl; simp at ht
    refine ⟨?_, ?_, ih c (by exact (List.nodup_cons.1 hs).2) (List.nodup_cons.1 ht).2
      (by intro r hr; rw [hnx r hr, List.getLastD_cons]) (by intro r hr; rw [hpv r hr, List.getLastD_cons])⟩
    · rw [hnx h hhn, List.getLastD_cons, if_neg hne, a]
    · rw [hpv b hbn, if_neg, b']
      rintro rfl; simp at ht

end path

/-! ### Effects of link assignments -/

variable {V : Type}

/-- `next` member designated by a pointer (restricted to the sentinel of `x` and nodes). -/
def nxF (mem : Nat → Option (Cell V)) (x : Nat) (o : Obj) : Ptr → Option Ptr
  | .null => none
  | .head y => if y = x then some o.next else none
  | .node a => (mem a).map (·.next)
def pvF (mem : Nat → Option (Cell V)) (x : Nat) (o : Obj) : Ptr → Option Ptr
  | .null => none
  | .head y => if y = x then some o.prev else none
  | .node a => (mem a).map (·.prev)

/-- Effect of link assignments to nodes in `A` and to the sentinel of `x`. -/
structure Sim (x : Nat) (A : Nat → Prop) (st st' : LSt V) (o o' : Obj) : Prop where
  objs : st'.objs = upd st.objs x (some o')
  size : o'.size = o.size
  mem : ∀ a, ¬ A a → st'.mem a = st.mem a
  val : ∀ a, (st'.mem a).map (·.val) = (st.mem a).map (·.val)
  next : st'.next = st.next
  thr : st'.thr = st.thr

theorem Sim.refl {x : Nat} {A : Nat → Prop} {st : LSt V} {o : Obj} (h : st.objs x = some o) :
    Sim x A st st o o :=
  ⟨by rw [upd_eq_self h], rfl, fun _ _ => rfl, fun _ => rfl, rfl, rfl⟩

theorem Sim.trans {x : Nat} {A : Nat → Prop} {st st' st'' : LSt V} {o o' o'' : Obj}
    (h1 : Sim x A st st' o o') (h2 : Sim x A st' st'' o' o'') : Sim x A st st'' o o'' :=
  ⟨by rw [h2.objs, h1.objs, upd_upd], by rw [h2.size, h1.size],
   fun a ha => by rw [h2.mem a ha, h1.mem a ha], fun a => by rw [h2.val, h1.val],
   by rw [h2.next, h1.next], by rw [h2.thr, h1.thr]⟩

theorem Sim.obj {x : Nat} {A : Nat → Prop} {st st' : LSt V} {o o' : Obj} (h : Sim x A st st' o o') :
    st'.objs x = some o' := by rw [h.objs]; simp

theorem getNext_eq {x : Nat} {st : LSt V} {o : Obj} (ho : st.objs x = some o) {p q : Ptr}
    (h : nxF st.mem x o p = some q) : getNext p st = .ok q st := by
  cases p with
  | null => simp [nxF] at h
  | head y =>
    simp only [nxF] at h
    split at h
    · rename_i e; subst e; simp at h; subst h; simp [getNext, getObj_some ho]
    · simp at h
  | node a =>
    simp only [nxF, Option.map_eq_some_iff] at h
    obtain ⟨c, hc, rfl⟩ := h
    simp [getNext, hc]

theorem getPrev_eq {x : Nat} {st : LSt V} {o : Obj} (ho : st.objs x = some o) {p q : Ptr}
    (h : pvF st.mem x o p = some q) : getPrev p st = .ok q st := by
  cases p with
  | null => simp [pvF] at h
  | head y =>
    simp only [pvF] at h
    split at h
    · rename_i e; subst e; simp at h; subst h; simp [getPrev, getObj_some ho]
    · simp at h
  | node a =>
    simp only [pvF, Option.map_eq_some_iff] at h
    obtain ⟨c, hc, rfl⟩ := h
    simp [getPrev, hc]

theorem setNext_eq {x : Nat} {st : LSt V} {o : Obj} (ho : st.objs x = some o) {p q r : Ptr}
    (h : nxF st.mem x o p = some r) (A : Nat → Prop) (hA : ∀ a, p = .node a → A a) :
    ∃ st' o', setNext p q st = .ok () st' ∧ Sim x A st st' o o' ∧
      (∀ t, nxF st'.mem x o' t = if t = p then some q else nxF st.mem x o t) ∧
      (∀ t, pvF st'.mem x o' t = pvF st.mem x o t) := by
  cases p with
  | null => simp [nxF] at h
  | head y =>
    simp only [nxF] at h
    split at h
    · rename_i e; subst e
      refine ⟨{ st with objs := upd st.objs y (some { o with next := q }) }, { o with next := q },
        by simp [setNext, ho], ⟨rfl, rfl, fun _ _ => rfl,
        fun _ => rfl, rfl, rfl⟩, ?_, ?_⟩
      · intro t; cases t <;> simp [nxF]; split <;> simp_all
      · intro t; cases t <;> simp [pvF]
    · simp at h
  | node a =>
    simp only [nxF, Option.map_eq_some_iff] at h
    obtain ⟨c, hc, rfl⟩ := h
    refine ⟨{ st with mem := upd st.mem a (some { c with next := q }) }, o, by simp [setNext, hc], ⟨by simp [upd_eq_self ho], rfl, ?_, ?_, rfl, rfl⟩, ?_, ?_⟩
    · intro b hb
      have : b ≠ a := by rintro rfl; exact hb (hA b rfl)
      simp [this]
    · intro b; simp; split <;> simp_all
    · intro t; cases t <;> simp [nxF]; split <;> simp_all
    · intro t; cases t <;> simp [pvF]; split <;> simp_all

theorem setPrev_eq {x : Nat} {st : LSt V} {o : Obj} (ho : st.objs x = some o) {p q r : Ptr}
    (h : pvF st.mem x o p = some r) (A : Nat → Prop) (hA : ∀ a, p = .node a → A a) :
    ∃ st' o', setPrev p q st = .ok () st' ∧ Sim x A st st' o o' ∧
      (∀ t, nxF st'.mem x o' t = nxF st.mem x o t) ∧
      (∀ t, pvF st'.mem x o' t = if t = p then some q else pvF st.mem x o t) := by
  cases p with
  | null => simp [pvF] at h
  | head y =>
    simp only [pvF] at h
    split at h
    · rename_i e; subst e
      refine ⟨{ st with objs := upd st.objs y (some { o with prev := q }) }, { o with prev := q },
        by simp [setPrev, ho], ⟨rfl, rfl, fun _ _ => rfl,
        fun _ => rfl, rfl, rfl⟩, ?_, ?_⟩
      · intro t; cases t <;> simp [nxF]
      · intro t; cases t <;> simp [pvF]; split <;> simp_all
    · simp at h
  | node a =>
    simp only [pvF, Option.map_eq_some_iff] at h
    obtain ⟨c, hc, rfl⟩ := h
    refine ⟨{ st with mem := upd st.mem a (some { c with prev := q }) }, o, by simp [setPrev, hc], ⟨by simp [upd_eq_self ho], rfl, ?_, ?_, rfl, rfl⟩, ?_, ?_⟩
    · intro b hb
      have : b ≠ a := by rintro rfl; exact hb (hA b rfl)
      simp [this]
    · intro b; simp; split <;> simp_all
    · intro t; cases t <;> simp [nxF]; split <;> simp_all
    · intro t; cases t <;> simp [pvF]; split <;> simp_all

end Cest.Lst
