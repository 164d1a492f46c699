import Verif.FList.Model
import Verif.FList.Spec
import Verif.Core.World
import Verif.Core.Arr
/-
Representation of sequences by cest::forward_list and correctness of every method (helper lemmas).
-/
namespace Cest.FL
open Cest
variable {V : Type}

def fstP : List (Nat × V) → Ptr
  | [] => .null
  | (a, _) :: _ => .node a

theorem fstP_cons {a : Nat} {v : V} {r : List (Nat × V)} : fstP ((a, v) :: r) = .node a := rfl

/-- Pointer to the last element, or `&m_front`. -/
def lstP (x : Nat) (s : List (Nat × V)) : Ptr := (s.map (fun e => Ptr.node e.1)).getLastD (.head x)

theorem lstP_nil {x : Nat} : lstP x ([] : List (Nat × V)) = .head x := rfl
theorem lstP_concat {x : Nat} {l : List (Nat × V)} {a : Nat} {v : V} :
    lstP x (l ++ [(a, v)]) = .node a := by
  simp only [lstP, List.map_append, List.map_cons, List.map_nil, List.getLastD_concat]

def ids (s : List (Nat × V)) : List Nat := s.map Prod.fst
theorem mem_ids {s : List (Nat × V)} {a : Nat} : a ∈ ids s ↔ ∃ v, (a, v) ∈ s := by
  simp [ids]
@[simp] theorem ids_nil : ids ([] : List (Nat × V)) = [] := rfl
@[simp] theorem ids_cons {e : Nat × V} {s : List (Nat × V)} : ids (e :: s) = e.1 :: ids s := rfl
@[simp] theorem ids_append {s t : List (Nat × V)} : ids (s ++ t) = ids s ++ ids t := by simp [ids]

def Chain (mem : Nat → Option (Cell V)) : List (Nat × V) → Prop
  | [] => True
  | (a, v) :: t => mem a = some ⟨fstP t, some v⟩ ∧ Chain mem t

theorem Chain.congr {m m' : Nat → Option (Cell V)} {s : List (Nat × V)} (h : Chain m s)
    (hm : ∀ a ∈ ids s, m' a = m a) : Chain m' s := by
  induction s with
  | nil => trivial
  | cons e s ih =>
    obtain ⟨a, v⟩ := e
    exact ⟨by rw [hm a (by simp)]; exact h.1, ih h.2 (fun b hb => hm b (by simp [hb]))⟩

theorem Chain.right {m : Nat → Option (Cell V)} {l r : List (Nat × V)} (h : Chain m (l ++ r)) :
    Chain m r := by
  induction l with
  | nil => exact h
  | cons e l ih => exact ih h.2

theorem Chain.cell {m : Nat → Option (Cell V)} {l r : List (Nat × V)} {a : Nat} {v : V}
    (h : Chain m (l ++ (a, v) :: r)) : m a = some ⟨fstP r, some v⟩ := h.right.1

theorem Chain.alloc {m : Nat → Option (Cell V)} {s : List (Nat × V)} (h : Chain m s) :
    ∀ a ∈ ids s, m a ≠ none := by
  induction s with
  | nil => simp
  | cons e s ih =>
    obtain ⟨a, v⟩ := e
    intro b hb
    rcases List.mem_cons.1 hb with h' | h'
    · rw [h', h.1]; simp
    · exact ih h.2 b h'

/-- First node of a segment that continues at `q`. -/
def hdP (q : Ptr) : List (Nat × V) → Ptr
  | [] => q
  | (a, _) :: _ => .node a

/-- A segment of a chain that continues at `q`. -/
def ChainTo (mem : Nat → Option (Cell V)) (q : Ptr) : List (Nat × V) → Prop
  | [] => True
  | (a, v) :: t => mem a = some ⟨hdP q t, some v⟩ ∧ ChainTo mem q t

theorem hdP_fst {l r : List (Nat × V)} : hdP (fstP r) l = fstP (l ++ r) := by
  cases l <;> rfl

theorem Chain.left {m : Nat → Option (Cell V)} {l r : List (Nat × V)} (h : Chain m (l ++ r)) :
    ChainTo m (fstP r) l := by
  induction l with
  | nil => trivial
  | cons e l ih => exact ⟨by rw [hdP_fst]; exact h.1, ih h.2⟩

theorem ChainTo.congr {m m' : Nat → Option (Cell V)} {q : Ptr} {s : List (Nat × V)} (h : ChainTo m q s)
    (hm : ∀ a ∈ ids s, m' a = m a) : ChainTo m' q s := by
  induction s with
  | nil => trivial
  | cons e s ih =>
    obtain ⟨a, v⟩ := e
    exact ⟨by rw [hm a (by simp)]; exact h.1, ih h.2 (fun b hb => hm b (by simp [hb]))⟩

theorem ChainTo.last {m : Nat → Option (Cell V)} {q : Ptr} {l : List (Nat × V)} {a : Nat} {v : V}
    (h : ChainTo m q (l ++ [(a, v)])) : m a = some ⟨q, some v⟩ := by
  induction l with
  | nil => exact h.1
  | cons e l ih => exact ih h.2

theorem ChainTo.relink {m : Nat → Option (Cell V)} {q : Ptr} {l r' : List (Nat × V)} {a : Nat} {v w : V}
    (h : ChainTo m q (l ++ [(a, v)])) (hl : a ∉ ids l) (h' : Chain m r') (hr : a ∉ ids r') :
    Chain (upd m a (some ⟨fstP r', some w⟩)) (l ++ (a, w) :: r') := by
  induction l with
  | nil =>
    refine ⟨upd_same _ _ _, h'.congr ?_⟩
    intro b hb
    have : b ≠ a := by rintro rfl; exact hr hb
    simp [this]
  | cons e l ih =>
    obtain ⟨b, u⟩ := e
    simp only [ids_cons, List.mem_cons, not_or] at hl
    refine ⟨?_, ih h.2 hl.2⟩
    have hb : b ≠ a := fun e => hl.1 e.symm
    simp only [upd_apply, hb, if_false]
    rw [h.1]
    cases l <;> rfl

structure FRep (mem : Nat → Option (Cell V)) (x : Nat) (o : Obj) (s : List (Nat × V)) : Prop where
  nodup : (ids s).Nodup
  onext : o.next = fstP s
  chain : Chain mem s

def flistI (V : Type) : Iface Obj (Cell V) (List (Nat × V)) where
  ids := ids
  Rep := FRep
  loc := fun h hm => ⟨h.nodup, h.onext, h.chain.congr hm⟩
  alloc := fun h => h.chain.alloc

abbrev FW (st : FSt V) (σ : Nat → Option (List (Nat × V))) : Prop := World (flistI V) st σ

@[simp] theorem flistI_ids (s : List (Nat × V)) : (flistI V).ids s = ids s := rfl

section
variable {st : FSt V} {σ : Nat → Option (List (Nat × V))} {x : Nat} {s l r : List (Nat × V)}

theorem W_rep (W : FW st σ) (hs : σ x = some s) : ∃ o, st.objs x = some o ∧ FRep st.mem x o s :=
  W.rep x s hs

theorem W_idlt (W : FW st σ) (hs : σ x = some s) {a : Nat} (ha : a ∈ ids s) : a < st.next :=
  W.lt_next (x := x) (by simpa [hs] using ha)

theorem ctor_spec (W : FW st σ) (hx : σ x = none) :
    ∃ st', ctor x st = .ok () st' ∧ FW st' (upd σ x (some [])) ∧ st'.next = st.next := by
  refine ⟨{ st with objs := upd st.objs x (some ⟨.null⟩) }, ?_, ?_, rfl⟩
  · simp [ctor, W.dom x hx]
  · exact W.step1 x ⟨.null⟩ [] rfl ⟨by simp, rfl, trivial⟩ (fun _ _ _ => rfl) (by simp)
      (by simp [hx]) W.fresh W.thr

theorem before_spec (W : FW st σ) (hs : σ x = some s) : before x st = .ok (.head x) st := by
  obtain ⟨o, ho, R⟩ := W_rep W hs
  simp [before, ho]
theorem begin_spec (W : FW st σ) (hs : σ x = some s) : begin_ x st = .ok (fstP s) st := by
  obtain ⟨o, ho, R⟩ := W_rep W hs
  simp [begin_, getNext, ho, R.onext]

/-- `next` of the last node before a split point. -/
theorem getNext_lst {st : FSt V} {o : Obj} (ho : st.objs x = some o) (hn : o.next = fstP (l ++ r))
    (hc : Chain st.mem (l ++ r)) : getNext (lstP x l) st = .ok (fstP r) st := by
  cases hl : l.reverse with
  | nil =>
    have : l = [] := by simpa using hl
    subst this
    simp [lstP, getNext, ho, hn]
  | cons e l' =>
    obtain ⟨a, v⟩ := e
    have : l = l'.reverse ++ [(a, v)] := by
      rw [← List.reverse_reverse l, hl, List.reverse_cons]
    subst this
    rw [lstP_concat]
    have hc' : Chain st.mem (l'.reverse ++ (a, v) :: r) := by simpa using hc
    simp [getNext, hc'.cell]

/-- Relinking the node before a split point. -/
theorem setNext_lst {st : FSt V} {o : Obj} {q : Ptr} {r' : List (Nat × V)} (ho : st.objs x = some o)
    (hn : o.next = hdP q l) (hc : ChainTo st.mem q l) (hnd : (ids l).Nodup)
    (hr' : Chain st.mem r') (hd : ∀ a ∈ ids l, a ∉ ids r') :
    ∃ st' o', setNext (lstP x l) (fstP r') st = .ok () st' ∧
      st'.objs = upd st.objs x (some o') ∧ o'.next = fstP (l ++ r') ∧ Chain st'.mem (l ++ r') ∧
      (∀ a, a ∉ ids l → st'.mem a = st.mem a) ∧ st'.next = st.next ∧ st'.thr = st.thr ∧
      (∀ a, st'.mem a = none ↔ st.mem a = none) := by
  cases hl : l.reverse with
  | nil =>
    have : l = [] := by simpa using hl
    subst this
    exact ⟨{ st with objs := upd st.objs x (some ⟨fstP r'⟩) }, ⟨fstP r'⟩,
      by simp [lstP, setNext, ho], rfl, rfl, hr', fun _ _ => rfl, rfl, rfl, fun _ => Iff.rfl⟩
  | cons e l' =>
    obtain ⟨a, v⟩ := e
    have : l = l'.reverse ++ [(a, v)] := by
      rw [← List.reverse_reverse l, hl, List.reverse_cons]
    subst this
    have hal : a ∉ ids l'.reverse := by
      intro h
      rw [ids_append, List.nodup_append] at hnd
      exact hnd.2.2 a h a (by simp) rfl
    refine ⟨{ st with mem := upd st.mem a (some ⟨fstP r', some v⟩) }, o, ?_, ?_, ?_, ?_, ?_, rfl, rfl, ?_⟩
    · rw [lstP_concat]
      simp [setNext, hc.last]
    · simp [upd_eq_self ho]
    · rw [hn]
      cases l'.reverse <;> rfl
    · have := hc.relink (w := v) hal hr' (hd a (by simp))
      simpa using this
    · intro b hb
      have : b ≠ a := by rintro rfl; exact hb (by simp)
      simp [this]
    · intro b
      simp only [upd_apply]
      split
      · rename_i h; subst h; simp [hc.last]
      · exact Iff.rfl

theorem inc_spec (W : FW st σ) (hs : σ x = some (l ++ r)) :
    inc (lstP x l) st = .ok (fstP r) st := by
  obtain ⟨o, ho, R⟩ := W_rep W hs
  exact getNext_lst ho R.onext R.chain

theorem deref_spec (W : FW st σ) {a : Nat} {v : V} (hs : σ x = some (l ++ (a, v) :: r)) :
    deref (.node a) st = .ok v st := by
  obtain ⟨o, ho, R⟩ := W_rep W hs
  simp [deref, getVal, R.chain.cell]

theorem insertAfter_steps (W : FW st σ) (hs : σ x = some (l ++ r)) (v : V) :
    ∃ st0 st1 st', allocNode st = .ok st.next st0 ∧ getNext (lstP x l) st0 = .ok (fstP r) st0 ∧
      constructNode st.next v (fstP r) st0 = .ok () st1 ∧
      setNext (lstP x l) (.node st.next) st1 = .ok () st' ∧
      ((∀ b, b ≠ st.next → st0.mem b = st.mem b) ∧ (∃ o, st'.objs = upd st.objs x (some o)) ∧
        (∀ a, a ∉ ids l → a ≠ st.next → st'.mem a = st.mem a) ∧
        (∀ a, st.mem a ≠ none ∨ a = st.next → st'.mem a ≠ none)) ∧
      FW st' (upd σ x (some (l ++ (st.next, v) :: r))) ∧ st'.next = st.next + 1 := by
  obtain ⟨o, ho, R⟩ := W_rep W hs
  have hlt : ∀ a, a ∈ ids (l ++ r) → a < st.next := fun a ha => W_idlt W hs ha
  let st1 : FSt V := ⟨st.objs, upd st.mem st.next (some ⟨fstP r, some v⟩), st.next + 1, st.thr⟩
  let st0 : FSt V := ⟨st.objs, upd st.mem st.next (some ⟨.null, none⟩), st.next + 1, st.thr⟩
  have hne : ∀ a, a ∈ ids (l ++ r) → a ≠ st.next := fun a ha => by have := hlt a ha; omega
  have hc0 : Chain st0.mem (l ++ r) := R.chain.congr (fun a ha => by simp [st0, hne a ha])
  have hc1 : Chain st1.mem (l ++ r) := R.chain.congr (fun a ha => by simp [st1, hne a ha])
  have hg := getNext_lst (x := x) (st := st0) ho R.onext hc0
  obtain ⟨st2, o2, e2, hobj, hon, hch, hmem, hnx, hth, hal⟩ := setNext_lst (x := x) (st := st1)
    (r' := (st.next, v) :: r) ho (by rw [hdP_fst]; exact R.onext) hc1.left
    (by have := R.nodup; rw [ids_append, List.nodup_append] at this; exact this.1) ⟨upd_same _ _ _, hc1.right⟩ (by
      intro a ha
      simp only [ids_cons, List.mem_cons, not_or]
      refine ⟨hne a (by simp [ha]), ?_⟩
      have := R.nodup
      rw [ids_append, List.nodup_append] at this
      exact fun h => this.2.2 a ha a h rfl)
  refine ⟨st0, st1, st2, ?_, hg, ?_, e2, ⟨fun b hb => by simp [st0, hb], ⟨o2, hobj⟩,
    fun a h1 h2 => by rw [hmem a h1]; simp [st1, h2], fun a h => ?_⟩, ?_, hnx⟩
  · unfold allocNode
    rw [allocC_none W.thr]
  · unfold constructNode
    simp only [M.bind_apply]
    rw [getC_some (by exact upd_same _ _ _)]
    simp only [M.bind_apply]
    rw [tick_none (by exact W.thr)]
    simp only []
    rw [setC_some (by exact upd_same _ _ _)]
    simp only [st0, upd_upd]
    rfl
  · rw [ne_eq, hal]
    simp only [st1, upd_apply]
    split
    · simp
    · rename_i hne'
      rcases h with h | h
      · exact h
      · exact absurd h hne'
  · refine W.step1 x o2 _ hobj ⟨?_, hon, hch⟩ ?_ ?_ ?_ ?_ (hth.trans W.thr)
    · have := R.nodup
      rw [ids_append, List.nodup_append] at this
      have hl : st.next ∉ ids l := by intro h; exact hne _ (by simp [h]) rfl
      have hr : st.next ∉ ids r := by intro h; exact hne _ (by simp [h]) rfl
      rw [ids_append, ids_cons, List.nodup_append]
      simp only [List.nodup_cons]
      grind
    · intro a h1 h2
      simp only [hs, Iface.oids_some, flistI_ids, ids_append, ids_cons, List.mem_append, List.mem_cons, not_or] at h1 h2
      rw [hmem a h1.1]
      simp [st1, h2.2.1]
    · intro a ha
      simp only [flistI_ids, ids_append, ids_cons, List.mem_append, List.mem_cons] at ha
      simp only [hs, Iface.oids_some, flistI_ids, ids_append, List.mem_append]
      rcases ha with h | h | h
      · exact Or.inl (Or.inl h)
      · right; rw [h]; exact Nat.le_refl _
      · exact Or.inl (Or.inr h)
    · intro a h1 h2
      simp only [hs, Iface.oids_some, flistI_ids, ids_append, ids_cons, List.mem_append, List.mem_cons, not_or] at h1 h2
      rcases h1 with h | h
      · exact absurd h h2.1
      · exact absurd h h2.2.2
    · intro a ha
      rw [hal]
      rw [hnx] at ha
      have ha' : st.next + 1 ≤ a := ha
      have : a ≠ st.next := by omega
      simp only [st1, upd_apply, this, if_false]
      exact W.fresh a (by omega)

theorem insertAfter_spec (W : FW st σ) (hs : σ x = some (l ++ r)) (v : V) :
    ∃ st', insertAfter (lstP x l) v st = .ok (.node st.next) st' ∧
      FW st' (upd σ x (some (l ++ (st.next, v) :: r))) ∧ st'.next = st.next + 1 := by
  obtain ⟨st0, st1, st', h1, h2, h3, h4, _, W', hn⟩ := insertAfter_steps W hs v
  exact ⟨st', by simp [insertAfter, h1, h2, h3, h4], W', hn⟩

theorem eraseLoop_ok {mid : List (Nat × V)} (fuel : Nat)
    (hf : mid.length < fuel) {st : FSt V} (hnd : (ids (mid ++ r)).Nodup)
    (hc : Chain st.mem (mid ++ r)) :
    eraseLoop (fstP r) fuel (fstP (mid ++ r)) st =
      .ok () { st with mem := fun a => if a ∈ ids mid then none else st.mem a } := by
  induction mid generalizing fuel st with
  | nil =>
    obtain ⟨f, rfl⟩ : ∃ f, fuel = f + 1 := ⟨fuel - 1, by simp at hf; omega⟩
    simp [eraseLoop]
  | cons e s ih =>
    obtain ⟨a, v⟩ := e
    obtain ⟨f, rfl⟩ : ∃ f, fuel = f + 1 := ⟨fuel - 1, by simp at hf; omega⟩
    simp only [List.cons_append, ids_cons, List.nodup_cons] at hnd
    have hca : st.mem a = some ⟨fstP (s ++ r), some v⟩ := hc.1
    unfold eraseLoop
    rw [if_neg (by
      simp only [List.cons_append, fstP]
      cases r with
      | nil => simp
      | cons d r => intro h; simp at h; exact hnd.1 (by simp [h]))]
    simp only [List.cons_append, fstP_cons, getNext, destroyVal, freeNode, M.bind_apply]
    rw [getC_some hca]; simp only [M.pure_apply]
    rw [getC_some hca]; simp only []
    rw [setC_some hca]; simp only []
    rw [getC_some (by exact upd_same _ _ _)]; simp only []
    rw [freeC_some (by exact upd_same _ _ _)]
    simp only [upd_upd]
    rw [ih f (by simpa using hf) hnd.2]
    · congr 2
      funext b
      simp only [upd_apply, ids_cons, List.mem_cons]
      grind
    · exact hc.2.congr (fun b hb => by
        have : b ≠ a := by rintro rfl; exact hnd.1 hb
        simp [this])

theorem eraseRange_raw {st : FSt V} {o : Obj} {mid : List (Nat × V)} (ho : st.objs x = some o)
    (R : FRep st.mem x o (l ++ (mid ++ r))) :
    ∃ st' o', (∀ fuel, mid.length < fuel → eraseRange fuel (lstP x l) (fstP r) st = .ok (fstP r) st') ∧
      st'.objs = upd st.objs x (some o') ∧ FRep st'.mem x o' (l ++ r) ∧
      (∀ a, a ∉ ids l → a ∉ ids mid → st'.mem a = st.mem a) ∧ (∀ a ∈ ids mid, st'.mem a = none) ∧
      (∀ a, st.mem a = none → st'.mem a = none) ∧
      st'.next = st.next ∧ st'.thr = st.thr := by
  have hnd := R.nodup
  have hnd1 : (ids l).Nodup ∧ (ids (mid ++ r)).Nodup ∧ ∀ a ∈ ids l, a ∉ ids (mid ++ r) := by
    rw [ids_append, List.nodup_append] at hnd
    exact ⟨hnd.1, hnd.2.1, fun a h1 h2 => hnd.2.2 a h1 a h2 rfl⟩
  have hnd2 : ∀ a ∈ ids mid, a ∉ ids r := by
    have := hnd1.2.1
    rw [ids_append, List.nodup_append] at this
    exact fun a h1 h2 => this.2.2 a h1 a h2 rfl
  have hndr : (ids (l ++ r)).Nodup := by
    have h1 := hnd1.2.1
    rw [ids_append, List.nodup_append] at h1 ⊢
    exact ⟨hnd1.1, h1.2.1, fun a ha b hb e => hnd1.2.2 a ha (by simp [e, hb])⟩
  let st1 : FSt V := { st with mem := fun a => if a ∈ ids mid then none else st.mem a }
  have hc1 : ChainTo st1.mem (fstP (mid ++ r)) l := R.chain.left.congr (fun a ha => by
    have := hnd1.2.2 a ha
    simp only [ids_append, List.mem_append, not_or] at this
    simp [st1, this.1])
  have hc2 : Chain st1.mem r := R.chain.right.right.congr (fun a ha => by
    have : a ∉ ids mid := fun h => hnd2 a h ha
    simp [st1, this])
  obtain ⟨st2, o2, e2, hobj, hon, hch, hmem, hnx, hth, hal⟩ := setNext_lst (x := x) (st := st1)
    (r' := r) ho (by rw [hdP_fst]; exact R.onext) hc1 hnd1.1 hc2 (by
      intro a ha h; exact hnd1.2.2 a ha (by simp [h]))
  refine ⟨st2, o2, ?_, hobj, ⟨hndr, hon, hch⟩, ?_, ?_, ?_, hnx, hth⟩
  · intro fuel hf
    unfold eraseRange
    simp only [M.bind_apply]
    rw [getNext_lst ho R.onext R.chain]
    simp only []
    rw [eraseLoop_ok fuel hf hnd1.2.1 R.chain.right]
    simp only []
    rw [show ({ st with mem := fun a => if a ∈ ids mid then none else st.mem a } : FSt V) = st1 from rfl, e2]
    rfl
  · intro a h1 h2
    rw [hmem a h1]; simp [st1, h2]
  · intro a ha
    rw [hal]; simp [st1, ha]
  · intro a ha
    rw [hal]; simp [st1, ha]

theorem eraseRange_spec (W : FW st σ) {mid : List (Nat × V)} (hs : σ x = some (l ++ (mid ++ r))) :
    ∃ st', (∀ fuel, mid.length < fuel → eraseRange fuel (lstP x l) (fstP r) st = .ok (fstP r) st') ∧
      FW st' (upd σ x (some (l ++ r))) ∧ st'.next = st.next := by
  obtain ⟨o, ho, R⟩ := W_rep W hs
  obtain ⟨st', o', h1, hobj, R', hmem, hgone, hnone, hnx, hth⟩ := eraseRange_raw ho R
  refine ⟨st', h1, ?_, hnx⟩
  refine W.step1 x o' _ hobj R' ?_ ?_ ?_ ?_ (hth.trans W.thr)
  · intro a h _
    simp only [hs, Iface.oids_some, flistI_ids, ids_append, List.mem_append, not_or] at h
    exact hmem a h.1 h.2.1
  · intro a h
    simp only [flistI_ids, ids_append, List.mem_append] at h
    simp only [hs, Iface.oids_some, flistI_ids, ids_append, List.mem_append]
    grind
  · intro a h h'
    simp only [flistI_ids, ids_append, List.mem_append] at h'
    simp only [hs, Iface.oids_some, flistI_ids, ids_append, List.mem_append] at h
    exact hgone a (by grind)
  · intro a ha
    rw [hnx] at ha
    exact hnone a (W.fresh a ha)

theorem eraseAfter_spec (W : FW st σ) {d : Nat × V} (hs : σ x = some (l ++ d :: r)) :
    ∃ st', eraseAfter (lstP x l) st = .ok (fstP r) st' ∧
      FW st' (upd σ x (some (l ++ r))) ∧ st'.next = st.next := by
  obtain ⟨a, v⟩ := d
  obtain ⟨o, ho, R⟩ := W_rep W hs
  have hnd := R.nodup
  rw [ids_append, ids_cons, List.nodup_append, List.nodup_cons] at hnd
  have hal' : a ∉ ids l := fun h => hnd.2.2 a h a (by simp) rfl
  have hlr : ∀ b ∈ ids l, b ∉ ids r := fun b h1 h2 => hnd.2.2 b h1 b (by simp [h2]) rfl
  obtain ⟨st2, o2, e2, hobj, hon, hch, hmem, hnx, hth, hal⟩ := setNext_lst (x := x) (st := st)
    (r' := r) ho (by rw [hdP_fst]; exact R.onext) R.chain.left hnd.1 R.chain.right.2 hlr
  have hca : st2.mem a = some ⟨fstP r, some v⟩ := by rw [hmem a hal']; exact R.chain.cell
  have hch' : Chain (upd st2.mem a none) (l ++ r) := hch.congr (fun b hb => by
    have : b ≠ a := by
      rintro rfl
      rcases (by simpa using hb : b ∈ ids l ∨ b ∈ ids r) with h | h
      · exact hal' h
      · exact hnd.2.1.1 h
    simp [this])
  refine ⟨{ st2 with mem := upd st2.mem a none }, ?_, ?_, hnx⟩
  · unfold eraseAfter
    simp only [M.bind_apply]
    rw [getNext_lst ho R.onext R.chain]
    simp only [fstP_cons]
    rw [show getNext (.node a) st = .ok (fstP r) st from by simp [getNext, R.chain.cell]]
    simp only []
    rw [e2]
    simp only [destroyVal, freeNode, M.bind_apply]
    rw [getC_some hca]; simp only []
    rw [setC_some hca]; simp only []
    rw [getC_some (by exact upd_same _ _ _)]; simp only []
    rw [freeC_some (by exact upd_same _ _ _)]
    simp only [upd_upd]
    exact getNext_lst (st := { st2 with mem := upd st2.mem a none }) (o := o2)
      (by show st2.objs x = _; rw [hobj]; exact upd_same _ _ _) hon hch'
  · refine W.step1 x o2 _ hobj ⟨?_, hon, hch'⟩ ?_ ?_ ?_ ?_ (hth.trans W.thr)
    · rw [ids_append, List.nodup_append]
      exact ⟨hnd.1, hnd.2.1.2, fun b h1 c h2 e => hlr b h1 (e ▸ h2)⟩
    · intro b h _
      simp only [hs, Iface.oids_some, flistI_ids, ids_append, ids_cons, List.mem_append, List.mem_cons, not_or] at h
      simp only [upd_apply, h.2.1, if_false]
      exact hmem b h.1
    · intro b h
      simp only [flistI_ids, ids_append, List.mem_append] at h
      simp only [hs, Iface.oids_some, flistI_ids, ids_append, ids_cons, List.mem_append, List.mem_cons]
      grind
    · intro b h h'
      simp only [flistI_ids, ids_append, List.mem_append] at h'
      simp only [hs, Iface.oids_some, flistI_ids, ids_append, ids_cons, List.mem_append, List.mem_cons] at h
      have : b = a := by grind
      simp [this]
    · intro b hb
      have hb' : st.next ≤ b := by rw [← hnx]; exact hb
      have : st2.mem b = none := by rw [hal]; exact W.fresh b hb'
      simp [this]

theorem clear_spec (W : FW st σ) (hs : σ x = some s) :
    ∃ st', (∀ fuel, s.length < fuel → clear fuel x st = .ok () st') ∧ FW st' (upd σ x (some [])) ∧
      st'.next = st.next := by
  obtain ⟨st', h1, W1, hn⟩ := eraseRange_spec (l := []) (mid := s) (r := []) W (by simpa using hs)
  refine ⟨st', ?_, by simpa using W1, hn⟩
  intro fuel hf
  have := h1 fuel hf
  simp only [lstP_nil, fstP] at this
  simp [clear, before_spec W hs, end_, this]

theorem dtor_spec (W : FW st σ) (hs : σ x = some s) :
    ∃ st', (∀ fuel, s.length < fuel → dtor fuel x st = .ok () st') ∧ FW st' (upd σ x none) ∧
      st'.next = st.next := by
  obtain ⟨st1, h1, W1, hn⟩ := eraseRange_spec (l := []) (mid := s) (r := []) W (by simpa using hs)
  obtain ⟨o, ho, R⟩ := W_rep W1 (upd_same _ _ _)
  refine ⟨{ st1 with objs := upd st1.objs x none }, ?_, ?_, hn⟩
  · intro fuel hf
    have := h1 fuel hf
    simp only [lstP_nil, fstP] at this
    unfold dtor
    simp only [M.bind_apply, before_spec W hs, end_, this]
    rw [delObj_some ho]
  · have := W1.stepDel (st' := { st1 with objs := upd st1.objs x none }) x rfl (fun _ _ => rfl)
      (by simp) W1.fresh W1.thr
    rwa [upd_upd] at this

theorem popFront_spec (W : FW st σ) {d : Nat × V} (hs : σ x = some (d :: r)) :
    ∃ st', popFront x st = .ok () st' ∧ FW st' (upd σ x (some r)) ∧ st'.next = st.next := by
  obtain ⟨st', h1, W1, hn⟩ := eraseAfter_spec (l := []) (d := d) (r := r) W (by simpa using hs)
  rw [lstP_nil] at h1
  exact ⟨st', by simp [popFront, before_spec W hs, h1], W1, hn⟩

theorem pushFront_spec (W : FW st σ) (hs : σ x = some s) (v : V) :
    ∃ st', pushFront x v st = .ok () st' ∧ FW st' (upd σ x (some ((st.next, v) :: s))) ∧
      st'.next = st.next + 1 := by
  obtain ⟨st', h1, W1, hn⟩ := insertAfter_spec (l := []) (r := s) W (by simpa using hs) v
  rw [lstP_nil] at h1
  exact ⟨st', by simp [pushFront, before_spec W hs, h1], W1, hn⟩

theorem front_spec (W : FW st σ) {a : Nat} {v : V} (hs : σ x = some ((a, v) :: r)) :
    front x st = .ok v st := by
  obtain ⟨o, ho, R⟩ := W_rep W hs
  simp [front, getNext, ho, R.onext, fstP, getVal, R.chain.1]

theorem empty_spec (W : FW st σ) (hs : σ x = some s) : empty x st = .ok s.isEmpty st := by
  simp only [empty, M.bind_apply, begin_spec W hs, M.pure_apply]
  cases s <;> rfl

theorem setVal_spec (W : FW st σ) {a : Nat} {v w : V} (hs : σ x = some (l ++ (a, v) :: r)) :
    ∃ st', setVal (.node a) w st = .ok () st' ∧ FW st' (upd σ x (some (l ++ (a, w) :: r))) ∧
      st'.next = st.next := by
  obtain ⟨o, ho, R⟩ := W_rep W hs
  have hnd := R.nodup
  rw [ids_append, ids_cons, List.nodup_append, List.nodup_cons] at hnd
  have hal' : a ∉ ids l := fun h => hnd.2.2 a h a (by simp) rfl
  have hca := R.chain.cell
  refine ⟨{ st with mem := upd st.mem a (some ⟨fstP r, some w⟩) }, ?_, ?_, rfl⟩
  · simp [setVal, hca, W.thr]
  · have hl : ChainTo st.mem (fstP r) (l ++ [(a, v)]) := by
      have := R.chain; rw [List.append_cons] at this; exact this.left
    refine W.step1 x o _ (by simp [upd_eq_self ho]) ⟨by simpa using R.nodup, ?_,
      hl.relink hal' R.chain.right.2 hnd.2.1.1⟩ ?_ ?_ ?_ ?_ W.thr
    · rw [R.onext]; cases l <;> rfl
    · intro b h _
      simp only [hs, Iface.oids_some, flistI_ids, ids_append, ids_cons, List.mem_append, List.mem_cons, not_or] at h
      simp [h.2.1]
    · intro b h; left; simpa [hs] using h
    · intro b h h'; exact absurd (by simpa [hs] using h) h'
    · intro b hb
      have : b ≠ a := by
        rintro rfl
        have := W_idlt W hs (a := b) (by simp)
        have : st.next ≤ b := hb
        omega
      simp only [upd_apply, this, if_false]
      exact W.fresh b hb

theorem swap_spec (W : FW st σ) {y : Nat} {t : List (Nat × V)} (hs : σ x = some s) (ht : σ y = some t) :
    ∃ st', swap x y st = .ok () st' ∧ FW st' (upd (upd σ x (some t)) y (some s)) ∧ st'.next = st.next := by
  obtain ⟨o, ho, R⟩ := W_rep W hs
  obtain ⟨p, hp, Q⟩ := W_rep W ht
  by_cases hxy : x = y
  · subst hxy
    rw [hs] at ht; cases ht
    rw [ho] at hp; cases hp
    refine ⟨st, ?_, ?_, rfl⟩
    · simp only [swap, M.bind_apply, getObj_some ho]
      rw [setObj_some ho]
      simp only []
      rw [getObj_some (by exact upd_same _ _ _)]
      simp only []
      rw [setObj_some (by exact upd_same _ _ _)]
      simp only [upd_eq_self ho]
    · rw [upd_upd, upd_eq_self hs]; exact W
  · refine ⟨{ st with objs := upd (upd st.objs x (some ⟨p.next⟩)) y (some ⟨o.next⟩) }, ?_, ?_, rfl⟩
    · simp only [swap, M.bind_apply, getObj_some ho, getObj_some hp]
      rw [setObj_some ho]
      simp only []
      rw [getObj_some (o := p) (by simp [Ne.symm hxy, hp])]
      simp only []
      rw [setObj_some (o := p) (by simp [Ne.symm hxy, hp])]
    · refine W.step2 hxy ⟨p.next⟩ ⟨o.next⟩ t s rfl rfl rfl W.thr ⟨Q.nodup, Q.onext, Q.chain⟩
        ⟨R.nodup, R.onext, R.chain⟩ ?_ ?_
      · intro a; simp only [hs, ht, Iface.oids_some]; exact Or.comm
      · intro a h1 h2
        exact hxy (W.disj x y a (by rw [hs]; exact h2) (by rw [ht]; exact h1))

theorem walk_spec (W : FW st σ) {r : List (Nat × V)} : ∀ {l : List (Nat × V)}, σ x = some (l ++ r) →
    ∀ fuel, r.length < fuel → walk fuel (fstP r) st = .ok (r.map Prod.snd) st := by
  induction r with
  | nil =>
    intro l hs fuel hf
    obtain ⟨f, rfl⟩ : ∃ f, fuel = f + 1 := ⟨fuel - 1, by simp at hf; omega⟩
    simp [walk, end_, fstP]
  | cons e r ih =>
    obtain ⟨a, v⟩ := e
    intro l hs fuel hf
    obtain ⟨f, rfl⟩ : ∃ f, fuel = f + 1 := ⟨fuel - 1, by simp at hf; omega⟩
    unfold walk
    rw [if_neg (by simp [fstP, end_])]
    have hi := inc_spec (x := x) (l := l ++ [(a, v)]) (r := r) W (by simp [hs])
    rw [lstP_concat] at hi
    simp only [M.bind_apply, fstP_cons, deref_spec W hs, hi]
    rw [ih (l := l ++ [(a, v)]) (by simp [hs]) f (by simp at hf; omega)]
    simp

theorem toList_spec (W : FW st σ) (hs : σ x = some s) {fuel : Nat} (hf : s.length < fuel) :
    toList fuel x st = .ok (s.map Prod.snd) st := by
  simp only [toList, M.bind_apply, begin_spec W hs]
  exact walk_spec (l := []) W hs fuel hf

theorem copyLoop_spec {y : Nat} {t2 : List (Nat × V)} {x : Nat} (hxy : x ≠ y) :
    ∀ {st : FSt V} {σ : Nat → Option (List (Nat × V))} {s t1 : List (Nat × V)}, FW st σ →
    σ x = some s → σ y = some (t1 ++ t2) →
    ∃ st', (∀ fuel, t2.length < fuel → copyLoop fuel (lstP y t1) (lstP x s) st = .ok () st') ∧
      FW st' (upd σ x (some (s ++ number st.next (t2.map Prod.snd)))) ∧
      st'.next = st.next + t2.length := by
  induction t2 with
  | nil =>
    intro st σ s t1 W hx hy
    refine ⟨st, ?_, ?_, rfl⟩
    · intro fuel hf
      obtain ⟨f, rfl⟩ : ∃ f, fuel = f + 1 := ⟨fuel - 1, by simp at hf; omega⟩
      unfold copyLoop
      simp only [M.bind_apply]
      rw [show getNext (lstP y t1) st = _ from inc_spec W hy]
      simp [fstP]
    · simp only [List.map_nil, number, List.append_nil]
      rw [upd_eq_self hx]; exact W
  | cons e t2 ih =>
    obtain ⟨a, v⟩ := e
    intro st σ s t1 W hx hy
    obtain ⟨sa, sb, st1, g1, g2, g3, g4, ⟨g5, _⟩, W1, hn1⟩ :=
      insertAfter_steps (l := s) (r := []) W (by simpa using hx) v
    have hy1 : (upd σ x (some (s ++ [(st.next, v)]))) y = some (t1 ++ (a, v) :: t2) := by
      simp [Ne.symm hxy, hy]
    obtain ⟨st2, h2, W2, hn2⟩ := ih (s := s ++ [(st.next, v)]) (t1 := t1 ++ [(a, v)]) W1
      (upd_same _ _ _) (by rw [hy1]; simp)
    refine ⟨st2, ?_, ?_, by rw [hn2, hn1, List.length_cons]; omega⟩
    · intro fuel hf
      obtain ⟨f, rfl⟩ : ∃ f, fuel = f + 1 := ⟨fuel - 1, by simp at hf; omega⟩
      unfold copyLoop
      simp only [M.bind_apply]
      rw [show getNext (lstP y t1) st = _ from inc_spec W hy]
      simp only []
      rw [if_neg (by simp [fstP])]
      simp only [fstP_cons]
      obtain ⟨o, ho, R⟩ := W_rep W hy
      have hca : sa.mem a = some ⟨fstP t2, some v⟩ := by
        have := W_idlt W hy (a := a) (by simp)
        rw [g5 a (by omega)]; exact R.chain.cell
      have e1 : getVal (.node a) sa = .ok v sa := by simp [getVal, hca]
      have e2 : getNext (lstP y t1) st1 = .ok (.node a) st1 := inc_spec W1 hy1
      have e3 : getNext (lstP x s) st1 = .ok (.node st.next) st1 :=
        inc_spec (x := x) (l := s) W1 (upd_same _ _ _)
      simp only [fstP] at g3
      simp only [M.bind_apply, g1, e1, g3, g4, e2, e3]
      have := h2 f (by simpa using hf)
      rwa [lstP_concat, lstP_concat] at this
    · rw [upd_upd, hn1] at W2
      simpa [number] using W2

theorem copyCtor_spec (W : FW st σ) {y : Nat} {t : List (Nat × V)} (hx : σ x = none)
    (hy : σ y = some t) :
    ∃ st', (∀ fuel, t.length < fuel → copyCtor fuel x y st = .ok () st') ∧
      FW st' (upd σ x (some (number st.next (t.map Prod.snd)))) ∧ st'.next = st.next + t.length := by
  have hxy : x ≠ y := by rintro rfl; rw [hx] at hy; cases hy
  obtain ⟨st1, h1, W1, hn1⟩ := ctor_spec W hx
  have hy1 : (upd σ x (some [])) y = some ([] ++ t) := by simp [Ne.symm hxy, hy]
  obtain ⟨st2, h2, W2, hn2⟩ := copyLoop_spec hxy W1 (upd_same _ _ _) hy1
  refine ⟨st2, ?_, ?_, by omega⟩
  · intro fuel hf
    unfold copyCtor
    simp only [M.bind_apply, h1]
    apply M.onThrow_of_ok
    exact h2 fuel hf
  · rw [upd_upd, hn1] at W2
    simpa using W2

theorem number_length (i : Nat) (vs : List V) : (number i vs).length = vs.length := by
  induction vs generalizing i with
  | nil => rfl
  | cons v vs ih => simp [number, ih]

/-- Assignment, including self-assignment (`y = x`). -/
theorem assign_spec (W : FW st σ) {y t : Nat} {s' : List (Nat × V)} (hx : σ x = some s)
    (hy : σ y = some s') (ht : σ t = none) :
    ∃ st', (∀ fuel, s.length < fuel → s'.length < fuel → assign fuel x y t st = .ok () st') ∧
      FW st' (upd σ x (some (number st.next (s'.map Prod.snd)))) ∧ st'.next = st.next + s'.length := by
  have hxt : x ≠ t := by rintro rfl; rw [hx] at ht; cases ht
  obtain ⟨st1, h1, W1, hn1⟩ := copyCtor_spec W ht hy
  obtain ⟨st2, h2, W2, hn2⟩ := swap_spec (x := x) (y := t) (s := s) W1 (by simp [hxt, hx]) (upd_same _ _ _)
  obtain ⟨st3, h3, W3, hn3⟩ := dtor_spec W2 (upd_same _ _ _)
  refine ⟨st3, ?_, ?_, by omega⟩
  · intro fuel hf hf'
    simp only [assign, M.bind_apply, h1 fuel hf', h2]
    exact h3 fuel hf
  · have : upd (upd (upd (upd σ t (some (number st.next (s'.map Prod.snd)))) x
        (some (number st.next (s'.map Prod.snd)))) t (some s)) t none =
        upd σ x (some (number st.next (s'.map Prod.snd))) := by
      funext z
      simp only [upd_apply]
      by_cases h : z = t
      · subst h; simp [Ne.symm hxt, ht]
      · simp [h]
    rwa [this] at W3

end
end Cest.FL
