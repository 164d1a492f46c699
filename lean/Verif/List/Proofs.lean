import Verif.List.Path
import Verif.List.Spec
/-
Representation of sequences by cest::list and correctness of every method (helper lemmas).
-/
namespace Cest.Lst
open Cest
variable {V : Type}

/-- Pointers visited by ++ from the sentinel of `x`, ending at the sentinel. -/
def ptrs (x : Nat) (s : List (Nat × V)) : List Ptr := s.map (fun e => Ptr.node e.1) ++ [.head x]

/-- Pointer to the first element, or to the sentinel. -/
def fstP (x : Nat) : List (Nat × V) → Ptr
  | [] => .head x
  | (a, _) :: _ => .node a

theorem fstP_cons {x a : Nat} {v : V} {r : List (Nat × V)} : fstP x ((a, v) :: r) = .node a := rfl

/-- Pointer to the last element, or to the sentinel. -/
def lstP (x : Nat) (s : List (Nat × V)) : Ptr := (s.map (fun e => Ptr.node e.1)).getLastD (.head x)

def ids (s : List (Nat × V)) : List Nat := s.map Prod.fst

def Vals (mem : Nat → Option (Cell V)) (s : List (Nat × V)) : Prop :=
  ∀ e ∈ s, ∃ c, mem e.1 = some c ∧ c.val = some e.2

structure LRep (mem : Nat → Option (Cell V)) (x : Nat) (o : Obj) (s : List (Nat × V)) : Prop where
  size : o.size = s.length
  nodup : (ids s).Nodup
  vals : Vals mem s
  path : Path (nxF mem x o) (pvF mem x o) (.head x) (ptrs x s)

theorem mem_ptrs {x : Nat} {s : List (Nat × V)} {p : Ptr} :
    p ∈ ptrs x s ↔ p = .head x ∨ ∃ a ∈ ids s, p = .node a := by
  simp only [ptrs, ids, List.mem_append, List.mem_map, List.mem_singleton]
  constructor
  · rintro (⟨e, he, rfl⟩ | rfl)
    · exact Or.inr ⟨e.1, ⟨e, he, rfl⟩, rfl⟩
    · exact Or.inl rfl
  · rintro (rfl | ⟨a, ⟨e, he, rfl⟩, rfl⟩)
    · exact Or.inr rfl
    · exact Or.inl ⟨e, he, rfl⟩

def listI (V : Type) : Iface Obj (Cell V) (List (Nat × V)) where
  ids := ids
  Rep := LRep
  loc := by
    intro m m' x o s h hm
    refine ⟨h.size, h.nodup, ?_, h.path.congr ?_ ?_⟩
    · intro e he
      rw [hm e.1 (List.mem_map_of_mem he)]; exact h.vals e he
    · intro r hr
      have := List.dropLast_subset _ hr
      rcases List.mem_cons.1 this with rfl | h1
      · simp [nxF]
      · rcases mem_ptrs.1 h1 with rfl | ⟨a, ha, rfl⟩
        · simp [nxF]
        · simp [nxF, hm a ha]
    · intro r hr
      rcases mem_ptrs.1 hr with rfl | ⟨a, ha, rfl⟩
      · simp [pvF]
      · simp [pvF, hm a ha]
  alloc := by
    intro m x o s h a ha
    obtain ⟨e, he, rfl⟩ := List.mem_map.1 ha
    obtain ⟨c, hc, _⟩ := h.vals e he
    simp [hc]

abbrev LW (st : LSt V) (σ : Nat → Option (List (Nat × V))) : Prop := World (listI V) st σ

@[simp] theorem listI_ids (s : List (Nat × V)) : (listI V).ids s = ids s := rfl

theorem mem_ids {s : List (Nat × V)} {a : Nat} : a ∈ ids s ↔ ∃ v, (a, v) ∈ s := by
  simp [ids]
@[simp] theorem ids_nil : ids ([] : List (Nat × V)) = [] := rfl
@[simp] theorem ids_cons {e : Nat × V} {s : List (Nat × V)} : ids (e :: s) = e.1 :: ids s := rfl
@[simp] theorem ids_append {s t : List (Nat × V)} : ids (s ++ t) = ids s ++ ids t := by simp [ids]

theorem ptrs_split (x : Nat) (l r : List (Nat × V)) :
    ptrs x (l ++ r) = l.map (fun e => Ptr.node e.1) ++ fstP x r :: (ptrs x r).tail := by
  cases r with
  | nil => simp [ptrs, fstP]
  | cons e r => simp [ptrs, fstP]

theorem nodup_map_node {s : List (Nat × V)} (h : (ids s).Nodup) :
    (s.map (fun e => Ptr.node e.1)).Nodup := by
  induction s with
  | nil => simp
  | cons e s ih =>
    simp only [ids_cons, List.nodup_cons, List.map_cons] at h ⊢
    refine ⟨?_, ih h.2⟩
    intro hm
    obtain ⟨e', he, h'⟩ := List.mem_map.1 hm
    injection h' with h'
    apply h.1
    rw [← h']
    exact List.mem_map_of_mem he

theorem ptrs_nodup {x : Nat} {s : List (Nat × V)} (h : (ids s).Nodup) : (ptrs x s).Nodup := by
  unfold ptrs
  rw [List.nodup_append]
  refine ⟨nodup_map_node h, by simp, ?_⟩
  intro p hp q hq
  obtain ⟨e, _, rfl⟩ := List.mem_map.1 hp
  simp at hq; subst hq; simp

theorem src_nodup {x : Nat} {s : List (Nat × V)} (h : (ids s).Nodup) :
    (Ptr.head x :: ptrs x s).dropLast.Nodup := by
  unfold ptrs
  rw [← List.cons_append, List.dropLast_concat, List.nodup_cons]
  exact ⟨by simp, nodup_map_node h⟩

/-- The cell of every element. -/
theorem LRep.cell {mem : Nat → Option (Cell V)} {x : Nat} {o : Obj} {l r : List (Nat × V)} {a : Nat}
    {v : V} (h : LRep mem x o (l ++ (a, v) :: r)) : mem a = some ⟨fstP x r, lstP x l, some v⟩ := by
  obtain ⟨c, hc, hv⟩ := h.vals (a, v) (by simp)
  have p1 := h.path
  rw [ptrs_split x l ((a, v) :: r)] at p1
  have m1 := p1.mid
  have p2 := h.path
  have e : l ++ (a, v) :: r = (l ++ [(a, v)]) ++ r := by simp
  rw [e, ptrs_split x (l ++ [(a, v)]) r] at p2
  have m2 := p2.mid
  simp only [fstP, pvF, hc, Option.map_some, Option.some.injEq] at m1
  simp only [List.map_append, List.map_cons, List.map_nil, List.getLastD_concat, nxF, hc,
    Option.map_some, Option.some.injEq] at m2
  simp only at hc
  rw [hc]
  congr 1
  cases c
  simp only at hv m1 m2
  rw [hv, m1.2, m2.1]; rfl

theorem LRep.onext {mem : Nat → Option (Cell V)} {x : Nat} {o : Obj} {s : List (Nat × V)}
    (h : LRep mem x o s) : o.next = fstP x s := by
  have p := h.path
  have := ptrs_split x [] s
  simp only [List.nil_append, List.map_nil] at this
  rw [this] at p
  simpa [nxF] using p.1

theorem LRep.oprev {mem : Nat → Option (Cell V)} {x : Nat} {o : Obj} {s : List (Nat × V)}
    (h : LRep mem x o s) : o.prev = lstP x s := by
  have p := h.path
  have := ptrs_split x s []
  simp only [List.append_nil] at this
  rw [this] at p
  have := p.mid.2
  simp only [pvF, fstP, if_true, Option.some.injEq] at this
  exact this

/-- Representation from the machine state. -/
theorem W_rep {st : LSt V} {σ : Nat → Option (List (Nat × V))} (W : LW st σ) {x : Nat}
    {s : List (Nat × V)} (hs : σ x = some s) :
    ∃ o, st.objs x = some o ∧ LRep st.mem x o s := W.rep x s hs

theorem W_idlt {st : LSt V} {σ : Nat → Option (List (Nat × V))} (W : LW st σ) {x : Nat}
    {s : List (Nat × V)} (hs : σ x = some s) {a : Nat} (ha : a ∈ ids s) : a < st.next :=
  W.lt_next (x := x) (by simpa [hs] using ha)

theorem ctor_spec {st : LSt V} {σ : Nat → Option (List (Nat × V))} (W : LW st σ) {x : Nat}
    (hx : σ x = none) : ∃ st', ctor x st = .ok () st' ∧ LW st' (upd σ x (some [])) ∧
      st'.next = st.next := by
  refine ⟨{ st with objs := upd st.objs x (some ⟨.head x, .head x, 0⟩) }, ?_, ?_, rfl⟩
  · simp [ctor, W.dom x hx]
  · refine W.step1 x ⟨.head x, .head x, 0⟩ [] rfl ⟨rfl, by simp, ?_, ?_⟩ (fun _ _ _ => rfl) (by simp)
      (by simp [hx]) W.fresh W.thr
    · intro e he; simp at he
    · simp [ptrs, Path, nxF, pvF]

theorem fst_mem {x : Nat} {l r : List (Nat × V)} : ∀ a, fstP x r = .node a → a ∈ ids (l ++ r) := by
  intro a h
  cases r with
  | nil => simp [fstP] at h
  | cons e r => simp [fstP] at h; subst h; simp

theorem lst_mem {x : Nat} {l r : List (Nat × V)} : ∀ a, lstP x l = .node a → a ∈ ids (l ++ r) := by
  intro a h
  have := getLastD_mem (Ptr.head x) (l.map (fun e => Ptr.node e.1))
  unfold lstP at h
  rw [h] at this
  simp at this
  obtain ⟨v, hv⟩ := this
  rw [ids_append]
  exact List.mem_append_left _ (mem_ids.2 ⟨v, hv⟩)

theorem insert_spec {st : LSt V} {σ : Nat → Option (List (Nat × V))} (W : LW st σ) {x : Nat}
    {l r : List (Nat × V)} (hs : σ x = some (l ++ r)) (v : V) :
    ∃ st', insert x (fstP x r) v st = .ok (.node st.next) st' ∧
      LW st' (upd σ x (some (l ++ (st.next, v) :: r))) ∧ st'.next = st.next + 1 := by
  obtain ⟨o, ho, R⟩ := W_rep W hs
  have hlt : ∀ a, a ∈ ids (l ++ r) → a < st.next := fun a ha => W_idlt W hs ha
  have hfr : st.mem st.next = none := W.fresh _ (Nat.le_refl _)
  let n := st.next
  let A : Nat → Prop := fun a => a = n ∨ a ∈ ids (l ++ r)
  let st1 : LSt V := ⟨st.objs, upd st.mem n (some ⟨.node n, .node n, some v⟩), n + 1, st.thr⟩
  -- links of st1
  have nx1 : ∀ t, nxF st1.mem x o t = if t = .node n then some (.node n) else nxF st.mem x o t := by
    intro t; cases t <;> simp [nxF, st1]; split <;> simp_all
  have pv1 : ∀ t, pvF st1.mem x o t = if t = .node n then some (.node n) else pvF st.mem x o t := by
    intro t; cases t <;> simp [pvF, st1]; split <;> simp_all
  have P := R.path
  rw [ptrs_split x l r] at P
  obtain ⟨mid1, mid2⟩ := P.mid
  rw [show (l.map (fun e => Ptr.node e.1)).getLastD (.head x) = lstP x l from rfl] at mid1 mid2
  have hfn : fstP x r ≠ .node n := by
    intro h; have := hlt _ (fst_mem (l := l) n h); omega
  have hln : lstP x l ≠ .node n := by
    intro h; have := hlt _ (lst_mem (r := r) n h); omega
  -- the four link assignments
  obtain ⟨st2, o2, e2, S2, nx2, pv2⟩ := setNext_eq (st := st1) (o := o) (x := x) (by exact ho)
    (p := .node n) (q := fstP x r) (r := .node n) (by simp [nx1]) A (by intro a h; simp at h; exact Or.inl h.symm)
  have g2 := getPrev_eq S2.obj (p := fstP x r) (q := lstP x l) (by rw [pv2, pv1, if_neg hfn, mid2])
  obtain ⟨st3, o3, e3, S3, nx3, pv3⟩ := setPrev_eq S2.obj (p := .node n) (q := lstP x l)
    (r := .node n) (by rw [pv2, pv1, if_pos rfl]) A (by intro a h; simp at h; exact Or.inl h.symm)
  have g3 := getPrev_eq S3.obj (p := fstP x r) (q := lstP x l)
    (by rw [pv3, if_neg hfn, pv2, pv1, if_neg hfn, mid2])
  obtain ⟨st4, o4, e4, S4, nx4, pv4⟩ := setNext_eq S3.obj (p := lstP x l) (q := .node n)
    (r := fstP x r) (by rw [nx3, nx2, if_neg hln, nx1, if_neg hln, mid1]) A
    (fun a h => Or.inr (lst_mem a h))
  obtain ⟨st5, o5, e5, S5, nx5, pv5⟩ := setPrev_eq S4.obj (p := fstP x r) (q := .node n)
    (r := lstP x l) (by rw [pv4, pv3, if_neg hfn, pv2, pv1, if_neg hfn, mid2]) A
    (fun a h => Or.inr (fst_mem a h))
  have S := ((S2.trans S3).trans S4).trans S5
  refine ⟨{ st5 with objs := upd st5.objs x (some { o5 with size := o5.size + 1 }) }, ?_, ?_, ?_⟩
  · unfold insert allocNode constructNode
    simp only [M.bind_apply]
    rw [allocC_none W.thr]
    simp only []
    rw [getC_some (by exact upd_same _ _ _)]
    simp only [M.bind_apply]
    rw [tick_none (by exact W.thr)]
    simp only []
    rw [setC_some (by exact upd_same _ _ _)]
    simp only [upd_upd]
    rw [show (⟨st.objs, upd st.mem st.next (some ⟨.node st.next, .node st.next, some v⟩), st.next + 1,
      st.thr⟩ : LSt V) = st1 from rfl]
    rw [e2]; simp only []
    rw [g2]; simp only []
    rw [e3]; simp only []
    rw [g3]; simp only []
    rw [e4]; simp only []
    rw [e5]; simp only []
    rw [getObj_some S5.obj]; simp only []
    rw [setObj_some S5.obj]; rfl
  · refine W.step1 x { o5 with size := o5.size + 1 } _ ?_ ?_ ?_ ?_ ?_ ?_ ?_
    · simp only [S.objs, upd_upd]; rfl
    · refine ⟨?_, ?_, ?_, ?_⟩
      · simp only [S.size, R.size, List.length_append, List.length_cons]; omega
      · have := R.nodup
        rw [ids_append] at this ⊢
        rw [ids_cons, List.nodup_append] at *
        have hl : n ∉ ids l := by intro h; have := hlt n (by simp [h]); omega
        have hr : n ∉ ids r := by intro h; have := hlt n (by simp [h]); omega
        simp only [List.nodup_cons]
        grind
      · intro e he
        have hv := S.val e.1
        by_cases hen : e.1 = n
        · have : e = (n, v) := by
            simp only [List.mem_append, List.mem_cons] at he
            rcases he with h | h | h
            · exact absurd (hlt e.1 (by rw [ids_append]; exact List.mem_append_left _ (mem_ids.2 ⟨e.2, h⟩))) (by omega)
            · exact h
            · exact absurd (hlt e.1 (by rw [ids_append]; exact List.mem_append_right _ (mem_ids.2 ⟨e.2, h⟩))) (by omega)
          subst this
          simp only [st1, upd_same, Option.map_some, Option.map_eq_some_iff] at hv
          obtain ⟨c, h1, h2⟩ := hv
          exact ⟨c, h1, h2⟩
        · have hm : e ∈ l ++ r := by
            simp only [List.mem_append, List.mem_cons] at he ⊢
            rcases he with h | h | h
            · exact Or.inl h
            · subst h; exact absurd rfl hen
            · exact Or.inr h
          obtain ⟨c, h1, h2⟩ := R.vals e hm
          simp only [st1, upd_apply, hen, if_false, h1, Option.map_some, Option.map_eq_some_iff] at hv
          obtain ⟨c', h1', h2'⟩ := hv
          exact ⟨c', h1', by rw [h2', h2]⟩
      · have hn : (Ptr.node n) ∉ Ptr.head x :: (l.map (fun e => Ptr.node e.1) ++ fstP x r :: (ptrs x r).tail) := by
          rw [← ptrs_split]
          intro h
          rcases List.mem_cons.1 h with h | h
          · simp at h
          · rcases mem_ptrs.1 h with h | ⟨a, ha, h⟩
            · simp at h
            · simp at h; subst h; have := hlt _ ha; omega
        have Q := P.insert (n := Ptr.node n) (nx' := nxF st5.mem x o5) (pv' := pvF st5.mem x o5)
          (by rw [← ptrs_split]; exact src_nodup R.nodup)
          (by rw [← ptrs_split]; exact ptrs_nodup R.nodup) hn
          (by
            intro t
            rw [nx5, nx4, nx3, nx2, nx1]
            rw [show (l.map (fun e => Ptr.node e.1)).getLastD (.head x) = lstP x l from rfl]
            by_cases h1 : t = lstP x l
            · simp [h1]
            · by_cases h2 : t = .node n
              · simp [h2]
              · simp [h1, h2])
          (by
            intro t
            rw [pv5, pv4, pv3, pv2, pv1]
            rw [show (l.map (fun e => Ptr.node e.1)).getLastD (.head x) = lstP x l from rfl]
            by_cases h1 : t = fstP x r
            · simp [h1]
            · by_cases h2 : t = .node n
              · simp [h2]
              · simp [h1, h2])
        have hp : ptrs x (l ++ (n, v) :: r) =
            l.map (fun e => Ptr.node e.1) ++ Ptr.node n :: fstP x r :: (ptrs x r).tail := by
          rw [ptrs_split]
          congr 1
          have := ptrs_split x [] r
          simp only [List.nil_append, List.map_nil] at this
          simp only [fstP]
          congr 1
        rw [hp]
        exact Q
    · intro a h1 h2
      have hA : ¬ A a := by
        simp only [hs, Iface.oids_some, listI_ids] at h1 h2
        rintro (h | h)
        · subst h; simp at h2; exact h2.2.1 rfl
        · exact h1 h
      show st5.mem a = st.mem a
      rw [S.mem a hA]
      have : a ≠ n := fun h => hA (Or.inl h)
      simp [st1, this]
    · intro a ha
      simp only [listI_ids, ids_append, ids_cons, List.mem_append, List.mem_cons] at ha
      simp only [hs, Iface.oids_some, listI_ids, ids_append, List.mem_append]
      rcases ha with h | h | h
      · exact Or.inl (Or.inl h)
      · right; rw [h]; exact Nat.le_refl _
      · exact Or.inl (Or.inr h)
    · intro a h1 h2
      simp [hs] at h1 h2
      rcases h1 with h | h
      · exact absurd h h2.1
      · exact absurd h h2.2.2
    · intro a ha
      show st5.mem a = none
      have h5 : st5.next = n + 1 := S.next
      have ha' : n + 1 ≤ a := by rw [← h5]; exact ha
      have hA : ¬ A a := by
        rintro (h | h)
        · omega
        · have := hlt a h; omega
      rw [S.mem a hA]
      have : a ≠ n := by omega
      simp only [st1, upd_apply, this, if_false]
      exact W.fresh a (by omega)
    · exact S.thr.trans W.thr
  · exact S.next

theorem emplace_eq : @emplace V = @insert V := rfl

theorem erase_spec {st : LSt V} {σ : Nat → Option (List (Nat × V))} (W : LW st σ) {x : Nat}
    {l r : List (Nat × V)} {a : Nat} {v : V} (hs : σ x = some (l ++ (a, v) :: r)) :
    ∃ st', erase x (.node a) st = .ok (fstP x r) st' ∧
      LW st' (upd σ x (some (l ++ r))) ∧ st'.next = st.next := by
  obtain ⟨o, ho, R⟩ := W_rep W hs
  have hcell := R.cell
  have hnd := R.nodup
  let A : Nat → Prop := fun b => b ∈ ids (l ++ (a, v) :: r)
  let o1 : Obj := { o with size := o.size - 1 }
  let st1 : LSt V := { st with objs := upd st.objs x (some o1) }
  have ho1 : st1.objs x = some o1 := upd_same _ _ _
  have hnx1 : nxF st1.mem x o1 = nxF st.mem x o := rfl
  have hpv1 : pvF st1.mem x o1 = pvF st.mem x o := rfl
  have P := R.path
  have hp : ptrs x (l ++ (a, v) :: r) =
      l.map (fun e => Ptr.node e.1) ++ Ptr.node a :: fstP x r :: (ptrs x r).tail := by
    rw [ptrs_split]
    congr 1
    have := ptrs_split x [] r
    simp only [List.nil_append, List.map_nil] at this
    simp only [fstP]
    congr 1
  rw [hp] at P
  obtain ⟨mid1, mid2⟩ := P.mid
  rw [show (l.map (fun e => Ptr.node e.1)).getLastD (.head x) = lstP x l from rfl] at mid1 mid2
  have hfa : fstP x r ≠ .node a := by
    intro h
    have h1 : a ∈ ids r := by simpa using fst_mem (l := []) a h
    rw [ids_append, ids_cons, List.nodup_append] at hnd
    exact (List.nodup_cons.1 hnd.2.1).1 h1
  have hla : lstP x l ≠ .node a := by
    intro h
    have h1 : a ∈ ids l := by simpa using lst_mem (r := []) a h
    rw [ids_append, ids_cons, List.nodup_append] at hnd
    exact hnd.2.2 a h1 a (by simp) rfl
  obtain ⟨st2, o2, e2, S2, nx2, pv2⟩ := setNext_eq ho1 (p := lstP x l) (q := fstP x r)
    (r := .node a) (by rw [hnx1, mid1]) A (fun b h => lst_mem b h)
  have hpq : pvF st.mem x o (fstP x r) = some (.node a) := by
    have P2 := Path.append.1 P
    exact P2.2.2.1
  obtain ⟨st3, o3, e3, S3, nx3, pv3⟩ := setPrev_eq S2.obj (p := fstP x r) (q := lstP x l)
    (r := .node a) (by rw [pv2, hpv1, hpq]) A (fun b h => by
      have := fst_mem (l := l ++ [(a, v)]) b h
      simpa [A] using this)
  have S := S2.trans S3
  have hv3 : ∃ c3, st3.mem a = some c3 ∧ c3.val = some v := by
    have := S.val a
    simp only [st1, hcell, Option.map_some, Option.map_eq_some_iff] at this
    obtain ⟨c, h1, h2⟩ := this
    exact ⟨c, h1, h2⟩
  obtain ⟨c3, hc3, hcv3⟩ := hv3
  refine ⟨{ st3 with mem := upd st3.mem a none }, ?_, ?_, ?_⟩
  · unfold erase unhook destroyVal freeNode
    simp only [M.bind_apply]
    rw [getObj_some ho]; simp only []
    rw [setObj_some ho]; simp only []
    rw [show (⟨upd st.objs x (some ⟨o.next, o.prev, o.size - 1⟩), st.mem, st.next, st.thr⟩ : LSt V) =
      st1 from rfl]
    have gn : getNext (.node a) st1 = .ok (fstP x r) st1 := by simp [getNext, st1, hcell]
    have gp : getPrev (.node a) st1 = .ok (lstP x l) st1 := by simp [getPrev, st1, hcell]
    rw [gn]; simp only []
    rw [gn]; simp only []
    rw [gp]; simp only []
    rw [e2]; simp only []
    rw [e3]; simp only []
    rw [getC_some hc3]
    simp only [hcv3]
    rw [setC_some hc3]; simp only []
    rw [getC_some (by exact upd_same _ _ _)]; simp only []
    rw [freeC_some (by exact upd_same _ _ _)]
    simp [upd_upd]
  · refine W.step1 x o3 _ ?_ ?_ ?_ ?_ ?_ ?_ ?_
    · simp only [S.objs, st1, upd_upd]
    · have hnd' := hnd
      rw [ids_append, ids_cons, List.nodup_append] at hnd'
      have hne : ∀ e ∈ l ++ r, e.1 ≠ a := by
        intro e he h
        rcases List.mem_append.1 he with h1 | h1
        · exact hnd'.2.2 e.1 (mem_ids.2 ⟨e.2, h1⟩) a (by simp) h
        · exact (List.nodup_cons.1 hnd'.2.1).1 (h ▸ mem_ids.2 ⟨e.2, h1⟩)
      refine ⟨?_, ?_, ?_, ?_⟩
      · rw [S.size]; simp only [o1, R.size, List.length_append, List.length_cons]; omega
      · rw [ids_append, List.nodup_append]
        exact ⟨hnd'.1, (List.nodup_cons.1 hnd'.2.1).2,
          fun p hp q hq => hnd'.2.2 p hp q (List.mem_cons_of_mem _ hq)⟩
      · intro e he
        have hne' := hne e he
        obtain ⟨c, h1, h2⟩ := R.vals e (by
          simp only [List.mem_append, List.mem_cons] at he ⊢
          rcases he with h | h
          · exact Or.inl h
          · exact Or.inr (Or.inr h))
        have hv := S.val e.1
        simp only [st1, h1, Option.map_some, Option.map_eq_some_iff] at hv
        obtain ⟨c', h1', h2'⟩ := hv
        refine ⟨c', ?_, by rw [h2', h2]⟩
        simp only [upd_apply, hne', if_false]
        exact h1'
      · rw [ptrs_split]
        refine P.erase ?_ ?_ ?_ ?_
        · rw [← hp]; exact src_nodup hnd
        · rw [← hp]; exact ptrs_nodup hnd
        · intro t ht
          have : nxF (upd st3.mem a none) x o3 t = nxF st3.mem x o3 t := by
            cases t with
            | null => rfl
            | head _ => rfl
            | node b => have : b ≠ a := by rintro rfl; exact ht rfl
                        simp [nxF, this]
          show nxF (upd st3.mem a none) x o3 t = _
          rw [this, nx3, nx2]; rfl
        · intro t ht
          have : pvF (upd st3.mem a none) x o3 t = pvF st3.mem x o3 t := by
            cases t with
            | null => rfl
            | head _ => rfl
            | node b => have : b ≠ a := by rintro rfl; exact ht rfl
                        simp [pvF, this]
          show pvF (upd st3.mem a none) x o3 t = _
          rw [this, pv3, pv2]; rfl
    · intro b h1 h2
      simp only [hs, Iface.oids_some, listI_ids] at h1 h2
      have : b ≠ a := by rintro rfl; simp at h1
      simp only [upd_apply, this, if_false]
      rw [S.mem b h1]
    · intro b hb
      left
      simp only [hs, Iface.oids_some, listI_ids, ids_append, ids_cons, List.mem_append, List.mem_cons] at hb ⊢
      rcases hb with h | h
      · exact Or.inl h
      · exact Or.inr (Or.inr h)
    · intro b h1 h2
      simp [hs] at h1 h2
      rcases h1 with h | h | h
      · exact absurd h h2.1
      · simp [h]
      · exact absurd h h2.2
    · intro b hb
      have hA : ¬ A b := fun h => by
        have := W_idlt W hs h
        have h3 : st3.next = st.next := S.next
        have hb' : st3.next ≤ b := hb
        omega
      simp only [upd_apply]
      split
      · rfl
      · rw [S.mem b hA]
        have h3 : st3.next = st.next := S.next
        have hb' : st3.next ≤ b := hb
        exact W.fresh b (by omega)
    · exact S.thr.trans W.thr
  · exact S.next

/-! ### Loops -/

theorem clearLoop_ok {x : Nat} {s : List (Nat × V)} (fuel : Nat) (hf : s.length < fuel)
    {st : LSt V} (hnd : (ids s).Nodup)
    (hc : ∀ l a v r, s = l ++ (a, v) :: r → ∃ c, st.mem a = some c ∧ c.next = fstP x r ∧ c.val = some v) :
    clearLoop x fuel (fstP x s) st =
      .ok () { st with mem := fun a => if a ∈ ids s then none else st.mem a } := by
  induction s generalizing fuel st with
  | nil =>
    obtain ⟨f, rfl⟩ : ∃ f, fuel = f + 1 := ⟨fuel - 1, by simp at hf; omega⟩
    simp [clearLoop, fstP]
  | cons e s ih =>
    obtain ⟨a, v⟩ := e
    obtain ⟨f, rfl⟩ : ∃ f, fuel = f + 1 := ⟨fuel - 1, by simp at hf; omega⟩
    obtain ⟨c, h1, h2, h3⟩ := hc [] a v s rfl
    simp only [ids_cons, List.nodup_cons] at hnd
    unfold clearLoop
    rw [if_neg (by simp [fstP])]
    simp only [fstP, getNext, destroyVal, freeNode, M.bind_apply]
    rw [getC_some h1]; simp only [M.pure_apply]
    rw [getC_some h1]; simp only [h3]
    rw [setC_some h1]; simp only []
    rw [getC_some (by exact upd_same _ _ _)]; simp only []
    rw [freeC_some (by exact upd_same _ _ _)]
    simp only [upd_upd]
    rw [h2, ih f (by simp at hf; omega) hnd.2]
    · congr 2
      funext b
      simp only [upd_apply, ids_cons, List.mem_cons]
      by_cases hb : b = a
      · subst hb; simp
      · simp [hb]
    · intro l b w r hs
      obtain ⟨c', h1', h2', h3'⟩ := hc ((a, v) :: l) b w r (by rw [hs]; rfl)
      have : b ≠ a := by
        rintro rfl
        exact hnd.1 (by rw [hs]; simp)
      exact ⟨c', by simp [this, h1'], h2', h3'⟩

theorem LRep.chain {mem : Nat → Option (Cell V)} {x : Nat} {o : Obj} {s : List (Nat × V)}
    (R : LRep mem x o s) : ∀ l a v r, s = l ++ (a, v) :: r →
      ∃ c, mem a = some c ∧ c.next = fstP x r ∧ c.val = some v := by
  intro l a v r h
  subst h
  exact ⟨_, R.cell, rfl, rfl⟩

theorem clear_raw {st : LSt V} {x : Nat} {o : Obj} {s : List (Nat × V)} (ho : st.objs x = some o)
    (R : LRep st.mem x o s) {fuel : Nat} (hf : s.length < fuel) :
    clear fuel x st = .ok () ⟨upd st.objs x (some ⟨.head x, .head x, 0⟩),
      fun a => if a ∈ ids s then none else st.mem a, st.next, st.thr⟩ := by
  unfold clear
  simp only [M.bind_apply, getNext, setNext, setPrev]
  rw [getObj_some ho]; simp only [M.pure_apply]
  rw [R.onext, clearLoop_ok fuel hf R.nodup R.chain]; simp only []
  rw [getObj_some (by exact ho)]; simp only []
  rw [setObj_some (by exact ho)]; simp only []
  rw [getObj_some (by exact upd_same _ _ _)]; simp only []
  rw [setObj_some (by exact upd_same _ _ _)]; simp only []
  rw [getObj_some (by exact upd_same _ _ _)]; simp only []
  rw [setObj_some (by exact upd_same _ _ _)]
  simp only [upd_upd]

theorem clear_spec {st : LSt V} {σ : Nat → Option (List (Nat × V))} (W : LW st σ) {x : Nat}
    {s : List (Nat × V)} (hs : σ x = some s) :
    ∃ st', (∀ fuel, s.length < fuel → clear fuel x st = .ok () st') ∧ LW st' (upd σ x (some [])) ∧
      st'.next = st.next := by
  obtain ⟨o, ho, R⟩ := W_rep W hs
  refine ⟨_, fun fuel hf => clear_raw ho R hf, ?_, rfl⟩
  refine W.step1 x ⟨.head x, .head x, 0⟩ [] rfl ⟨rfl, by simp, ?_, ?_⟩ ?_ (by simp) ?_ ?_ W.thr
  · intro e he; simp at he
  · simp [ptrs, Path, nxF, pvF]
  · intro a h1 _
    simp only [hs, Iface.oids_some, listI_ids] at h1
    simp [h1]
  · intro a h1 _
    simp only [hs, Iface.oids_some, listI_ids] at h1
    simp [h1]
  · intro a ha
    simp only []
    split
    · rfl
    · exact W.fresh a ha

theorem dtor_spec {st : LSt V} {σ : Nat → Option (List (Nat × V))} (W : LW st σ) {x : Nat}
    {s : List (Nat × V)} (hs : σ x = some s) :
    ∃ st', (∀ fuel, s.length < fuel → dtor fuel x st = .ok () st') ∧ LW st' (upd σ x none) ∧
      st'.next = st.next := by
  obtain ⟨st1, h1, W1, hn⟩ := clear_spec W hs
  obtain ⟨o, ho, R⟩ := W_rep W1 (upd_same _ _ _)
  refine ⟨{ st1 with objs := upd st1.objs x none }, ?_, ?_, hn⟩
  · intro fuel hf
    unfold dtor
    simp only [M.bind_apply, h1 fuel hf]
    rw [delObj_some ho]
  · have := W1.stepDel (st' := { st1 with objs := upd st1.objs x none }) x rfl (fun _ _ => rfl)
      (by simp) W1.fresh W1.thr
    rwa [upd_upd] at this

theorem begin_spec {st : LSt V} {σ : Nat → Option (List (Nat × V))} (W : LW st σ) {x : Nat}
    {s : List (Nat × V)} (hs : σ x = some s) : begin_ x st = .ok (fstP x s) st := by
  obtain ⟨o, ho, R⟩ := W_rep W hs
  simp [begin_, getNext, ho, R.onext]

theorem end_spec {st : LSt V} {σ : Nat → Option (List (Nat × V))} (W : LW st σ) {x : Nat}
    {s : List (Nat × V)} (hs : σ x = some s) : end_ x st = .ok (.head x) st := by
  obtain ⟨o, ho, R⟩ := W_rep W hs
  simp [end_, ho]

theorem cell_spec {st : LSt V} {σ : Nat → Option (List (Nat × V))} (W : LW st σ) {x : Nat}
    {l r : List (Nat × V)} {a : Nat} {v : V} (hs : σ x = some (l ++ (a, v) :: r)) :
    st.mem a = some ⟨fstP x r, lstP x l, some v⟩ := by
  obtain ⟨o, ho, R⟩ := W_rep W hs
  exact R.cell

theorem deref_spec {st : LSt V} {σ : Nat → Option (List (Nat × V))} (W : LW st σ) {x : Nat}
    {l r : List (Nat × V)} {a : Nat} {v : V} (hs : σ x = some (l ++ (a, v) :: r)) :
    deref (.node a) st = .ok v st := by
  simp [deref, getVal, cell_spec W hs]

theorem inc_spec {st : LSt V} {σ : Nat → Option (List (Nat × V))} (W : LW st σ) {x : Nat}
    {l r : List (Nat × V)} {a : Nat} {v : V} (hs : σ x = some (l ++ (a, v) :: r)) :
    inc (.node a) st = .ok (fstP x r) st := by
  simp [inc, getNext, cell_spec W hs]

theorem dec_spec {st : LSt V} {σ : Nat → Option (List (Nat × V))} (W : LW st σ) {x : Nat}
    {l r : List (Nat × V)} (hs : σ x = some (l ++ r)) :
    dec (fstP x r) st = .ok (lstP x l) st := by
  cases r with
  | nil =>
    obtain ⟨o, ho, R⟩ := W_rep W hs
    rw [List.append_nil] at R
    simp [dec, getPrev, fstP, ho, R.oprev]
  | cons e r =>
    obtain ⟨a, v⟩ := e
    simp [dec, getPrev, fstP, cell_spec W hs]

theorem setVal_spec {st : LSt V} {σ : Nat → Option (List (Nat × V))} (W : LW st σ) {x : Nat}
    {l r : List (Nat × V)} {a : Nat} {v w : V} (hs : σ x = some (l ++ (a, v) :: r)) :
    ∃ st', setVal (.node a) w st = .ok () st' ∧ LW st' (upd σ x (some (l ++ (a, w) :: r))) ∧
      st'.next = st.next := by
  obtain ⟨o, ho, R⟩ := W_rep W hs
  have hc := R.cell
  refine ⟨{ st with mem := upd st.mem a (some ⟨fstP x r, lstP x l, some w⟩) }, ?_, ?_, rfl⟩
  · simp [setVal, hc, W.thr]
  · refine W.step1 x o _ (by simp [upd_eq_self ho]) ⟨?_, ?_, ?_, ?_⟩ ?_ ?_ ?_ ?_ W.thr
    · simpa using R.size
    · simpa using R.nodup
    · intro e he
      by_cases hea : e.1 = a
      · have : e = (a, w) := by
          have hnd := R.nodup
          rw [ids_append, ids_cons, List.nodup_append] at hnd
          rcases List.mem_append.1 he with h | h
          · exact absurd hea (hnd.2.2 e.1 (mem_ids.2 ⟨e.2, h⟩) a (by simp))
          · rcases List.mem_cons.1 h with h | h
            · exact h
            · exact absurd (hea ▸ mem_ids.2 ⟨e.2, h⟩) (List.nodup_cons.1 hnd.2.1).1
        subst this
        exact ⟨_, upd_same _ _ _, rfl⟩
      · obtain ⟨c, h1, h2⟩ := R.vals e (by
          rcases List.mem_append.1 he with h | h
          · simp [h]
          · rcases List.mem_cons.1 h with h | h
            · subst h; exact absurd rfl hea
            · simp [h])
        exact ⟨c, by simp [hea, h1], h2⟩
    · have hp : ptrs x (l ++ (a, w) :: r) = ptrs x (l ++ (a, v) :: r) := by simp [ptrs]
      rw [hp]
      refine R.path.congr ?_ ?_
      · intro t _
        cases t with
        | null => rfl
        | head _ => rfl
        | node b =>
          simp only [nxF, upd_apply]
          split
          · rename_i h; subst h; simp [hc]
          · rfl
      · intro t _
        cases t with
        | null => rfl
        | head _ => rfl
        | node b =>
          simp only [pvF, upd_apply]
          split
          · rename_i h; subst h; simp [hc]
          · rfl
    · intro b h1 _
      simp only [hs, Iface.oids_some, listI_ids] at h1
      have : b ≠ a := by rintro rfl; simp at h1
      simp [this]
    · intro b hb; left; simpa [hs] using hb
    · intro b h1 h2
      simp [hs] at h1 h2
      rcases h1 with h | h | h
      · exact absurd h h2.1
      · exact absurd h h2.2.1
      · exact absurd h h2.2.2
    · intro b hb
      have := W_idlt W hs (a := a) (by simp)
      have hb' : st.next ≤ b := hb
      have h3 : b ≠ a := by omega
      simp only [upd_apply, h3, if_false]
      exact W.fresh b hb

theorem size_spec {st : LSt V} {σ : Nat → Option (List (Nat × V))} (W : LW st σ) {x : Nat}
    {s : List (Nat × V)} (hs : σ x = some s) : size x st = .ok s.length st := by
  obtain ⟨o, ho, R⟩ := W_rep W hs
  simp [size, ho, R.size]

theorem empty_spec {st : LSt V} {σ : Nat → Option (List (Nat × V))} (W : LW st σ) {x : Nat}
    {s : List (Nat × V)} (hs : σ x = some s) : empty x st = .ok s.isEmpty st := by
  obtain ⟨o, ho, R⟩ := W_rep W hs
  simp only [empty, M.bind_apply, getObj_some ho, R.size, M.pure_apply]
  cases s <;> rfl

theorem front_spec {st : LSt V} {σ : Nat → Option (List (Nat × V))} (W : LW st σ) {x : Nat}
    {r : List (Nat × V)} {a : Nat} {v : V} (hs : σ x = some ((a, v) :: r)) :
    front x st = .ok v st := by
  simp only [front, M.bind_apply, begin_spec W hs, fstP]
  exact deref_spec (l := []) W hs

theorem lstP_concat {x : Nat} {l : List (Nat × V)} {a : Nat} {v : V} :
    lstP x (l ++ [(a, v)]) = .node a := by
  simp only [lstP, List.map_append, List.map_cons, List.map_nil, List.getLastD_concat]

theorem back_spec {st : LSt V} {σ : Nat → Option (List (Nat × V))} (W : LW st σ) {x : Nat}
    {l : List (Nat × V)} {a : Nat} {v : V} (hs : σ x = some (l ++ [(a, v)])) :
    back x st = .ok v st := by
  have hd := dec_spec (l := l ++ [(a, v)]) (r := []) W (by rw [hs]; simp)
  simp only [fstP] at hd
  simp only [back, M.bind_apply, end_spec W hs, hd, lstP_concat]
  exact deref_spec W hs

theorem pushBack_spec {st : LSt V} {σ : Nat → Option (List (Nat × V))} (W : LW st σ) {x : Nat}
    {s : List (Nat × V)} (hs : σ x = some s) (v : V) :
    ∃ st', pushBack x v st = .ok () st' ∧ LW st' (upd σ x (some (s ++ [(st.next, v)]))) ∧
      st'.next = st.next + 1 := by
  obtain ⟨st', h1, W1, hn⟩ := insert_spec (l := s) (r := []) W (by rw [hs]; simp) v
  exact ⟨st', by simp only [pushBack, M.bind_apply, end_spec W hs]; simp only [fstP] at h1; simp [h1], W1, hn⟩

theorem pushFront_spec {st : LSt V} {σ : Nat → Option (List (Nat × V))} (W : LW st σ) {x : Nat}
    {s : List (Nat × V)} (hs : σ x = some s) (v : V) :
    ∃ st', pushFront x v st = .ok () st' ∧ LW st' (upd σ x (some ((st.next, v) :: s))) ∧
      st'.next = st.next + 1 := by
  obtain ⟨st', h1, W1, hn⟩ := insert_spec (l := []) (r := s) W (by rw [hs]; simp) v
  exact ⟨st', by simp only [pushFront, M.bind_apply, begin_spec W hs]; simp [h1], W1, hn⟩

theorem emplaceBack_spec {st : LSt V} {σ : Nat → Option (List (Nat × V))} (W : LW st σ) {x : Nat}
    {s : List (Nat × V)} (hs : σ x = some s) (v : V) :
    ∃ st', emplaceBack x v st = .ok v st' ∧ LW st' (upd σ x (some (s ++ [(st.next, v)]))) ∧
      st'.next = st.next + 1 := by
  obtain ⟨st', h1, W1, hn⟩ := insert_spec (l := s) (r := []) W (by rw [hs]; simp) v
  refine ⟨st', ?_, W1, hn⟩
  simp only [emplaceBack, M.bind_apply, end_spec W hs, emplace_eq]
  simp only [fstP] at h1
  simp only [h1]
  exact back_spec W1 (upd_same _ _ _)

theorem emplaceFront_spec {st : LSt V} {σ : Nat → Option (List (Nat × V))} (W : LW st σ) {x : Nat}
    {s : List (Nat × V)} (hs : σ x = some s) (v : V) :
    ∃ st', emplaceFront x v st = .ok v st' ∧ LW st' (upd σ x (some ((st.next, v) :: s))) ∧
      st'.next = st.next + 1 := by
  obtain ⟨st', h1, W1, hn⟩ := insert_spec (l := []) (r := s) W (by rw [hs]; simp) v
  refine ⟨st', ?_, W1, hn⟩
  simp only [emplaceFront, M.bind_apply, begin_spec W hs, emplace_eq, h1]
  exact front_spec W1 (upd_same _ _ _)

theorem popFront_spec {st : LSt V} {σ : Nat → Option (List (Nat × V))} (W : LW st σ) {x : Nat}
    {s : List (Nat × V)} {e : Nat × V} (hs : σ x = some (e :: s)) :
    ∃ st', popFront x st = .ok () st' ∧ LW st' (upd σ x (some s)) ∧ st'.next = st.next := by
  obtain ⟨a, v⟩ := e
  obtain ⟨st', h1, W1, hn⟩ := erase_spec (l := []) (r := s) W hs
  exact ⟨st', by simp only [popFront, M.bind_apply, begin_spec W hs]; simp [fstP, h1], W1, hn⟩

theorem popBack_spec {st : LSt V} {σ : Nat → Option (List (Nat × V))} (W : LW st σ) {x : Nat}
    {s : List (Nat × V)} {e : Nat × V} (hs : σ x = some (s ++ [e])) :
    ∃ st', popBack x st = .ok () st' ∧ LW st' (upd σ x (some s)) ∧ st'.next = st.next := by
  obtain ⟨a, v⟩ := e
  obtain ⟨st', h1, W1, hn⟩ := erase_spec (l := s) (r := []) W hs
  obtain ⟨o, ho, R⟩ := W_rep W hs
  have hp : getPrev (.head x) st = .ok (.node a) st := by
    simp only [getPrev, M.bind_apply, getObj_some ho, R.oprev, lstP_concat, M.pure_apply]
  rw [List.append_nil] at W1
  exact ⟨st', by simp only [popBack, M.bind_apply, hp]; simp [h1], W1, hn⟩

theorem copyLoop_spec {y : Nat} {t1 t2 : List (Nat × V)} {x : Nat} (hxy : x ≠ y) :
    ∀ {st : LSt V} {σ : Nat → Option (List (Nat × V))} {s : List (Nat × V)}, LW st σ →
    σ x = some s → σ y = some (t1 ++ t2) →
    ∃ st', (∀ fuel, t2.length < fuel → copyLoop x y fuel (fstP y t2) st = .ok () st') ∧
      LW st' (upd σ x (some (s ++ number st.next (t2.map Prod.snd)))) ∧
      st'.next = st.next + t2.length := by
  induction t2 generalizing t1 with
  | nil =>
    intro st σ s W hx hy
    refine ⟨st, ?_, ?_, rfl⟩
    · intro fuel hf
      obtain ⟨f, rfl⟩ : ∃ f, fuel = f + 1 := ⟨fuel - 1, by simp at hf; omega⟩
      unfold copyLoop
      simp [end_spec W hy, fstP]
    · simp only [List.map_nil, number, List.append_nil]
      rw [upd_eq_self hx]; exact W
  | cons e t2 ih =>
    obtain ⟨a, v⟩ := e
    intro st σ s W hx hy
    obtain ⟨st1, h1, W1, hn1⟩ := pushBack_spec W hx v
    have hy1 : (upd σ x (some (s ++ [(st.next, v)]))) y = some (t1 ++ (a, v) :: t2) := by
      simp [Ne.symm hxy, hy]
    obtain ⟨st2, h2, W2, hn2⟩ := ih (t1 := t1 ++ [(a, v)]) W1 (upd_same _ _ _) (by rw [hy1]; simp)
    refine ⟨st2, ?_, ?_, by rw [hn2, hn1, List.length_cons]; omega⟩
    · intro fuel hf
      obtain ⟨f, rfl⟩ : ∃ f, fuel = f + 1 := ⟨fuel - 1, by simp at hf; omega⟩
      unfold copyLoop
      simp only [M.bind_apply, end_spec W hy]
      rw [if_neg (by simp [fstP])]
      simp only [M.bind_apply, fstP_cons, deref_spec W hy, h1, inc_spec W1 hy1]
      exact h2 f (by simp at hf; omega)
    · rw [upd_upd, hn1] at W2
      simpa [number] using W2

theorem copyCtor_spec {st : LSt V} {σ : Nat → Option (List (Nat × V))} (W : LW st σ) {x y : Nat}
    {t : List (Nat × V)} (hx : σ x = none) (hy : σ y = some t) :
    ∃ st', (∀ fuel, t.length < fuel → copyCtor fuel x y st = .ok () st') ∧
      LW st' (upd σ x (some (number st.next (t.map Prod.snd)))) ∧ st'.next = st.next + t.length := by
  have hxy : x ≠ y := by rintro rfl; rw [hx] at hy; cases hy
  obtain ⟨st1, h1, W1, hn1⟩ := ctor_spec W hx
  have hy1 : (upd σ x (some [])) y = some ([] ++ t) := by simp [Ne.symm hxy, hy]
  obtain ⟨st2, h2, W2, hn2⟩ := copyLoop_spec hxy W1 (upd_same _ _ _) hy1
  refine ⟨st2, ?_, ?_, by omega⟩
  · intro fuel hf
    unfold copyCtor
    simp only [M.bind_apply, h1]
    apply M.onThrow_of_ok
    simp only [M.bind_apply, begin_spec W1 hy1, List.nil_append]
    exact h2 fuel hf
  · rw [upd_upd, hn1] at W2
    simpa using W2

theorem assign_spec {st : LSt V} {σ : Nat → Option (List (Nat × V))} (W : LW st σ) {x y : Nat}
    {s t : List (Nat × V)} (hxy : x ≠ y) (hx : σ x = some s) (hy : σ y = some t) :
    ∃ st', (∀ fuel, s.length < fuel → t.length < fuel → assign fuel x y st = .ok () st') ∧
      LW st' (upd σ x (some (number st.next (t.map Prod.snd)))) ∧ st'.next = st.next + t.length := by
  obtain ⟨st1, h1, W1, hn1⟩ := clear_spec W hx
  have hy1 : (upd σ x (some [])) y = some ([] ++ t) := by simp [Ne.symm hxy, hy]
  obtain ⟨st2, h2, W2, hn2⟩ := copyLoop_spec hxy W1 (upd_same _ _ _) hy1
  refine ⟨st2, ?_, ?_, by omega⟩
  · intro fuel hf hf'
    unfold assign
    simp only [M.bind_apply, h1 fuel hf, begin_spec W1 hy1, List.nil_append]
    exact h2 fuel hf'
  · rw [upd_upd, hn1] at W2
    simpa using W2

theorem assign_self {st : LSt V} {σ : Nat → Option (List (Nat × V))} (W : LW st σ) {x : Nat}
    {s : List (Nat × V)} (hx : σ x = some s) :
    ∃ st', (∀ fuel, s.length < fuel → assign fuel x x st = .ok () st') ∧ LW st' (upd σ x (some [])) := by
  obtain ⟨st1, h1, W1, hn1⟩ := clear_spec W hx
  refine ⟨st1, ?_, W1⟩
  intro fuel hf
  obtain ⟨f, rfl⟩ : ∃ f, fuel = f + 1 := ⟨fuel - 1, by omega⟩
  unfold assign
  simp only [M.bind_apply, h1 _ hf, begin_spec W1 (upd_same _ _ _)]
  unfold copyLoop
  simp [end_spec W1 (upd_same _ _ _), fstP]

theorem walk_spec {st : LSt V} {σ : Nat → Option (List (Nat × V))} (W : LW st σ) {x : Nat}
    {r : List (Nat × V)} : ∀ {l : List (Nat × V)}, σ x = some (l ++ r) →
    ∀ fuel, r.length < fuel → walk x fuel (fstP x r) st = .ok (r.map Prod.snd) st := by
  induction r with
  | nil =>
    intro l hs fuel hf
    obtain ⟨f, rfl⟩ : ∃ f, fuel = f + 1 := ⟨fuel - 1, by simp at hf; omega⟩
    unfold walk
    simp [end_spec W hs, fstP]
  | cons e r ih =>
    obtain ⟨a, v⟩ := e
    intro l hs fuel hf
    obtain ⟨f, rfl⟩ : ∃ f, fuel = f + 1 := ⟨fuel - 1, by simp at hf; omega⟩
    unfold walk
    simp only [M.bind_apply, end_spec W hs]
    rw [if_neg (by simp [fstP])]
    simp only [M.bind_apply, fstP_cons, deref_spec W hs, inc_spec W hs]
    rw [ih (l := l ++ [(a, v)]) (by simp [hs]) f (by simp at hf; omega)]
    simp

theorem toList_spec {st : LSt V} {σ : Nat → Option (List (Nat × V))} (W : LW st σ) {x : Nat}
    {s : List (Nat × V)} (hs : σ x = some s) {fuel : Nat} (hf : s.length < fuel) :
    toList fuel x st = .ok (s.map Prod.snd) st := by
  simp only [toList, M.bind_apply, begin_spec W hs]
  exact walk_spec (l := []) W hs fuel hf

theorem rev_ind {α : Type} {p : List α → Prop} (h0 : p []) (h1 : ∀ l a, p l → p (l ++ [a])) :
    ∀ l, p l := by
  intro l
  have : ∀ n, ∀ l : List α, l.length = n → p l := by
    intro n
    induction n with
    | zero => intro l hl; rw [List.length_eq_zero_iff.1 hl]; exact h0
    | succ n ih =>
      intro l hl
      have hne : l ≠ [] := by rintro rfl; simp at hl
      rw [← List.dropLast_concat_getLast hne]
      exact h1 _ _ (ih _ (by simp [hl]))
  exact this _ l rfl

theorem walkBack_spec {st : LSt V} {σ : Nat → Option (List (Nat × V))} (W : LW st σ) {x : Nat}
    (l : List (Nat × V)) : ∀ {r : List (Nat × V)}, σ x = some (l ++ r) →
    ∀ fuel, l.length < fuel → walkBack x fuel (fstP x r) st = .ok (l.map Prod.snd).reverse st := by
  induction l using rev_ind with
  | h0 =>
    intro r hs fuel hf
    obtain ⟨f, rfl⟩ : ∃ f, fuel = f + 1 := ⟨fuel - 1, by simp at hf; omega⟩
    unfold walkBack
    simp [begin_spec W hs]
  | h1 l e ih =>
    obtain ⟨a, v⟩ := e
    intro r hs fuel hf
    obtain ⟨f, rfl⟩ : ∃ f, fuel = f + 1 := ⟨fuel - 1, by simp at hf; omega⟩
    unfold walkBack
    have hne : fstP x r ≠ fstP x (l ++ [(a, v)] ++ r) := by
      obtain ⟨o, ho, R⟩ := W_rep W hs
      have hnd := R.nodup
      cases l with
      | nil =>
        cases r with
        | nil => simp [fstP]
        | cons e r => simp [fstP] at hnd ⊢; intro h; exact absurd h.symm hnd.1.1
      | cons e' l =>
        cases r with
        | nil => simp [fstP]
        | cons e r => simp [fstP] at hnd ⊢; intro h; exact absurd h.symm (by grind)
    simp only [M.bind_apply, begin_spec W hs]
    rw [if_neg hne]
    have hs' : σ x = some (l ++ (a, v) :: r) := by simp [hs]
    simp only [M.bind_apply, dec_spec W hs, lstP_concat, deref_spec W hs']
    have := ih (r := (a, v) :: r) hs' f (by simp at hf; omega)
    simp only [fstP] at this
    rw [this]
    simp

theorem toListRev_spec {st : LSt V} {σ : Nat → Option (List (Nat × V))} (W : LW st σ) {x : Nat}
    {s : List (Nat × V)} (hs : σ x = some s) {fuel : Nat} (hf : s.length < fuel) :
    toListRev fuel x st = .ok (s.map Prod.snd).reverse st := by
  simp only [toListRev, M.bind_apply, end_spec W hs]
  exact walkBack_spec W s (r := []) (by simp [hs]) fuel hf

end Cest.Lst
