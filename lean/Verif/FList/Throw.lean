import Verif.FList.Proofs
/-
Exceptions thrown by allocations and element copies inside forward_list members (helper lemmas).
-/
namespace Cest.FL
open Cest
variable {V : Type}

/-- The machine state with the throw countdown set. -/
def arm (st : FSt V) (k : Option Nat) : FSt V := ⟨st.objs, st.mem, st.next, k⟩

theorem getNext_arm {st : FSt V} {p q : Ptr} {k : Option Nat} (h : getNext p st = .ok q st) :
    getNext p (arm st k) = .ok q (arm st k) := by
  cases p with
  | null => simp [getNext] at h
  | head x =>
    cases ho : st.objs x with
    | none => simp [getNext, getObj, ho] at h
    | some o =>
      simp [getNext, ho] at h ⊢
      simp [getObj, arm, ho, h]
  | node a =>
    cases ho : st.mem a with
    | none => simp [getNext, getC, ho] at h
    | some o =>
      simp [getNext, ho] at h ⊢
      simp [getC, arm, ho, h]

theorem getVal_arm {st : FSt V} {a : Nat} {k : Option Nat} {c : Cell V} {v : V} (h : st.mem a = some c)
    (hv : c.val = some v) : getVal (.node a) (arm st k) = .ok v (arm st k) := by
  simp [getVal, getC, arm, h, hv]

theorem setNext_arm {st st' : FSt V} {p q : Ptr} {k : Option Nat} (h : setNext p q st = .ok () st') :
    setNext p q (arm st k) = .ok () (arm st' k) := by
  cases p with
  | null => simp [setNext] at h
  | head x =>
    cases ho : st.objs x with
    | none => simp [setNext, getObj, ho] at h
    | some o =>
      simp [setNext, ho] at h
      subst h
      simp [setNext, getObj, setObj, arm, ho]
  | node a =>
    cases ho : st.mem a with
    | none => simp [setNext, getC, ho] at h
    | some o =>
      simp [setNext, ho] at h
      subst h
      simp [setNext, getC, setC, arm, ho]

theorem alloc_arm {st st' : FSt V} {n k : Nat} (ht : st.thr = none) (h : allocNode st = .ok n st') :
    allocNode (arm st (some (k+1))) = .ok n (arm st' (some k)) := by
  simp only [allocNode, allocC_none ht] at h
  cases h
  simp [allocNode, allocC, tick, arm]

theorem construct_arm {st st' : FSt V} {a k : Nat} {v : V} {q : Ptr} (ht : st.thr = none)
    (h : constructNode a v q st = .ok () st') :
    constructNode a v q (arm st (some (k+1))) = .ok () (arm st' (some k)) := by
  cases ho : st.mem a with
  | none => simp [constructNode, getC, ho] at h
  | some c =>
    cases hv : c.val with
    | some w => simp [constructNode, ho, hv] at h
    | none =>
      simp [constructNode, ho, hv, tick, ht] at h
      subst h
      simp [constructNode, getC, setC, ho, hv, tick, arm]

theorem construct_throw {st st' : FSt V} {a : Nat} {v : V} {q : Ptr}
    (h : constructNode a v q st = .ok () st') :
    constructNode a v q (arm st (some 0)) = .throw .elem (arm st none) := by
  cases ho : st.mem a with
  | none => simp [constructNode, getC, ho] at h
  | some c =>
    cases hv : c.val with
    | some w => simp [constructNode, ho, hv] at h
    | none => simp [constructNode, getC, ho, hv, tick, arm]

/-- What a failed copy loop leaves behind. -/
structure Failed (x : Nat) (s : List (Nat × V)) (st st' : FSt V) (k : Nat) : Prop where
  thr : st'.thr = none
  objs : ∃ o, st'.objs = upd st.objs x (some o)
  frame : ∀ a, a < st.next → a ∉ ids s → st'.mem a = st.mem a
  mono : ∀ a, st.mem a ≠ none → st'.mem a ≠ none
  next : st'.next = st.next + (k+1)/2
  leak : ∀ a, st.next ≤ a → a < st'.next → st'.mem a ≠ none
  fresh : ∀ a, st'.next ≤ a → st'.mem a = none

theorem copyLoop_throw {y : Nat} {t2 : List (Nat × V)} {x : Nat} (hxy : x ≠ y) :
    ∀ {st : FSt V} {σ : Nat → Option (List (Nat × V))} {s t1 : List (Nat × V)} {k : Nat}, FW st σ →
    σ x = some s → σ y = some (t1 ++ t2) → k < 2 * t2.length →
    ∃ ex st', (∀ fuel, t2.length < fuel →
        copyLoop fuel (lstP y t1) (lstP x s) (arm st (some k)) = .throw ex st') ∧
      ex = (if k % 2 = 0 then .badAlloc else .elem) ∧ Failed x s st st' k := by
  induction t2 with
  | nil => intro st σ s t1 k _ _ _ hk; simp at hk
  | cons e t2 ih =>
    obtain ⟨a, v⟩ := e
    intro st σ s t1 k W hx hy hk
    obtain ⟨sa, sb, st1, g1, g2, g3, g4, ⟨g5, ⟨o1, g6⟩, g7, g8⟩, W1, hn1⟩ :=
      insertAfter_steps (l := s) (r := []) W (by simpa using hx) v
    obtain ⟨ox, hox, Rx⟩ := W_rep W hx
    have hgn : ∀ kk, getNext (lstP y t1) (arm st kk) = .ok (.node a) (arm st kk) :=
      fun kk => getNext_arm (inc_spec W hy)
    match k, hk with
    | 0, _ =>
      refine ⟨.badAlloc, arm st none, ?_, rfl, rfl, ⟨ox, (upd_eq_self hox).symm⟩, fun _ _ _ => rfl,
        fun _ h => h, rfl, ?_, fun a h => W.fresh a h⟩
      · intro fuel hf
        obtain ⟨f, rfl⟩ : ∃ f, fuel = f + 1 := ⟨fuel - 1, by simp at hf; omega⟩
        unfold copyLoop
        simp only [M.bind_apply, hgn]
        rw [if_neg (by simp)]
        simp only [M.bind_apply]
        rw [show allocNode (arm st (some 0)) = .throw .badAlloc (arm st none) from by
          simp [allocNode, allocC, tick, arm]]
      · intro b h1 h2
        have : b < st.next := h2
        omega
    | 1, _ =>
      have ha1 := alloc_arm (k := 0) W.thr g1
      have hsa : sa = ⟨st.objs, upd st.mem st.next (some ⟨.null, none⟩), st.next + 1, st.thr⟩ := by
        simp only [allocNode, allocC_none W.thr] at g1
        cases g1; rfl
      obtain ⟨o, ho, R⟩ := W_rep W hy
      have hca : sa.mem a = some ⟨fstP t2, some v⟩ := by
        have := W_idlt W hy (a := a) (by simp)
        rw [g5 a (by omega)]; exact R.chain.cell
      refine ⟨.elem, arm sa none, ?_, rfl, rfl, ⟨ox, ?_⟩, ?_, ?_, ?_, ?_, ?_⟩
      · intro fuel hf
        obtain ⟨f, rfl⟩ : ∃ f, fuel = f + 1 := ⟨fuel - 1, by simp at hf; omega⟩
        unfold copyLoop
        simp only [M.bind_apply, hgn]
        rw [if_neg (by simp)]
        simp only [M.bind_apply, ha1, getVal_arm (k := some 0) hca rfl]
        rw [construct_throw (by exact g3)]
      · rw [hsa]; exact (upd_eq_self hox).symm
      · intro b h1 h2
        rw [hsa]; simp [arm, Nat.ne_of_lt h1]
      · intro b h1
        rw [hsa]; simp only [arm, upd_apply]
        split
        · simp
        · exact h1
      · rw [hsa]; rfl
      · intro b h1 h2
        rw [hsa] at h2 ⊢
        have h2' : b < st.next + 1 := h2
        have : b = st.next := by omega
        simp [arm, this]
      · intro b h1
        rw [hsa] at h1 ⊢
        have h1' : st.next + 1 ≤ b := h1
        have : b ≠ st.next := by omega
        simp only [arm, upd_apply, this, if_false]
        exact W.fresh b (by omega)
    | k+2, hk =>
      have hy1 : (upd σ x (some (s ++ [(st.next, v)]))) y = some (t1 ++ (a, v) :: t2) := by
        simp [Ne.symm hxy, hy]
      obtain ⟨ex, st', h2, hex, Fl⟩ := ih (s := s ++ [(st.next, v)]) (t1 := t1 ++ [(a, v)]) (k := k) W1
        (upd_same _ _ _) (by rw [hy1]; simp) (by simp at hk; omega)
      obtain ⟨o, ho, R⟩ := W_rep W hy
      have hca : sa.mem a = some ⟨fstP t2, some v⟩ := by
        have := W_idlt W hy (a := a) (by simp)
        rw [g5 a (by omega)]; exact R.chain.cell
      have hsat : sa.thr = none := by
        simp only [allocNode, allocC_none W.thr] at g1
        cases g1; exact W.thr
      have e2 : getNext (lstP y t1) st1 = .ok (.node a) st1 := inc_spec W1 hy1
      have e3 : getNext (lstP x s) st1 = .ok (.node st.next) st1 :=
        inc_spec (x := x) (l := s) W1 (upd_same _ _ _)
      have g1' := alloc_arm (k := k+1) W.thr g1
      have g3' := construct_arm (k := k) hsat g3
      have g4' := setNext_arm (k := some k) g4
      refine ⟨ex, st', ?_, ?_, ?_⟩
      · intro fuel hf
        obtain ⟨f, rfl⟩ : ∃ f, fuel = f + 1 := ⟨fuel - 1, by simp at hf; omega⟩
        unfold copyLoop
        simp only [M.bind_apply, hgn]
        rw [if_neg (by simp)]
        simp only [fstP] at g3'
        simp only [M.bind_apply, g1', getVal_arm hca rfl, g3', g4', getNext_arm e2, getNext_arm e3]
        have := h2 f (by simpa using hf)
        rwa [lstP_concat, lstP_concat] at this
      · rw [hex]; simp
      · obtain ⟨o', ho'⟩ := Fl.objs
        refine ⟨Fl.thr, ⟨o', by rw [ho', g6, upd_upd]⟩, ?_, ?_, ?_, ?_, Fl.fresh⟩
        · intro b h1 h3
          rw [Fl.frame b (by omega) (by simp [h3]; omega), g7 b h3 (by omega)]
        · intro b hb; exact Fl.mono b (g8 b (Or.inl hb))
        · rw [Fl.next, hn1]; omega
        · intro b h1 h3
          by_cases hb : b = st.next
          · exact Fl.mono b (g8 b (Or.inr hb))
          · exact Fl.leak b (by omega) h3

theorem copyCtor_throw {st : FSt V} {σ : Nat → Option (List (Nat × V))} (W : FW st σ) {x y k : Nat}
    {t : List (Nat × V)} (hx : σ x = none) (hy : σ y = some t) (hk : k < 2 * t.length) :
    ∃ st', (∀ fuel, t.length < fuel → copyCtor fuel x y (arm st (some k)) =
        .throw (if k % 2 = 0 then .badAlloc else .elem) st') ∧
      st'.objs = st.objs ∧ st'.thr = none ∧ st'.next = st.next + (k+1)/2 ∧
      (∀ a, a < st.next → st'.mem a = st.mem a) ∧
      (∀ a, st.next ≤ a → a < st'.next → st'.mem a ≠ none) ∧ (∀ a, st'.next ≤ a → st'.mem a = none) := by
  have hxy : x ≠ y := by rintro rfl; rw [hx] at hy; cases hy
  have hox := W.dom x hx
  let st1 : FSt V := { st with objs := upd st.objs x (some ⟨.null⟩) }
  have W1 : FW st1 (upd σ x (some [])) := W.step1 x ⟨.null⟩ [] rfl ⟨by simp, rfl, trivial⟩
    (fun _ _ _ => rfl) (by simp) (by simp [hx]) W.fresh W.thr
  have hy1 : (upd σ x (some [])) y = some ([] ++ t) := by simp [Ne.symm hxy, hy]
  obtain ⟨ex, st2, h2, hex, Fl⟩ := copyLoop_throw hxy W1 (upd_same _ _ _) hy1 hk
  subst hex
  obtain ⟨o', ho'⟩ := Fl.objs
  refine ⟨{ st2 with objs := upd st2.objs x none }, ?_, ?_, Fl.thr, Fl.next, ?_, Fl.leak, Fl.fresh⟩
  · intro fuel hf
    unfold copyCtor ctor
    simp only [M.bind_apply]
    rw [newObj_none (by exact hox)]
    simp only [M.onThrow]
    rw [show (⟨upd (arm st (some k)).objs x (some ⟨.null⟩), (arm st (some k)).mem, (arm st (some k)).next,
      (arm st (some k)).thr⟩ : FSt V) = arm st1 (some k) from rfl,
      show copyLoop fuel (.head y) (.head x) (arm st1 (some k)) = _ from h2 fuel hf]
    simp only []
    rw [delObj_some (by rw [ho']; exact upd_same _ _ _)]
  · show upd st2.objs x none = st.objs
    rw [ho', upd_upd, show st1.objs = upd st.objs x _ from rfl, upd_upd, upd_eq_self hox]
  · intro b hb; exact Fl.frame b hb (by simp)

/-- `insert_after` when the allocation (first) or the element copy (second) throws. -/
theorem insertAfter_throw {st : FSt V} {σ : Nat → Option (List (Nat × V))} (W : FW st σ) {x : Nat}
    {l r : List (Nat × V)} (hs : σ x = some (l ++ r)) (v : V) :
    insertAfter (lstP x l) v (arm st (some 0)) = .throw .badAlloc st ∧
    insertAfter (lstP x l) v (arm st (some 1)) =
      .throw .elem ⟨st.objs, upd st.mem st.next (some ⟨.null, none⟩), st.next + 1, none⟩ := by
  have hst : arm st none = st := by
    have := W.thr
    cases st; simp_all [arm]
  obtain ⟨sa, sb, st1, g1, g2, g3, g4, _, W1, hn1⟩ := insertAfter_steps W hs v
  constructor
  · unfold insertAfter
    simp only [M.bind_apply]
    rw [show allocNode (arm st (some 0)) = .throw .badAlloc (arm st none) from by
      simp [allocNode, allocC, tick, arm], hst]
  · have hsa : sa = ⟨st.objs, upd st.mem st.next (some ⟨.null, none⟩), st.next + 1, st.thr⟩ := by
      simp only [allocNode, allocC_none W.thr] at g1
      cases g1; rfl
    have g1' := alloc_arm (k := 0) W.thr g1
    unfold insertAfter
    simp only [M.bind_apply, g1', getNext_arm g2, construct_throw g3]
    rw [hsa]; rfl

end Cest.FL
