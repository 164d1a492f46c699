import Verif.FList.Props
/-
Property C137 for cest::forward_list: inserting an element that is given by reference and may be in the list itself.
-/
namespace Cest.FL
open Cest
variable {V : Type}

/-! ### Model -/

/-- `std::construct_at(new_node, value, n)` (forward_list.hpp:29-30) with `value` a reference to the element of node
`r`.  The only constructor of a node copies, so this is also what an rvalue argument leads to. -/
def constructFrom (a : Nat) (r n : Ptr) : FM V Unit := do
  let c ← getC a
  match c.val with
  | some _ => M.ub .liveConstruct
  | none => do
    tick .elem
    let v ← getVal r
    setC a ⟨n, some v⟩

/-- forward_list.hpp:139-145 `insert_after(pos, const value_type&)` and 147-153 `insert_after(pos, value_type&&)`. -/
def insertAfterRef (p r : Ptr) : FM V Ptr := do
  let n ← allocNode
  let nx ← getNext p
  constructFrom n r nx
  setNext p (.node n)
  pure (.node n)

/-- forward_list.hpp:188-194 `push_front`. -/
def pushFrontRef (x : Nat) (r : Ptr) : FM V Unit := do
  let b ← before x
  let _ ← insertAfterRef b r
  pure ()

/-! ### Proofs -/

theorem constructFrom_eq {st : FSt V} {a b : Nat} {n : Ptr} {c : Cell V} {w : V} (ha : st.mem a = some c)
    (hw : c.val = some w) : constructFrom b (.node a) n st = constructNode b w n st := by
  obtain ⟨k1, k2⟩ := c
  simp only [] at hw
  subst hw
  simp only [constructFrom, constructNode, M.bind_apply]
  cases hb : getC b st with
  | ok d s =>
    have hs : s = st := by
      simp only [getC] at hb
      split at hb <;> cases hb
      rfl
    subst hs
    simp only []
    cases d.val with
    | some _ => rfl
    | none =>
      simp only [M.bind_apply]
      cases ht : s.thr with
      | none => simp [tick, ht, getVal, getC, ha]
      | some m => cases m <;> simp [tick, ht, getVal, getC, ha]
  | throw _ _ => rfl
  | ub _ => rfl
  | timeout => rfl

theorem insertAfterRef_eq {st : FSt V} {a : Nat} {p : Ptr} {c : Cell V} {w : V} (ha : st.mem a = some c)
    (hw : c.val = some w) (hn : a ≠ st.next) : insertAfterRef p (.node a) st = insertAfter p w st := by
  simp only [insertAfterRef, insertAfter, M.bind_apply]
  cases hal : (allocNode : FM V Nat) st with
  | ok n s =>
    have hs : s.mem a = some c := by
      simp only [allocNode, allocC] at hal
      cases ht : st.thr with
      | none => simp [tick, ht] at hal; obtain ⟨-, rfl⟩ := hal; simp [hn, ha]
      | some m => cases m <;> simp [tick, ht] at hal; obtain ⟨-, rfl⟩ := hal; simp [hn, ha]
    simp only []
    cases hg : getNext p s with
    | ok q s' =>
      have : s' = s := by
        cases p with
        | null => cases hg
        | head x => cases ho : s.objs x <;> simp_all [getNext, getObj]
        | node b => cases ho : s.mem b <;> simp_all [getNext, getC]
      subst this
      simp only [constructFrom_eq hs hw]
    | throw _ _ => rfl
    | ub _ => rfl
    | timeout => rfl
  | throw _ _ => rfl
  | ub _ => rfl
  | timeout => rfl

/-! ### C137 -/

/-- **C137 (forward_list).** Inserting an element `*a` of any list, this one included, is inserting its value:
whatever throws on the way, and if nothing does, the element appears after the position, `*a` and every
other element are unchanged. -/
theorem C137_flist_insert_ref {st : FSt V} {its : Its} {e : Env V} (h : Reach st its e) {x k : Nat}
    {s l r : Seq V} {i : It} (hx : e.lists x = some s) (hk : e.its k = some i) (hsp : splitAfter x s i = some (l, r))
    {y a : Nat} {t : Seq V} {w : V} (hy : e.lists y = some t) (ha : (a, w) ∈ t) :
    ∃ p, getIt its k st = .ok p st ∧
      (∀ n, insertAfterRef p (.node a) { st with thr := n } = insertAfter p w { st with thr := n }) ∧
      ∃ q st', insertAfterRef p (.node a) st = .ok q st' ∧ deref q st' = .ok w st' ∧
        (∀ fuel, s.length + 1 < fuel → toList fuel x st' = .ok (l.map Prod.snd ++ w :: r.map Prod.snd) st') ∧
        ∀ z u, z ≠ x → e.lists z = some u → ∀ fuel, u.length < fuel → toList fuel z st' = .ok (u.map Prod.snd) st' := by
  have A := h.agree
  have W := A.world
  obtain ⟨l', r', rfl⟩ := List.append_of_mem ha
  obtain ⟨oy, -, Ry⟩ := W_rep W hy
  have hc := Ry.chain.cell
  have hn : a ≠ st.next := Nat.ne_of_lt (W_idlt W hy (mem_ids.2 ⟨w, ha⟩))
  obtain ⟨rfl, hp⟩ := splitAfter_some hsp
  obtain ⟨st', h1, W1, -⟩ := insertAfter_spec W hx w
  refine ⟨toPtr i, getIt_eq A hk, fun n => insertAfterRef_eq hc rfl hn, .node st.next, st', ?_, ?_, ?_, ?_⟩
  · rw [insertAfterRef_eq hc rfl hn, hp, h1]
  · obtain ⟨ox, -, Rx⟩ := W_rep W1 (upd_same _ _ _)
    have := Rx.chain.cell
    simp [deref, getVal, getC, this]
  · intro fuel hf
    rw [toList_spec W1 (upd_same _ _ _) (by simp at hf ⊢; omega)]
    simp
  · intro z u hz hu fuel hf
    exact toList_spec W1 (by simp [hz, hu]) hf

/-- **C137 (forward_list, push_front).** -/
theorem C137_flist_push_ref {st : FSt V} {its : Its} {e : Env V} (h : Reach st its e) {x : Nat} {s : Seq V}
    (hx : e.lists x = some s) {y a : Nat} {t : Seq V} {w : V} (hy : e.lists y = some t) (ha : (a, w) ∈ t) :
    (∀ n, pushFrontRef x (.node a) { st with thr := n } = pushFront x w { st with thr := n }) ∧
    ∃ st', pushFrontRef x (.node a) st = .ok () st' ∧
      ∀ fuel, s.length + 1 < fuel → toList fuel x st' = .ok (w :: s.map Prod.snd) st' := by
  have W := h.agree.world
  obtain ⟨l', r', rfl⟩ := List.append_of_mem ha
  obtain ⟨oy, -, Ry⟩ := W_rep W hy
  have hc := Ry.chain.cell
  have hn : a ≠ st.next := Nat.ne_of_lt (W_idlt W hy (mem_ids.2 ⟨w, ha⟩))
  constructor
  · intro n
    obtain ⟨o, ho, -⟩ := W_rep W hx
    have hb : before x { st with thr := n } = .ok (.head x) { st with thr := n } := by simp [before, ho]
    rw [pushFrontRef, pushFront, M.bind_of_ok hb, M.bind_of_ok hb, M.bind_apply, M.bind_apply,
      insertAfterRef_eq (st := { st with thr := n }) hc rfl hn]
  · obtain ⟨st', h1, W1, -⟩ := insertAfter_spec (l := []) (r := s) W hx w
    refine ⟨st', ?_, fun fuel hf => ?_⟩
    · rw [pushFrontRef, M.bind_of_ok (before_spec W hx), M.bind_apply, insertAfterRef_eq hc rfl hn]
      rw [lstP_nil] at h1
      rw [h1]; rfl
    · rw [toList_spec W1 (upd_same _ _ _) (by simpa using hf)]; simp

/-- In `[1, 2]`, `push_front(*++begin())` gives `[2, 1, 2]`. -/
example : ∃ (st : FSt Nat) (its : Its) (e : Env Nat), Reach st its e ∧ ∃ st',
    pushFrontRef 0 (.node 0) st = .ok () st' ∧ ∀ fuel, 3 < fuel → toList fuel 0 st' = .ok [2, 1, 2] st' := by
  obtain ⟨st, its, hr⟩ := Reach.of_spec (V := Nat) (ops := [.new 0, .pushFront 0 2, .pushFront 0 1]) rfl
  obtain ⟨-, st', h1, h2⟩ := C137_flist_push_ref hr (x := 0) (s := [(1, 1), (0, 2)]) rfl
    (y := 0) (a := 0) (t := [(1, 1), (0, 2)]) (w := 2) rfl (by simp)
  exact ⟨st, its, _, hr, st', h1, h2⟩

end Cest.FL
