import Verif.List.Props
/-
Property C137 for cest::list: inserting an element that is given by reference and may be in the list itself.
Model.lean passes the argument as a value; here it is the address of an element and is read, or moved from, when
the code does so.
-/
namespace Cest.Lst
open Cest
variable {V : Type}

/-! ### Model -/

/-- `std::construct_at(new_node, value)` (list.hpp:220) with `value` a reference to the element of node `r`: the copy
constructor reads it. -/
def constructFrom (a : Nat) (r : Ptr) : LM V Unit := do
  let c ← getC a
  match c.val with
  | some _ => M.ub .liveConstruct
  | none => do
    tick .elem
    let v ← getVal r
    setC a ⟨.node a, .node a, some v⟩

/-- list.hpp:212-232 `insert(pos, const T&)`. -/
def insertRef (x : Nat) (p r : Ptr) : LM V Ptr := do
  let n ← allocNode
  constructFrom n r
  setNext (.node n) p
  let pp ← getPrev p
  setPrev (.node n) pp
  let pp ← getPrev p
  setNext pp (.node n)
  setPrev p (.node n)
  let o ← getObj x
  setObj x { o with size := o.size + 1 }
  pure (.node n)

/-- list.hpp:203 `push_back(const value_type&)`. -/
def pushBackRef (x : Nat) (r : Ptr) : LM V Unit := do
  let e ← end_ x
  let _ ← insertRef x e r
  pure ()

/-- list.hpp:207 `push_front(const value_type&)`. -/
def pushFrontRef (x : Nat) (r : Ptr) : LM V Unit := do
  let b ← begin_ x
  let _ ← insertRef x b r
  pure ()

/-- Moving out of the element of node `r`: `mf v` is what a move leaves behind of the value `v`. -/
def takeVal (mf : V → V) (r : Ptr) : LM V V := do
  let v ← getVal r
  setVal r (mf v)
  pure v

/-- list.hpp:234-236 `insert(pos, value_type&&)` through list.hpp:238-254 `emplace`: the argument is moved into a
temporary after the allocation, and the temporary is copied into the node (list.hpp:54 has no other constructor). -/
def insertMove (mf : V → V) (x : Nat) (p r : Ptr) : LM V Ptr := do
  let n ← allocNode
  let v ← takeVal mf r
  constructNode n v
  setNext (.node n) p
  let pp ← getPrev p
  setPrev (.node n) pp
  let pp ← getPrev p
  setNext pp (.node n)
  setPrev p (.node n)
  let o ← getObj x
  setObj x { o with size := o.size + 1 }
  pure (.node n)

/-! ### Proofs -/

theorem insertRef_eq {st : LSt V} {x a : Nat} {p : Ptr} {c : Cell V} {w : V} (ha : st.mem a = some c)
    (hw : c.val = some w) (hn : a ≠ st.next) : insertRef x p (.node a) st = insert x p w st := by
  obtain ⟨k1, k2, k3⟩ := c
  simp only [] at hw
  subst hw
  cases ht : st.thr with
  | none => simp [insertRef, insert, allocNode, constructFrom, constructNode, allocC, tick, ht, getC, getVal, setC, ha, hn]
  | some m =>
    cases m with
    | zero => simp [insertRef, insert, allocNode, allocC, tick, ht]
    | succ m =>
      cases m with
      | zero => simp [insertRef, insert, allocNode, constructFrom, constructNode, allocC, tick, ht, getC]
      | succ m => simp [insertRef, insert, allocNode, constructFrom, constructNode, allocC, tick, ht, getC, getVal, setC, ha, hn]

/-- Without exceptions, moving an element into a new node is overwriting it and inserting its old value. -/
theorem insertMove_eq {st : LSt V} {mf : V → V} {x a : Nat} {p : Ptr} {c : Cell V} {w : V} (ha : st.mem a = some c)
    (hw : c.val = some w) (hn : a ≠ st.next) (ht : st.thr = none) :
    insertMove mf x p (.node a) st = (do setVal (.node a) (mf w); insert x p w) st := by
  obtain ⟨k1, k2, k3⟩ := c
  simp only [] at hw
  subst hw
  have e : ∀ (m : Nat → Option (Cell V)) (u v : Option (Cell V)), upd (upd m st.next u) a v = upd (upd m a v) st.next u := by
    intro m u v
    funext k
    unfold upd
    split <;> split <;> simp_all
  simp [insertMove, insert, allocNode, takeVal, constructNode, allocC, tick, ht, getC, getVal, setVal, setC, ha, hn, e]

/-- The sequence in which the element of node `a` has the value `u`. -/
def mark (a : Nat) (u : V) (s : Seq V) : Seq V := s.map fun q => if q.1 = a then (a, u) else q

theorem mark_none {a : Nat} {u : V} {s : Seq V} (h : a ∉ ids s) : mark a u s = s := by
  induction s with
  | nil => rfl
  | cons q s ih =>
    obtain ⟨b, v⟩ := q
    simp only [ids, List.map_cons, List.mem_cons, not_or] at h
    have e : mark a u ((b, v) :: s) = (if b = a then (a, u) else (b, v)) :: mark a u s := rfl
    rw [e, ih h.2, if_neg (fun e => h.1 e.symm)]

theorem mark_append {a : Nat} {u : V} {s t : Seq V} : mark a u (s ++ t) = mark a u s ++ mark a u t :=
  List.map_append

theorem mark_mid {a : Nat} {u v : V} {l r : Seq V} (h : (ids (l ++ (a, v) :: r)).Nodup) :
    mark a u (l ++ (a, v) :: r) = l ++ (a, u) :: r := by
  simp only [ids, List.map_append, List.map_cons, List.nodup_append, List.nodup_cons] at h
  have h1 : a ∉ ids l := fun hm => h.2.2 a hm a (by simp) rfl
  rw [mark_append, mark_none h1]
  have : mark a u ((a, v) :: r) = (a, u) :: mark a u r := by
    show (if a = a then (a, u) else (a, v)) :: mark a u r = _
    rw [if_pos rfl]
  rw [this, mark_none h.2.1.1]

/-- Overwriting an element, said for all lists at once. -/
theorem setVal_mark {st : LSt V} {σ : Nat → Option (List (Nat × V))} (W : LW st σ) {y a : Nat} {t : Seq V} {w : V}
    (hy : σ y = some t) (hm : (a, w) ∈ t) (u : V) :
    ∃ st', setVal (.node a) u st = .ok () st' ∧ LW st' (fun z => (σ z).map (mark a u)) ∧ st'.next = st.next := by
  obtain ⟨l, r, rfl⟩ := List.append_of_mem hm
  obtain ⟨st', h1, W1, h2⟩ := setVal_spec W hy (w := u)
  refine ⟨st', h1, ?_, h2⟩
  have : (fun z => (σ z).map (mark a u)) = upd σ y (some (l ++ (a, u) :: r)) := by
    funext z
    obtain ⟨o, -, R⟩ := W_rep W hy
    by_cases hz : z = y
    · subst hz
      rw [hy, upd_same, Option.map_some, mark_mid R.nodup]
    · simp only [upd_apply, if_neg hz]
      cases hs : σ z with
      | none => rfl
      | some s =>
        rw [Option.map_some, mark_none]
        intro ha
        exact hz (W.disj z y a (by simpa [hs] using ha) (by simp [hy]))
  rw [this]
  exact W1

/-! ### C137 -/

/-- **C137 (list, by reference).** Inserting a copy of an element `*a` of any list, this one included, is inserting
its value: whatever throws on the way, and if nothing does, the element appears before the position, `*a` and
every other element are unchanged. -/
theorem C137_list_insert_ref {st : LSt V} {its : Its} {e : Env V} (h : Reach st its e) {x k : Nat}
    {s l r : Seq V} {i : It} (hx : e.lists x = some s) (hk : e.its k = some i) (hsp : split x s i = some (l, r))
    {y a : Nat} {t : Seq V} {w : V} (hy : e.lists y = some t) (ha : (a, w) ∈ t) :
    ∃ p, getIt its k st = .ok p st ∧
      (∀ n, insertRef x p (.node a) { st with thr := n } = insert x p w { st with thr := n }) ∧
      ∃ st', insertRef x p (.node a) st = .ok (.node e.next) st' ∧
        (∀ fuel, s.length + 1 < fuel →
          toList fuel x st' = .ok (l.map Prod.snd ++ w :: r.map Prod.snd) st') ∧
        ∀ z q b v, e.lists z = some q → (b, v) ∈ q → deref (.node b) st' = .ok v st' := by
  have W := h.agree.world
  obtain ⟨l', r', rfl⟩ := List.append_of_mem ha
  have hc := cell_spec W hy
  have hn : a ≠ st.next := Nat.ne_of_lt (W_idlt W hy (by simp [ids]))
  obtain ⟨p, st', h1, h2, -, -, h3, h4⟩ := C24_list_insert_stable h w hx hk hsp
  refine ⟨p, h1, fun n => insertRef_eq hc rfl hn, st', ?_, h3, fun z q b v hz hb => (h4 z q b v hz hb).2.2⟩
  rw [insertRef_eq hc rfl hn, h2]

/-- **C137 (list, the ends).** `x.push_back(*a)` and `x.push_front(*a)`. -/
theorem C137_list_push_ref {st : LSt V} {its : Its} {e : Env V} (h : Reach st its e) {x : Nat} {s : Seq V}
    (hx : e.lists x = some s) {y a : Nat} {t : Seq V} {w : V} (hy : e.lists y = some t) (ha : (a, w) ∈ t) :
    (∀ n, pushBackRef x (.node a) { st with thr := n } = pushBack x w { st with thr := n } ∧
      pushFrontRef x (.node a) { st with thr := n } = pushFront x w { st with thr := n }) ∧
    (∃ st', pushBackRef x (.node a) st = .ok () st' ∧
      ∀ fuel, s.length + 1 < fuel → toList fuel x st' = .ok (s.map Prod.snd ++ [w]) st') ∧
    ∃ st', pushFrontRef x (.node a) st = .ok () st' ∧
      ∀ fuel, s.length + 1 < fuel → toList fuel x st' = .ok (w :: s.map Prod.snd) st' := by
  have W := h.agree.world
  obtain ⟨l', r', rfl⟩ := List.append_of_mem ha
  have hc := cell_spec W hy
  have hn : a ≠ st.next := Nat.ne_of_lt (W_idlt W hy (by simp [ids]))
  have e1 : ∀ n, pushBackRef x (.node a) { st with thr := n } = pushBack x w { st with thr := n } ∧
      pushFrontRef x (.node a) { st with thr := n } = pushFront x w { st with thr := n } := by
    intro n
    have he : end_ x { st with thr := n } = .ok (.head x) { st with thr := n } := by
      obtain ⟨o, ho, -⟩ := W_rep W hx
      simp [end_, ho]
    have hb : ∃ b, begin_ x { st with thr := n } = .ok b { st with thr := n } := by
      obtain ⟨o, ho, -⟩ := W_rep W hx
      exact ⟨o.next, by simp [begin_, getNext, ho]⟩
    obtain ⟨b, hb⟩ := hb
    constructor
    · rw [pushBackRef, pushBack, M.bind_of_ok he, M.bind_of_ok he, M.bind_apply, M.bind_apply,
        insertRef_eq (st := { st with thr := n }) hc rfl hn]
    · rw [pushFrontRef, pushFront, M.bind_of_ok hb, M.bind_of_ok hb, M.bind_apply, M.bind_apply,
        insertRef_eq (st := { st with thr := n }) hc rfl hn]
  refine ⟨e1, ?_, ?_⟩
  · obtain ⟨st', h1, W1, -⟩ := insert_spec (l := s) (r := []) W (by simpa using hx) w
    refine ⟨st', ?_, fun fuel hf => ?_⟩
    · rw [pushBackRef, M.bind_of_ok (end_spec W hx), M.bind_apply, insertRef_eq hc rfl hn]
      simp only [fstP] at h1
      rw [h1]; rfl
    · rw [toList_spec W1 (upd_same _ _ _) (by simpa using hf)]; simp
  · obtain ⟨st', h1, W1, -⟩ := insert_spec (l := []) (r := s) W hx w
    refine ⟨st', ?_, fun fuel hf => ?_⟩
    · rw [pushFrontRef, M.bind_of_ok (begin_spec W hx), M.bind_apply, insertRef_eq hc rfl hn]
      rw [h1]; rfl
    · rw [toList_spec W1 (upd_same _ _ _) (by simpa using hf)]; simp

/-- **C137 (list, by rvalue).** `x.insert(pos, std::move(*a))` with `*a` in any list, this one included: the new
element has the old value of `*a`, which keeps what the move leaves behind, and nothing else changes.  If the allocation fails nothing has been
moved from. -/
theorem C137_list_insert_move {st : LSt V} {its : Its} {e : Env V} (h : Reach st its e) {x k : Nat}
    {s l r : Seq V} {i : It} (hx : e.lists x = some s) (hk : e.its k = some i) (hsp : split x s i = some (l, r))
    {y a : Nat} {t : Seq V} {w : V} (hy : e.lists y = some t) (ha : (a, w) ∈ t) (mf : V → V) :
    ∃ p st', getIt its k st = .ok p st ∧ insertMove mf x p (.node a) st = .ok (.node e.next) st' ∧
      (∀ fuel, s.length + 1 < fuel → toList fuel x st' =
        .ok ((mark a (mf w) l).map Prod.snd ++ w :: (mark a (mf w) r).map Prod.snd) st') ∧
      (∀ z q, z ≠ x → e.lists z = some q → ∀ fuel, q.length < fuel →
        toList fuel z st' = .ok ((mark a (mf w) q).map Prod.snd) st') ∧
      insertMove mf x p (.node a) { st with thr := some 0 } = .throw .badAlloc st := by
  have A := h.agree
  have W := A.world
  obtain ⟨rfl, hp⟩ := split_some hsp
  have hc : ∃ c, st.mem a = some c ∧ c.val = some w := by
    obtain ⟨l', r', rfl⟩ := List.append_of_mem ha
    exact ⟨_, cell_spec W hy, rfl⟩
  obtain ⟨c, hc1, hc2⟩ := hc
  have hn : a ≠ st.next := Nat.ne_of_lt (W_idlt W hy (mem_ids.2 ⟨w, ha⟩))
  obtain ⟨st1, g1, W1, n1⟩ := setVal_mark W hy ha (mf w)
  have hx1 : (fun z => (e.lists z).map (mark a (mf w))) x = some (mark a (mf w) l ++ mark a (mf w) r) := by
    simp only [hx, Option.map_some, mark_append]
  obtain ⟨st', h1, W', -⟩ := insert_spec W1 hx1 w
  have hf : fstP x (mark a (mf w) r) = fstP x r := by
    cases r with
    | nil => rfl
    | cons q r =>
      show fstP x ((if q.1 = a then (a, mf w) else q) :: mark a (mf w) r) = _
      split
      · rename_i he; show Ptr.node a = Ptr.node q.1; rw [he]
      · rfl
  have hl : ∀ q : Seq V, (mark a (mf w) q).length = q.length := fun q => List.length_map _
  refine ⟨toPtr i, st', getIt_eq A hk, ?_, ?_, ?_, ?_⟩
  · rw [insertMove_eq hc1 hc2 hn W.thr, M.bind_of_ok g1, hp, ← hf, h1, n1, A.next]
  · intro fuel hfu
    rw [toList_spec W' (upd_same _ _ _) (by simp [hl] at hfu ⊢; omega)]
    simp
  · intro z q hz hq fuel hfu
    exact toList_spec W' (by simp [hz, hq]) (by rw [hl]; exact hfu)
  · have : ({ st with thr := none } : LSt V) = st := by rw [← W.thr]
    simp only [insertMove, M.bind_apply, allocNode, allocC, tick, this]

/-- In `[1, 2]`, `insert(++begin(), std::move(front()))` gives `[0, 1, 2]` when a move leaves 0 behind. -/
example : ∃ (st : LSt Nat) (its : Its) (e : Env Nat), Reach st its e ∧ ∃ p st',
    getIt its 0 st = .ok p st ∧ insertMove (fun _ => 0) 0 p (.node 0) st = .ok (.node 2) st' ∧
    ∀ fuel, 3 < fuel → toList fuel 0 st' = .ok [0, 1, 2] st' := by
  obtain ⟨st, its, hr⟩ := Reach.of_spec (V := Nat) (ops := [.new 0, .pushBack 0 1, .pushBack 0 2, .begin_ 0 0, .inc 0 0]) rfl
  obtain ⟨p, st', h1, h2, h3, -⟩ := C137_list_insert_move hr (x := 0) (k := 0) (s := [(0, 1), (1, 2)]) (l := [(0, 1)])
    (r := [(1, 2)]) (i := .elem 1) rfl rfl rfl (y := 0) (a := 0) (t := [(0, 1), (1, 2)]) (w := 1) rfl (by simp) (fun _ => 0)
  exact ⟨st, its, _, hr, p, st', h1, h2, h3⟩

/-- In `[1, 2]`, `push_back(front())` gives `[1, 2, 1]`. -/
example : ∃ (st : LSt Nat) (its : Its) (e : Env Nat), Reach st its e ∧ ∃ st',
    pushBackRef 0 (.node 0) st = .ok () st' ∧ ∀ fuel, 3 < fuel → toList fuel 0 st' = .ok [1, 2, 1] st' := by
  obtain ⟨st, its, hr⟩ := Reach.of_spec (V := Nat) (ops := [.new 0, .pushBack 0 1, .pushBack 0 2]) rfl
  obtain ⟨-, ⟨st', h1, h2⟩, -⟩ := C137_list_push_ref hr (x := 0) (s := [(0, 1), (1, 2)]) rfl
    (y := 0) (a := 0) (t := [(0, 1), (1, 2)]) (w := 1) rfl (by simp)
  exact ⟨st, its, _, hr, st', h1, h2⟩

end Cest.Lst
