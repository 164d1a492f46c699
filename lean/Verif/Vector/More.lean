import Verif.Vector.Props
/-
Property C118: reverse iteration over a vector and `push_back` of an rvalue.
-/
namespace Cest.Vec
open Cest
set_option linter.unusedSectionVars false
variable {V : Type} [Inhabited V] [BEq V]

/-! ### Model -/

/-- `for (auto it = v.rbegin(); it != v.rend(); ++it)` collecting `*it` (vector.hpp:151-161): the iterators
are `std::reverse_iterator`s over `end()` and `begin()`; `*it` reads the element before the one `it` holds. -/
def revCollect (p : Option Nat) : Nat → VM V (List V)
  | 0 => pure []
  | i+1 => do
    let v ← load p i
    let vs ← revCollect p i
    return v :: vs
def revList (x : Nat) : VM V (List V) := do
  let o ← getObj x
  revCollect o.p o.size

/-- Moving out of the referenced object: `mf v` is what a move leaves behind of the value `v`.  An object
outside any vector is not represented, so nothing has to be recorded for it. -/
def Ref.take (mf : V → V) : Ref V → VM V V
  | .ext v => pure v
  | .cell p i => do
    let v ← load p i
    store p i (mf v)
    return v

/-- vector.hpp:197-205 `push_back(value_type&&)`. -/
def pushBackMove (mf : V → V) (x : Nat) (r : Ref V) : VM V Unit := do
  grow x
  let o ← getObj x
  setObj x { o with size := o.size + 1 }
  let v ← r.take mf
  constructAt o.p o.size v

/-- `x.push_back(std::move(y[i]))`. -/
def pushMoveFrom (mf : V → V) (x y i : Nat) : VM V Unit := do
  let o ← getObj y
  pushBackMove mf x (.cell o.p i)

/-! ### Proofs -/

theorem revCollect_arr {st : VSt V} {a n i : Nat} {xs : List V}
    (h : st.mem a = some (arr n xs)) (hn : xs.length ≤ n) (hi : i ≤ xs.length) :
    revCollect (some a) i st = .ok (xs.take i).reverse st := by
  induction i with
  | zero => simp [revCollect]
  | succ i ih =>
    have hv : xs[i]? = some xs[i] := by simp
    simp only [revCollect, M.bind_apply, load_arr h hn hv, ih (by omega), M.pure_apply]
    rw [List.take_add_one (i := i), hv]
    simp only [Option.toList_some, List.reverse_append, List.reverse_singleton, List.singleton_append]

/-- Storing into another vector's element while `x` has its size already incremented. -/
theorem pushBackMove_world {st : VSt V} {σ : Nat → Option (AV V)} {x y : Nat} {sx sy : AV V} (mf : V → V)
    (W : VW st σ) (hx : σ x = some sx) (hy : σ y = some sy) (hxy : y ≠ x) {i : Nat} {v : V}
    (hv : sy.xs[i]? = some v) :
    ∃ st', pushMoveFrom mf x y i st = .ok () st' ∧
      VW st' (upd (upd σ x (some (sx.push v st.next))) y (some ⟨sy.xs.set i (mf v), sy.cap, sy.p⟩)) := by
  obtain ⟨st1, c, a, hg, W1, hlen, _, hpush⟩ := grow_spec v W hx
  have hx1 : (upd σ x (some ⟨sx.xs, c, some a⟩)) x = some ⟨sx.xs, c, some a⟩ := upd_same _ _ _
  have hy1 : (upd σ x (some ⟨sx.xs, c, some a⟩)) y = some sy := by simp [hxy, hy]
  obtain ⟨ys, d, q⟩ := sy
  have hi : i < ys.length := by
    simp only [] at hv
    grind
  cases q with
  | none => have := (W_null W1 hy1).2; subst this; simp at hi
  | some b =>
    have ho1 := W_obj W1 hx1
    have hoy := W_obj W hy
    have hly := W_len W1 hy1
    obtain ⟨hma, hc⟩ := W_mem W1 hx1
    obtain ⟨hmb, hd⟩ := W_mem W1 hy1
    have hba : b ≠ a := W_ne W1 hxy hy1 hx1
    simp only [] at ho1 hoy hly hv
    -- the two updates one after the other
    have V1 := W_inplace W1 hy1 (ys := ys.set i (mf v)) (by simpa using hly)
    simp only [List.length_set] at V1
    rw [upd_eq_self (W_obj W1 hy1)] at V1
    have hx2 : (upd (upd σ x (some ⟨sx.xs, c, some a⟩)) y (some ⟨ys.set i (mf v), d, some b⟩)) x =
        some ⟨sx.xs, c, some a⟩ := by simp [Ne.symm hxy]
    have V2 := W_inplace V1 hx2 (ys := sx.xs ++ [v]) (by simp; omega)
    refine ⟨{ st1 with
        objs := upd st1.objs x (some ⟨(sx.xs ++ [v]).length, c, some a⟩),
        mem := upd (upd st1.mem b (some (arr d (ys.set i (mf v))))) a (some (arr c (sx.xs ++ [v]))) }, ?_, ?_⟩
    · unfold pushMoveFrom pushBackMove
      simp only [M.bind_apply, getObj_some hoy, hg, getObj_some ho1]
      rw [setObj_some ho1]
      simp only [Ref.take, M.bind_apply]
      rw [load_arr (by exact hmb) hly hv]
      simp only []
      rw [store_arr (by exact hmb) hi hly (by exact W1.thr)]
      simp only [M.pure_apply]
      rw [constructAt_arr (xs := sx.xs) (n := c) (by simp [upd_apply, Ne.symm hba, hma]) rfl hlen (by exact W1.thr)]
      simp
    · rw [hpush]
      have e : upd (upd (upd σ x (some ⟨sx.xs, c, some a⟩)) y (some ⟨ys.set i (mf v), d, some b⟩)) x
          (some ⟨sx.xs ++ [v], c, some a⟩) =
          upd (upd σ x (some ⟨sx.xs ++ [v], c, some a⟩)) y (some ⟨ys.set i (mf v), d, some b⟩) := by
        funext z
        simp only [upd_apply]
        by_cases h1 : z = x
        · subst h1; simp [Ne.symm hxy]
        · rw [if_neg h1]
          by_cases h2 : z = y
          · rw [if_pos h2, if_pos h2]
          · rw [if_neg h2, if_neg h2, if_neg h1, if_neg h1]
      rw [← e]
      exact V2

/-! ### C118 -/

/-- **C118.** Iterating backwards yields the elements in reverse order. -/
theorem C118_vector_reverse {st : VSt V} {e : Env V} (h : Reach st e) {x : Nat} {xs : List V}
    (hx : e x = some xs) : revList x st = .ok xs.reverse st := by
  obtain ⟨σ, W, rfl⟩ := reach_world h
  obtain ⟨⟨xs, c, p⟩, hs, rfl⟩ := envOf_some rfl hx
  have hl := W_len W hs
  unfold revList
  simp only [M.bind_apply, getObj_some (W_obj W hs)]
  cases p with
  | none => have := (W_null W hs).2; subst this; rfl
  | some a =>
    rw [revCollect_arr (W_mem W hs).1 hl (Nat.le_refl _)]
    simp

example : ∃ st : VSt Nat, revList 0 st = .ok [7, 6, 5] st := by
  obtain ⟨st, h, _⟩ := reach_example
  exact ⟨st, C118_vector_reverse h (x := 0) (xs := [5, 6, 7]) rfl⟩

/-- **C118.** `x.push_back(std::move(y[i]))` appends the element and leaves the moved-from value behind in
`y`; no other variable changes. -/
theorem C118_vector_push_move {st : VSt V} {e : Env V} (h : Reach st e) (mf : V → V) {x y i : Nat}
    {xs ys : List V} (hx : e x = some xs) (hy : e y = some ys) (hxy : y ≠ x) (hi : i < ys.length) :
    ∃ st', pushMoveFrom mf x y i st = .ok () st' ∧ toList x st' = .ok (xs ++ [ys[i]]) st' ∧
      toList y st' = .ok (ys.set i (mf ys[i])) st' ∧
      ∀ z zs, z ≠ x → z ≠ y → e z = some zs → toList z st' = .ok zs st' := by
  obtain ⟨σ, W, rfl⟩ := reach_world h
  obtain ⟨sx, hsx, rfl⟩ := envOf_some rfl hx
  obtain ⟨sy, hsy, rfl⟩ := envOf_some rfl hy
  obtain ⟨st', h1, W'⟩ := pushBackMove_world mf W hsx hsy hxy (i := i) (v := sy.xs[i]) (by simp)
  refine ⟨st', h1, toList_spec W' (s := sx.push sy.xs[i] st.next) (by simp [upd_apply, Ne.symm hxy]),
    toList_spec W' (s := ⟨sy.xs.set i (mf sy.xs[i]), sy.cap, sy.p⟩) (by simp), ?_⟩
  intro z zs hzx hzy hz
  obtain ⟨s, hs, rfl⟩ := envOf_some rfl hz
  exact toList_spec W' (s := s) (by simp [upd_apply, hzx, hzy, hs])

example : ∃ st st' : VSt Nat, pushMoveFrom (fun _ => 0) 1 0 2 st = .ok () st' ∧
    toList 1 st' = .ok [8, 7] st' ∧ toList 0 st' = .ok [5, 6, 0] st' := by
  obtain ⟨st, R, _⟩ := reach_witness (V := Nat) [.newList 0 [5, 6, 7], .newList 1 [8]]
    (outs := [.unit, .unit]) (x := 0) (xs := [5, 6, 7]) (c := 4) rfl rfl (by decide +kernel)
  obtain ⟨st', h1, h2, h3, _⟩ := C118_vector_push_move R (fun _ => 0) (x := 1) (y := 0) (i := 2)
    (xs := [8]) (ys := [5, 6, 7]) rfl rfl (by decide) (by decide)
  exact ⟨st, st', h1, h2, h3⟩

/-- **C118.** An rvalue that is not an element of a vector is appended like a copy. -/
theorem C118_vector_push_rvalue {st : VSt V} {e : Env V} (h : Reach st e) (mf : V → V) {x : Nat}
    {xs : List V} (hx : e x = some xs) (v : V) :
    ∃ st', pushBackMove mf x (.ext v) st = .ok () st' ∧ Reach st' (e.set x (some (xs ++ [v]))) := by
  have hs : specRun e [Op.pushBack x v] = some (e.set x (some (xs ++ [v])), [.unit]) := by
    simp [specRun, specStep, hx]
  obtain ⟨σ, W, he⟩ := reach_world h
  obtain ⟨st', _, r, _, _⟩ := run_refines W he hs
  have h1 : pushBack x (.ext v) st = .ok () st' := by
    simp only [runOps, runOp, M.bind_apply] at r
    revert r
    cases pushBack x (.ext v) st <;> simp
  exact ⟨st', h1, h.run hs r⟩

/-- **C118 (violation, as in C07).** Moving an own element into a full vector reads freed storage. -/
theorem C118_vector_push_own_move_full_ub {st : VSt V} {e : Env V} (h : Reach st e) (mf : V → V) {x : Nat}
    {xs : List V} (hx : e x = some xs) {i : Nat} (hi : i < xs.length)
    (hc : capacity x st = .ok xs.length st) : pushMoveFrom mf x x i st = .ub .dangling := by
  obtain ⟨σ, W, rfl⟩ := reach_world h
  obtain ⟨s, hs, rfl⟩ := envOf_some rfl hx
  rw [capacity_spec W hs] at hc; simp at hc
  obtain ⟨st1, h1, W1⟩ := reserve_spec (n := s.cap * 2) W hs
  have ho := W_obj W hs
  have hgrow : grow x st = .ok () st1 := by
    unfold grow
    simp only [M.bind_apply, getObj_some ho]
    rw [if_neg (by omega), if_pos hc]; exact h1
  have hs1 : (upd σ x (some (s.reserve (s.cap * 2) st.next))) x =
    some (s.reserve (s.cap * 2) st.next) := upd_same _ _ _
  have ho1 := W_obj W1 hs1
  have hlt : s.cap * 2 > s.cap := by omega
  simp only [AV.reserve, hlt, if_true] at ho1 W1
  unfold pushMoveFrom pushBackMove
  simp only [M.bind_apply, getObj_some ho, hgrow, getObj_some ho1]
  rw [setObj_some ho1]
  simp only [Ref.take, M.bind_apply]
  cases hq : s.p with
  | none =>
    obtain ⟨xs, c, p⟩ := s
    simp only [] at hq hi; subst hq; have := (W_null W hs).2; simp [this] at hi
  | some b =>
    have hb : b < st.next := W.lt_next (x := x) (by simp [hs, hq])
    have hfree : st1.mem b = none := by
      apply Classical.byContradiction
      intro hne
      obtain ⟨y, hy⟩ := W1.own b hne
      by_cases hyx : y = x
      · subst hyx; simp at hy; omega
      · simp [hyx] at hy
        exact hyx (W.disj y x b hy (by simp [hs, hq]))
    simp [load, withSlot, getC, hfree]

example : ∃ st : VSt Nat, pushMoveFrom (fun _ => 0) 0 0 0 st = .ub .dangling := by
  obtain ⟨st, h, hc⟩ := reach_full
  exact ⟨st, C118_vector_push_own_move_full_ub h _ (x := 0) (xs := [5]) rfl (by decide) hc⟩

end Cest.Vec
