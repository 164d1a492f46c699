import Verif.Vector.Proofs
/-
Lemmas about exceptions thrown by allocations and element copies inside vector members
(used by Vector/Props.lean).
-/
namespace Cest.Vec
open Cest
variable {V : Type}

theorem constructAt_tick {O : Type} {s : St O (Blk V)} {a n i k : Nat} {xs : List V} {v : V}
    (h : s.mem a = some (arr n xs)) (hi : i = xs.length) (hn : xs.length < n)
    (ht : s.thr = some (k+1)) :
    constructAt (some a) i v s =
      .ok () { s with mem := upd s.mem a (some (arr n (xs ++ [v]))), thr := some k } := by
  subst hi
  have : ({ len := n, slot := upd (arr n xs).slot xs.length (some v) } : Blk V) = arr n (xs ++ [v]) :=
    arr_push n xs v
  simp [constructAt, withSlot, getC, h, hn, tick, ht, setC, this]

theorem constructAt_throw {O : Type} {s : St O (Blk V)} {a n i : Nat} {xs : List V} {v : V}
    (h : s.mem a = some (arr n xs)) (hi : i = xs.length) (hn : xs.length < n)
    (ht : s.thr = some 0) :
    constructAt (some a) i v s = .throw .elem { s with thr := none } := by
  subst hi
  simp [constructAt, withSlot, getC, h, hn, tick, ht]

/-- The copying loop when the `k`-th element copy (counting from the current one) throws. -/
theorem copyLoop_throw {O : Type} {s : St O (Blk V)} {a q c n i m k : Nat} {xs ys : List V}
    (hne : a ≠ q) (ha : s.mem a = some (arr c xs)) (hc : xs.length ≤ c)
    (hq : s.mem q = some (arr n ys)) (hi : i = ys.length) (hm : i + m ≤ xs.length)
    (hn : i + m ≤ n) (hk : k < m) (ht : s.thr = some k) :
    forN (fun k => do let v ← load (some a) k; constructAt (some q) k v) i m s =
      .throw .elem { s with mem := upd s.mem q (some (arr n (ys ++ (xs.drop i).take k))), thr := none } := by
  induction m generalizing i s ys k with
  | zero => omega
  | succ m ih =>
    unfold forN
    have hv : xs[i]? = some xs[i] := by simp
    have h1 := load_arr ha hc hv
    cases k with
    | zero =>
      have h2 := constructAt_throw (v := xs[i]) hq hi (by omega) ht
      simp only [M.bind_apply, h1, h2]
      simp
      rw [upd_eq_self hq]
    | succ k =>
      have h2 := constructAt_tick (v := xs[i]) hq hi (by omega) ht
      simp only [M.bind_apply, h1, h2]
      rw [ih (s := { s with mem := upd s.mem q (some (arr n (ys ++ [xs[i]]))), thr := some k })
        (ys := ys ++ [xs[i]])
        (by simp [hne, ha]) (by simp) (by simp [hi]) (by omega) (by omega) (by omega) rfl]
      simp only [upd_upd]
      congr 5
      have : xs.drop i = xs[i] :: xs.drop (i+1) := by simp
      rw [this, List.take_succ_cons, List.append_assoc, List.singleton_append]

/-- Destructor on a raw (not necessarily leak-free) state. -/
theorem dtor_raw {st : VSt V} {x a c : Nat} {xs : List V}
    (ho : st.objs x = some ⟨xs.length, c, some a⟩) (hm : st.mem a = some (arr c xs))
    (hl : xs.length ≤ c) (hc : c ≠ 0) :
    dtor x st = .ok () { st with objs := upd st.objs x none, mem := upd st.mem a none } := by
  unfold dtor clear
  simp only [M.bind_apply, getObj_some ho]
  rw [destroyN_ok hm (by simpa using hl) (by intro j _ hj; simp at hj ⊢; exact hj)]
  simp only [arr_hole c xs 0 xs.length (by omega), List.take_zero]
  rw [setObj_some (by exact ho)]
  simp only []
  rw [getObj_some (by exact upd_same _ _ _)]
  simp only []
  rw [if_pos (Ne.symm hc)]
  simp only [M.bind_apply]
  rw [freeArr_ok (b := arr c []) (by simp) (by simp) (by simp)]
  simp only [upd_upd]
  rw [delObj_some (by exact upd_same _ _ _)]
  simp only [upd_upd]

theorem toList_raw {st : VSt V} {x a c : Nat} {xs : List V}
    (ho : st.objs x = some ⟨xs.length, c, some a⟩) (hm : st.mem a = some (arr c xs))
    (hl : xs.length ≤ c) : toList x st = .ok xs st := by
  unfold toList
  simp only [M.bind_apply, getObj_some ho]
  rw [collect_arr hm hl (by omega)]; simp

/-- Destroying a range that contains a dead slot is undefined behaviour. -/
theorem destroyN_dead {O : Type} {s : St O (Blk V)} {a n i m k : Nat} {xs : List V}
    {b : Blk V} (h : s.mem a = some b) (hbl : b.len = n)
    (hb : ∀ j, i ≤ j → b.slot j = xs[j]?) (hk : k = xs.length) (hik : i ≤ k) (hkm : k < i + m) (hn : k < n) :
    destroyN (some a) i m s = .ub .deadDestroy := by
  induction m generalizing i s b with
  | zero => omega
  | succ m ih =>
    unfold destroyN forN
    by_cases hi : i = k
    · subst hi
      have : b.slot i = none := by rw [hb i (Nat.le_refl _)]; simp; omega
      simp [destroyAt, withSlot, getC, h, hbl, hn, this]
    · have hil : i < xs.length := by omega
      have hsl : b.slot i = some xs[i] := by rw [hb i (Nat.le_refl _)]; simp
      have h1 := destroyAt_ok (s := s) h (i := i) (by omega) hsl
      simp only [M.bind_apply, h1]
      have := ih (i := i+1) (s := { s with mem := upd s.mem a (some { b with slot := upd b.slot i none }) })
        (b := { b with slot := upd b.slot i none }) (by simp) hbl
        (by intro j hj; simp only [upd_apply]; rw [if_neg (by omega)]; exact hb j (by omega))
        (by omega) (by omega)
      unfold destroyN at this
      exact this

end Cest.Vec
