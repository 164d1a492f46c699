import Verif.Vector.Props
/-
C131: what remains after an exception escapes from a vector operation other than push_back and the copy
constructor (those are C08 and C09).
-/
namespace Cest.Vec
open Cest
variable {V : Type} [Inhabited V] [BEq V]

/-- After an exception the program can go on: the vectors hold the lists of `e`, every further program
that respects the preconditions behaves as on those lists, and if it ends with no vector alive then no
storage is left. -/
def Recovers (st : VSt V) (e : Env V) : Prop :=
  ∀ (ops : List (Op V)) (e' : Env V) (outs : List (Out V)), specRun e ops = some (e', outs) →
    ∃ st', runOps ops st = .ok outs st' ∧ ((∀ z, e' z = none) → ∀ a, st'.mem a = none)

theorem recovers_of_world {st : VSt V} {σ : Nat → Option (AV V)} (W : VW st σ) :
    Recovers st (envOf σ) := by
  intro ops e' outs h
  obtain ⟨st', σ', h1, W', he⟩ := run_refines W rfl h
  refine ⟨st', h1, fun hz a => ?_⟩
  apply Classical.byContradiction
  intro hne
  obtain ⟨z, hz'⟩ := W'.own a hne
  have := hz z
  rw [← he] at this
  simp [envOf] at this
  simp [this] at hz'

/-- The full claim of C131: if the `k`-th throwing operation inside a vector operation throws, the
vectors the operation does not modify keep their contents and the program can go on. -/
def C131_full_statement (V : Type) [Inhabited V] [BEq V] : Prop :=
  ∀ (st : VSt V) (e : Env V) (op : Op V) (k : Nat) (ex : Exc) (st' : VSt V), Reach st e →
    (specStep e op).isSome → runOp op { st with thr := some k } = .throw ex st' → st'.thr = none →
    ∃ e' : Env V, (∀ z, z ∉ op.mutates → e' z = e z) ∧ Recovers st' e'

omit [Inhabited V] [BEq V] in
theorem store_tick {O : Type} {s : St O (Blk V)} {a n i k : Nat} {xs : List V} {v : V}
    (h : s.mem a = some (arr n xs)) (hi : i < xs.length) (hn : xs.length ≤ n)
    (ht : s.thr = some (k+1)) :
    store (some a) i v s =
      .ok () { s with mem := upd s.mem a (some (arr n (xs.set i v))), thr := some k } := by
  have := arr_set n xs i v hi
  have hin : i < n := by omega
  simp only [arr] at this
  simp [store, withSlot, getC, h, arr, hin, hi, tick, ht, setC, this]

omit [Inhabited V] [BEq V] in
theorem store_throw {O : Type} {s : St O (Blk V)} {a n i : Nat} {xs : List V} {v : V}
    (h : s.mem a = some (arr n xs)) (hi : i < xs.length) (hn : xs.length ≤ n)
    (ht : s.thr = some 0) :
    store (some a) i v s = .throw .elem { s with thr := none } := by
  have hin : i < n := by omega
  simp [store, withSlot, getC, h, arr, hin, hi, tick, ht]

omit [Inhabited V] [BEq V] in
theorem st_thr {st : VSt V} (h : st.thr = none) : ({ st with thr := none } : VSt V) = st := by
  cases st; simp_all

/-- **C131 (element assignment).** `v[i] = val` that throws changes nothing. -/
theorem C131_set_throw_partial {st : VSt V} {e : Env V} (h : Reach st e) {x i : Nat} {xs : List V}
    (hx : e x = some xs) (hi : i < xs.length) (v : V) :
    set x i v { st with thr := some 0 } = .throw .elem st := by
  obtain ⟨σ, W, rfl⟩ := reach_world h
  obtain ⟨s, hs, rfl⟩ := envOf_some rfl hx
  obtain ⟨xs, c, p⟩ := s
  have ho := W_obj W hs
  have hl := W_len W hs
  simp only [] at ho hl hi
  cases p with
  | none => have := (W_null W hs).2; simp [this] at hi
  | some a =>
    obtain ⟨hm, hc⟩ := W_mem W hs
    unfold set
    simp only [M.bind_apply]
    rw [getObj_some (by exact ho)]
    simp only []
    rw [store_throw (by exact hm) hi hl rfl]
    simp only [st_thr W.thr]

/-- **C131 (allocation failure).** If the allocation made by `reserve` fails, nothing changes. -/
theorem C131_reserve_bad_alloc_partial {st : VSt V} {e : Env V} (h : Reach st e) {x n c : Nat} {xs : List V}
    (hx : e x = some xs) (hc : capacity x st = .ok c st) (hn : c < n) :
    reserve x n { st with thr := some 0 } = .throw .badAlloc st := by
  obtain ⟨σ, W, rfl⟩ := reach_world h
  obtain ⟨s, hs, rfl⟩ := envOf_some rfl hx
  rw [capacity_spec W hs] at hc; simp at hc; subst hc
  have ho := W_obj W hs
  unfold reserve
  simp only [M.bind_apply]
  rw [getObj_some (by exact ho)]
  simp only []
  rw [if_pos hn]
  simp only [M.bind_apply, allocArr, allocC, tick]
  simp only [st_thr W.thr]

/-- **C131 (leak).** If copying element `k` into the new storage throws, `reserve` leaves every vector as
it was, and leaks the new block with the `k` copies already made. -/
theorem C131_reserve_leak {st : VSt V} {e : Env V} (h : Reach st e) {x n c k : Nat} {xs : List V}
    (hx : e x = some xs) (hc : capacity x st = .ok c st) (hn : c < n) (hk : k < xs.length) :
    reserve x n { st with thr := some (k+1) } =
      .throw .elem { st with mem := upd st.mem st.next (some (arr n (xs.take k))),
                             next := st.next + 1 } := by
  obtain ⟨σ, W, rfl⟩ := reach_world h
  obtain ⟨s, hs, rfl⟩ := envOf_some rfl hx
  rw [capacity_spec W hs] at hc; simp at hc; subst hc
  obtain ⟨xs, c, p⟩ := s
  have ho := W_obj W hs
  have hl := W_len W hs
  simp only [] at ho hl hk hn ⊢
  cases p with
  | none => have := (W_null W hs).2; simp [this] at hk
  | some a =>
    obtain ⟨hm, hc⟩ := W_mem W hs
    have hlt := W_lt W hs
    have hne : a ≠ st.next := by omega
    have ht := copyLoop_throw (O := Obj)
      (s := { st with mem := upd st.mem st.next (some (arr n [])), next := st.next + 1, thr := some k })
      (a := a) (q := st.next) (c := c) (n := n) (i := 0) (m := xs.length) (xs := xs) (ys := [])
      (k := k) hne (by simp [hne, hm]) hl (by simp) rfl (by omega) (by omega) (by omega) rfl
    simp only [List.nil_append, List.drop_zero, upd_upd] at ht
    unfold reserve
    simp only [M.bind_apply]
    rw [getObj_some (by exact ho)]
    simp only []
    rw [if_pos hn]
    simp only [M.bind_apply, allocArr, allocC, tick]
    have e : (⟨n, fun _ => none⟩ : Blk V) = arr n [] := by
      refine Blk.ext' (by rfl) ?_; intro i; simp
    rw [e, ht]
    have := W.thr
    cases st; simp_all

omit [Inhabited V] [BEq V] in
/-- The shifting loop of `erase` when its `k`-th assignment throws. -/
theorem eraseLoop_throw {O : Type} {s : St O (Blk V)} {a n i j k d m : Nat} {xs : List V}
    (hij : i ≤ j) (hn : xs.length ≤ n) (hm : j + (k + m) = xs.length) (hd : d < m)
    (ht : s.thr = some d)
    {zs : List V} (hz : s.mem a = some (arr n zs)) (hzl : zs.length = xs.length)
    (hz1 : ∀ l, l < i → zs[l]? = xs[l]?) (hz2 : ∀ l, l < k → zs[i+l]? = xs[j+l]?)
    (hz3 : ∀ l, i + k ≤ l → zs[l]? = xs[l]?) :
    ∃ zs', forN (fun k => do let v ← load (some a) (j + k); store (some a) (i + k) v) k m s =
      .throw .elem { s with mem := upd s.mem a (some (arr n zs')), thr := none } ∧
      zs'.length = xs.length ∧ (∀ l, l < i → zs'[l]? = xs[l]?) ∧
      (∀ l, l < k + d → zs'[i+l]? = xs[j+l]?) ∧ (∀ l, i + (k + d) ≤ l → zs'[l]? = xs[l]?) := by
  induction m generalizing k d s zs with
  | zero => omega
  | succ m ih =>
    unfold forN
    have hv : zs[j+k]? = some xs[j+k] := by rw [hz3 _ (by omega)]; simp
    have h1 := load_arr hz (by omega) hv
    cases d with
    | zero =>
      have h2 := store_throw (i := i+k) (v := xs[j+k]) hz (by omega) (by omega) ht
      simp only [M.bind_apply, h1, h2]
      refine ⟨zs, ?_, hzl, hz1, by simpa using hz2, by simpa using hz3⟩
      rw [upd_eq_self hz]
    | succ d =>
      have h2 := store_tick (i := i+k) (v := xs[j+k]) hz (by omega) (by omega) ht
      simp only [M.bind_apply, h1, h2]
      obtain ⟨zs', h3, h4, h5, h6, h7⟩ := ih (k := k+1) (d := d)
        (s := { s with mem := upd s.mem a (some (arr n (zs.set (i+k) xs[j+k]))), thr := some d })
        (zs := zs.set (i+k) xs[j+k]) (by omega) (by omega) rfl (by simp) (by simpa using hzl)
        (by intro l hl; rw [List.getElem?_set_ne (by omega)]; exact hz1 l hl)
        (by
          intro l hl
          by_cases hlk : l = k
          · subst hlk; rw [List.getElem?_set_self (by omega)]; simp
          · rw [List.getElem?_set_ne (by omega)]; exact hz2 l (by omega))
        (by intro l hl; rw [List.getElem?_set_ne (by omega)]; exact hz3 l (by omega))
      refine ⟨zs', ?_, h4, h5, fun l hl => h6 l (by omega), fun l hl => h7 l (by omega)⟩
      rw [h3]; simp only [upd_upd]

/-- **C131 (erase).** If the `k`-th element assignment inside `erase` throws, the vector keeps its size;
the `k` elements already moved down are in place and the rest is as before.  No other vector changes and
the program can go on without a leak. -/
theorem C131_erase_throw_partial {st : VSt V} {e : Env V} (h : Reach st e) {x i j k : Nat} {xs : List V}
    (hx : e x = some xs) (hij : i ≤ j) (hk : j + k < xs.length) :
    ∃ st' zs, erase x i j { st with thr := some k } = .throw .elem st' ∧
      zs.length = xs.length ∧
      (∀ l, zs[l]? = if i ≤ l ∧ l < i + k then xs[l + (j - i)]? else xs[l]?) ∧
      Recovers st' (e.set x (some zs)) := by
  obtain ⟨σ, W, rfl⟩ := reach_world h
  obtain ⟨s, hs, rfl⟩ := envOf_some rfl hx
  obtain ⟨xs, c, p⟩ := s
  have ho := W_obj W hs
  have hl := W_len W hs
  simp only [] at ho hl hk ⊢
  cases p with
  | none => have := (W_null W hs).2; simp [this] at hk
  | some a =>
    obtain ⟨hm, hc⟩ := W_mem W hs
    obtain ⟨zs, h1, h2, h3, h4, h5⟩ := eraseLoop_throw (O := Obj)
      (s := { st with thr := some k }) (i := i) (j := j) (k := 0)
      (m := xs.length - j) (xs := xs) (d := k) hij hl (by omega) (by omega) rfl hm rfl (fun _ _ => rfl)
      (by intros; omega) (fun _ _ => rfl)
    have W2 := W_inplace W hs (ys := zs) (by omega)
    rw [h2, upd_eq_self ho] at W2
    refine ⟨{ st with mem := upd st.mem a (some (arr c zs)), thr := none }, zs, ?_, h2, ?_, ?_⟩
    · unfold erase
      simp only [M.bind_apply]
      rw [getObj_some (by exact ho)]
      simp only []
      rw [if_neg (by omega)]
      simp only [M.bind_apply, h1]
    · intro l
      split
      · rename_i hh
        have := h4 (l - i) (by omega)
        have e1 : i + (l - i) = l := by omega
        have e2 : j + (l - i) = l + (j - i) := by omega
        rw [e1, e2] at this; exact this
      · by_cases h6 : l < i
        · exact h3 l h6
        · exact h5 l (by omega)
    · have := recovers_of_world W2
      rw [envOf_upd] at this
      have et : st.thr = none := W.thr
      rw [← et]
      exact this

omit [Inhabited V] [BEq V] in
theorem set_mix {xs ys : List V} {i : Nat} (hx : i < xs.length) (hy : i < ys.length) :
    (ys.take i ++ xs.drop i).set i ys[i] = ys.take (i+1) ++ xs.drop (i+1) := by
  apply List.ext_getElem?
  intro l
  by_cases hl : l = i
  · subst hl
    rw [List.getElem?_set_self (by simp; omega), List.getElem?_append_left (by simp; omega),
      List.getElem?_take_of_lt (by omega)]
    simp
  · rw [List.getElem?_set_ne (by omega)]
    by_cases hl2 : l < i
    · rw [List.getElem?_append_left (by simp; omega), List.getElem?_append_left (by simp; omega),
        List.getElem?_take_of_lt (by omega), List.getElem?_take_of_lt (by omega)]
    · rw [List.getElem?_append_right (by simp; omega), List.getElem?_append_right (by simp; omega)]
      simp only [List.getElem?_drop, List.length_take]
      congr 1; omega

omit [Inhabited V] [BEq V] in
/-- The assignment loop when its `k`-th assignment throws. -/
theorem assignLoop_throw {O : Type} {s : St O (Blk V)} {a q c n i m k : Nat} {xs ys zs : List V}
    (hne : a ≠ q) (ha : s.mem a = some (arr c ys)) (hc : ys.length ≤ c)
    (hq : s.mem q = some (arr n zs)) (hz : zs = ys.take i ++ xs.drop i) (hix : i + m ≤ xs.length)
    (hiy : i + m ≤ ys.length) (hn : xs.length ≤ n) (hk : k < m) (ht : s.thr = some k) :
    forN (fun k => do let v ← load (some a) k; store (some q) k v) i m s =
      .throw .elem { s with mem := upd s.mem q (some (arr n (ys.take (i+k) ++ xs.drop (i+k)))), thr := none } := by
  induction m generalizing i s zs k with
  | zero => omega
  | succ m ih =>
    unfold forN
    have hv : ys[i]? = some ys[i] := by simp
    have h1 := load_arr ha hc hv
    have hzl : zs.length = xs.length := by subst hz; simp; omega
    cases k with
    | zero =>
      have h2 := store_throw (i := i) (v := ys[i]) hq (by omega) (by omega) ht
      simp only [M.bind_apply, h1, h2]
      subst hz
      simp only [Nat.add_zero]
      rw [upd_eq_self hq]
    | succ k =>
      have h2 := store_tick (i := i) (v := ys[i]) hq (by omega) (by omega) ht
      simp only [M.bind_apply, h1, h2]
      have e : zs.set i ys[i] = ys.take (i+1) ++ xs.drop (i+1) := by
        subst hz
        exact set_mix (by omega) (by omega)
      rw [e]
      rw [ih (s := { s with mem := upd s.mem q (some (arr n (ys.take (i+1) ++ xs.drop (i+1)))), thr := some k })
        (i := i+1) (zs := ys.take (i+1) ++ xs.drop (i+1))
        (by simp [hne, ha]) (by simp) rfl (by omega) (by omega) (by omega) rfl]
      simp only [upd_upd]
      have e1 : i + 1 + k = i + (k + 1) := by omega
      rw [e1]

omit [Inhabited V] [BEq V] in
/-- The assignment loop when the throwing operation comes later. -/
theorem assignLoop_tick {O : Type} {s : St O (Blk V)} {a q c n i m k : Nat} {xs ys zs : List V}
    (hne : a ≠ q) (ha : s.mem a = some (arr c ys)) (hc : ys.length ≤ c)
    (hq : s.mem q = some (arr n zs)) (hz : zs = ys.take i ++ xs.drop i) (hix : i + m ≤ xs.length)
    (hiy : i + m ≤ ys.length) (hn : xs.length ≤ n) (ht : s.thr = some (m + k)) :
    forN (fun k => do let v ← load (some a) k; store (some q) k v) i m s =
      .ok () { s with mem := upd s.mem q (some (arr n (ys.take (i+m) ++ xs.drop (i+m)))), thr := some k } := by
  induction m generalizing i s zs with
  | zero =>
    subst hz
    simp only [forN, M.pure_apply, Nat.add_zero]
    rw [upd_eq_self hq]
    cases s; simp_all
  | succ m ih =>
    unfold forN
    have hv : ys[i]? = some ys[i] := by simp
    have h1 := load_arr ha hc hv
    have hzl : zs.length = xs.length := by subst hz; simp; omega
    have h2 := store_tick (i := i) (k := m + k) (v := ys[i]) hq (by omega) (by omega)
      (by rw [ht]; congr 1; omega)
    simp only [M.bind_apply, h1, h2]
    have e : zs.set i ys[i] = ys.take (i+1) ++ xs.drop (i+1) := by
      subst hz
      exact set_mix (by omega) (by omega)
    rw [e]
    rw [ih (s := { s with mem := upd s.mem q (some (arr n (ys.take (i+1) ++ xs.drop (i+1)))), thr := some (m+k) })
      (i := i+1) (zs := ys.take (i+1) ++ xs.drop (i+1))
      (by simp [hne, ha]) (by simp) rfl (by omega) (by omega) rfl]
    simp only [upd_upd]
    have e1 : i + 1 + m = i + (m + 1) := by omega
    rw [e1]

/-- **C131 (copy assignment, overwriting).** With enough storage, if the assignment of element `k` of
the common part throws, the target holds the first `k` new elements followed by its old ones.  No other
vector changes and the program can go on without a leak. -/
theorem C131_assign_throw_partial {st : VSt V} {e : Env V} (h : Reach st e) {x y k c d : Nat} {xs ys : List V}
    (hx : e x = some xs) (hy : e y = some ys) (hxy : x ≠ y) (hc : capacity x st = .ok c st)
    (hd : capacity y st = .ok d st) (hcd : d ≤ c) (hk : k < xs.length) (hk' : k < ys.length) :
    ∃ st', copyAssign x y { st with thr := some k } = .throw .elem st' ∧
      Recovers st' (e.set x (some (ys.take k ++ xs.drop k))) := by
  obtain ⟨σ, W, rfl⟩ := reach_world h
  obtain ⟨s, hs, rfl⟩ := envOf_some rfl hx
  obtain ⟨sy, hsy, rfl⟩ := envOf_some rfl hy
  rw [capacity_spec W hs] at hc; simp at hc; subst hc
  rw [capacity_spec W hsy] at hd; simp at hd; subst hd
  obtain ⟨xs, c, p⟩ := s
  obtain ⟨ys, d, q⟩ := sy
  have ho := W_obj W hs
  have hoy := W_obj W hsy
  have hl := W_len W hs
  have hly := W_len W hsy
  simp only [] at ho hoy hl hly hk hk' hcd ⊢
  cases p with
  | none => have := (W_null W hs).2; simp [this] at hk
  | some a =>
  cases q with
  | none => have := (W_null W hsy).2; simp [this] at hk'
  | some b =>
    obtain ⟨hm, hc⟩ := W_mem W hs
    obtain ⟨hmy, hcy⟩ := W_mem W hsy
    have hab : b ≠ a := W_ne W (Ne.symm hxy) hsy hs
    have hlen : (ys.take k ++ xs.drop k).length = xs.length := by simp; omega
    have W2 := W_inplace W hs (ys := ys.take k ++ xs.drop k) (by omega)
    rw [hlen, upd_eq_self ho] at W2
    refine ⟨{ st with mem := upd st.mem a (some (arr c (ys.take k ++ xs.drop k))), thr := none }, ?_, ?_⟩
    · have key : ∀ m, k < m → m ≤ xs.length → m ≤ ys.length → _ := fun m h1 h2 h3 =>
        assignLoop_throw (O := Obj) (s := { st with thr := some k }) (a := b) (q := a) (c := d) (n := c)
          (i := 0) (m := m) (k := k) (xs := xs) (ys := ys) (zs := xs) hab (by exact hmy) hly
          (by exact hm) (by simp) (by omega) (by omega) hl h1 rfl
      simp only [Nat.zero_add] at key
      unfold copyAssign reserve
      simp only [M.bind_apply]
      rw [getObj_some (by exact hoy)]
      simp only []
      rw [getObj_some (by exact ho)]
      simp only []
      rw [if_neg (by omega)]
      simp only [M.pure_apply]
      rw [getObj_some (by exact hoy)]
      simp only []
      rw [getObj_some (by exact ho)]
      simp only []
      by_cases hge : ys.length ≥ xs.length
      · rw [if_pos hge]
        simp only [M.bind_apply]
        rw [key xs.length hk (by omega) hge]
      · rw [if_neg hge]
        simp only [M.bind_apply]
        rw [key ys.length hk' (by omega) (by omega)]
    · have := recovers_of_world W2
      rw [envOf_upd] at this
      have et : st.thr = none := W.thr
      rw [← et]
      exact this

omit [BEq V] in
/-- The loop constructing default elements when its `k`-th construction throws. -/
theorem fillLoop_throw {O : Type} {s : St O (Blk V)} {q n i m k : Nat} {ys : List V}
    (hq : s.mem q = some (arr n ys)) (hi : i = ys.length) (hn : i + m ≤ n) (hk : k < m)
    (ht : s.thr = some k) :
    forN (fun i => constructAt (some q) i default) i m s =
      .throw .elem { s with mem := upd s.mem q (some (arr n (ys ++ List.replicate k default))), thr := none } := by
  induction m generalizing i s ys k with
  | zero => omega
  | succ m ih =>
    unfold forN
    cases k with
    | zero =>
      have h2 := constructAt_throw (v := (default : V)) hq hi (by omega) ht
      simp only [M.bind_apply, h2]
      simp
      rw [upd_eq_self hq]
    | succ k =>
      have h2 := constructAt_tick (v := (default : V)) hq hi (by omega) ht
      simp only [M.bind_apply, h2]
      rw [ih (s := { s with mem := upd s.mem q (some (arr n (ys ++ [default]))), thr := some k })
        (ys := ys ++ [default]) (by simp) (by simp [hi]) (by omega) (by omega) rfl]
      simp only [upd_upd]
      congr 5
      rw [List.replicate_succ, List.append_assoc, List.singleton_append]

omit [Inhabited V] [BEq V] in
/-- Traversal of the first elements of a block. -/
theorem collect_pre {st : VSt V} {a n i m : Nat} {xs zs : List V} (h : st.mem a = some (arr n (xs ++ zs)))
    (hn : (xs ++ zs).length ≤ n) (hm : i + m = xs.length) :
    collect (some a) i m st = .ok (xs.drop i) st := by
  induction m generalizing i with
  | zero => simp [collect, ← hm]
  | succ m ih =>
    have hv : (xs ++ zs)[i]? = some xs[i] := by
      rw [List.getElem?_append_left (by omega)]; simp
    have h1 := load_arr h hn hv
    have h2 := ih (i := i+1) (by omega)
    simp only [collect, M.bind_apply, h1, h2, M.pure_apply]
    simp

omit [Inhabited V] [BEq V] in
/-- The destructor of a vector whose storage holds live elements beyond its size. -/
theorem dtor_stray {st : VSt V} {x a c : Nat} {xs zs : List V}
    (ho : st.objs x = some ⟨xs.length, c, some a⟩) (hm : st.mem a = some (arr c (xs ++ zs)))
    (hl : xs.length + zs.length ≤ c) (hz : zs ≠ []) :
    dtor x st = .ub .liveFree := by
  have hz' : 0 < zs.length := List.length_pos_iff.mpr hz
  unfold dtor clear
  simp only [M.bind_apply, getObj_some ho]
  rw [destroyN_ok hm (by simp; omega) (by intro j _ hj; simp at hj ⊢; omega)]
  simp only []
  rw [setObj_some (by exact ho)]
  simp only []
  rw [getObj_some (by exact upd_same _ _ _)]
  simp only []
  rw [if_pos (by omega)]
  simp only [M.bind_apply, freeArr, upd_same]
  rw [if_neg (by simp [Blk.hole])]
  rw [if_neg]
  simp only [List.all_eq_true, List.mem_range]
  intro hh
  have := hh xs.length (by omega)
  simp [Blk.hole, hz] at this

/-- **C131 (resize).** With enough storage, if constructing the `k`-th new element throws, every vector
keeps its contents, but the `k` elements already constructed stay alive behind the end of the vector, where
no destructor reaches them. -/
theorem C131_resize_stray {st : VSt V} {e : Env V} (h : Reach st e) {x n c k : Nat} {xs : List V}
    (hx : e x = some xs) (hc : capacity x st = .ok c st) (hn : n ≤ c) (hk : xs.length + k < n) :
    ∃ a st', data x st = .ok (some a) st ∧ resize x n { st with thr := some k } = .throw .elem st' ∧
      st' = { st with mem := upd st.mem a (some (arr c (xs ++ List.replicate k default))) } ∧
      toList x st' = .ok xs st' ∧ (0 < k → dtor x st' = .ub .liveFree) := by
  obtain ⟨σ, W, rfl⟩ := reach_world h
  obtain ⟨s, hs, rfl⟩ := envOf_some rfl hx
  rw [capacity_spec W hs] at hc; simp at hc; subst hc
  obtain ⟨xs, c, p⟩ := s
  have ho := W_obj W hs
  have hl := W_len W hs
  simp only [] at ho hl hk hn ⊢
  cases p with
  | none => have := (W_null W hs).1; omega
  | some a =>
    obtain ⟨hm, hc⟩ := W_mem W hs
    refine ⟨a, _, data_spec W hs, ?_, rfl, ?_, ?_⟩
    · unfold resize reserve
      simp only [M.bind_apply]
      rw [getObj_some (by exact ho)]
      simp only []
      rw [if_pos (by omega)]
      simp only [M.bind_apply]
      rw [getObj_some (by exact ho)]
      simp only []
      rw [if_neg (by omega)]
      simp only [M.pure_apply]
      rw [getObj_some (by exact ho)]
      simp only []
      rw [fillLoop_throw (n := c) (ys := xs) (k := k) (by exact hm) rfl (by omega) (by omega) rfl]
      have := W.thr
      cases st; simp_all
    · unfold toList
      simp only [M.bind_apply]
      rw [getObj_some (by exact ho)]
      simp only []
      rw [collect_pre (n := c) (xs := xs) (zs := List.replicate k default) (by simp) (by simp; omega) (by simp)]
      simp
    · intro hk0
      exact dtor_stray (a := a) (c := c) (xs := xs) (zs := List.replicate k default) (by exact ho)
        (by simp) (by simp; omega) (by simp; omega)

/-- **C131 (copy assignment, appending).** With enough storage, if copying element `k` beyond the common
part throws, the target has its old size but new values, and the elements already appended stay alive
behind its end, where no destructor reaches them. -/
theorem C131_assign_stray {st : VSt V} {e : Env V} (h : Reach st e) {x y k c d : Nat} {xs ys : List V}
    (hx : e x = some xs) (hy : e y = some ys) (hxy : x ≠ y) (hc : capacity x st = .ok c st)
    (hd : capacity y st = .ok d st) (hcd : d ≤ c) (hk : xs.length < k) (hk' : k < ys.length) :
    ∃ st', copyAssign x y { st with thr := some k } = .throw .elem st' ∧
      toList x st' = .ok (ys.take xs.length) st' ∧ dtor x st' = .ub .liveFree := by
  obtain ⟨σ, W, rfl⟩ := reach_world h
  obtain ⟨s, hs, rfl⟩ := envOf_some rfl hx
  obtain ⟨sy, hsy, rfl⟩ := envOf_some rfl hy
  rw [capacity_spec W hs] at hc; simp at hc; subst hc
  rw [capacity_spec W hsy] at hd; simp at hd; subst hd
  obtain ⟨xs, c, p⟩ := s
  obtain ⟨ys, d, q⟩ := sy
  have ho := W_obj W hs
  have hoy := W_obj W hsy
  have hl := W_len W hs
  have hly := W_len W hsy
  simp only [] at ho hoy hl hly hk hk' hcd ⊢
  cases p with
  | none => have := (W_null W hs).1; omega
  | some a =>
  cases q with
  | none => have := (W_null W hsy).2; simp [this] at hk'
  | some b =>
    obtain ⟨hm, hc⟩ := W_mem W hs
    obtain ⟨hmy, hcy⟩ := W_mem W hsy
    have hab : b ≠ a := W_ne W (Ne.symm hxy) hsy hs
    have k1 := assignLoop_tick (O := Obj) (s := { st with thr := some k }) (a := b) (q := a) (c := d)
      (n := c) (i := 0) (m := xs.length) (k := k - xs.length) (xs := xs) (ys := ys) (zs := xs) hab
      (by exact hmy) hly (by exact hm) (by simp) (by omega) (by omega) hl
      (by show some k = _; congr 1; omega)
    simp only [Nat.zero_add, List.drop_length, List.append_nil] at k1
    have k2 := copyLoop_throw (O := Obj)
      (s := { st with mem := upd st.mem a (some (arr c (ys.take xs.length))), thr := some (k - xs.length) })
      (a := b) (q := a) (c := d) (n := c) (i := xs.length) (m := ys.length - xs.length)
      (k := k - xs.length) (xs := ys) (ys := ys.take xs.length) hab (by simp [hab, hmy]) hly (by simp)
      (by simp; omega) (by omega) (by omega) (by omega) rfl
    simp only [upd_upd] at k2
    refine ⟨{ st with mem := upd st.mem a (some (arr c (ys.take xs.length ++
      (ys.drop xs.length).take (k - xs.length)))), thr := none }, ?_, ?_, ?_⟩
    · unfold copyAssign reserve
      simp only [M.bind_apply]
      rw [getObj_some (by exact hoy)]
      simp only []
      rw [getObj_some (by exact ho)]
      simp only []
      rw [if_neg (by omega)]
      simp only [M.pure_apply]
      rw [getObj_some (by exact hoy)]
      simp only []
      rw [getObj_some (by exact ho)]
      simp only []
      rw [if_pos (by omega)]
      simp only [M.bind_apply, k1, k2]
    · unfold toList
      simp only [M.bind_apply]
      rw [getObj_some (by exact ho)]
      simp only []
      rw [collect_pre (n := c) (xs := ys.take xs.length)
        (zs := (ys.drop xs.length).take (k - xs.length)) (by simp) (by simp; omega) (by simp; omega)]
      simp
    · exact dtor_stray (a := a) (c := c) (xs := ys.take xs.length)
        (zs := (ys.drop xs.length).take (k - xs.length)) (by simp [ho]; omega)
        (by simp) (by simp; omega) (by simp; omega)

/-- **C131 (constructing `n` elements).** If constructing the `k`-th element of a new vector throws, the
variable never comes to life and its storage, with `k` live elements, is leaked. -/
theorem C131_ctorN_leak {st : VSt V} {e : Env V} (h : Reach st e) {x n k : Nat}
    (hx : e x = none) (hk : k < n) :
    ctorN x n { st with thr := some (k+1) } =
      .throw .elem { st with mem := upd st.mem st.next (some (arr n (List.replicate k default))),
                             next := st.next + 1 } := by
  obtain ⟨σ, W, rfl⟩ := reach_world h
  have hno := W.dom x (envOf_none rfl hx)
  unfold ctorN ctor reserve
  simp only [M.bind_apply]
  rw [newObj_none (by exact hno)]
  simp only [M.onThrow, M.bind_apply]
  rw [getObj_some (by exact upd_same _ _ _)]
  simp only []
  rw [if_pos (by omega)]
  simp only [M.bind_apply, allocArr, allocC, tick, forN, M.pure_apply]
  have e : (⟨n, fun _ => none⟩ : Blk V) = arr n [] := by
    refine Blk.ext' (by rfl) ?_; intro i; simp
  rw [e]
  simp only [ne_eq, not_true, if_false]
  rw [setObj_some (by exact upd_same _ _ _)]
  simp only [upd_upd]
  rw [getObj_some (by exact upd_same _ _ _)]
  simp only []
  rw [setObj_some (by exact upd_same _ _ _)]
  simp only [upd_upd]
  rw [getObj_some (by exact upd_same _ _ _)]
  simp only []
  rw [fillLoop_throw (i := 0) (n := n) (ys := []) (k := k) (by simp) rfl (by omega) hk rfl]
  simp only [List.nil_append, upd_upd]
  rw [delObj_some (by exact upd_same _ _ _)]
  simp only [upd_upd]
  rw [upd_eq_self hno]
  have := W.thr
  cases st; simp_all

/-- **C131 is false**: growing a one-element vector whose element copy throws leaks the new storage. -/
theorem C131_vector_throw_refuted : ¬ C131_full_statement Nat := by
  intro hall
  obtain ⟨st, hr, hcap⟩ := reach_full
  have hl := C131_reserve_leak hr (x := 0) (xs := [5]) (n := 2) (k := 0) rfl hcap (by decide) (by decide)
  obtain ⟨σ, W, he⟩ := reach_world hr
  have hop : runOp (.reserve 0 2) { st with thr := some 1 } = .throw .elem
      { st with mem := upd st.mem st.next (some (arr 2 [])), next := st.next + 1 } := by
    simp only [runOp, M.bind_apply]
    rw [hl]; rfl
  obtain ⟨e', h1, h2⟩ := hall st _ (.reserve 0 2) 1 .elem _ hr (by rfl) hop W.thr
  have : e' = Env.none.set 0 (some [5]) := funext fun z => h1 z (by simp [Op.mutates])
  subst this
  obtain ⟨st', h3, h4⟩ := h2 [.destroy 0] _ [.unit] rfl
  have h5 := h4 (by intro z; simp [Env.set, Env.none])
  obtain ⟨s, hs, hx⟩ := envOf_some he (x := 0) (xs := [5]) rfl
  obtain ⟨xs, c, p⟩ := s
  simp only [] at hx; subst hx
  have ho := W_obj W hs
  simp only [] at ho
  cases p with
  | none => have := (W_null W hs).2; simp at this
  | some a =>
    obtain ⟨hm, hc⟩ := W_mem W hs
    have hlt := W_lt W hs
    have hne : a ≠ st.next := by omega
    rw [runOps, runOp] at h3
    simp only [M.bind_apply] at h3
    rw [dtor_raw (a := a) (c := c) (xs := [5]) (by exact ho) (by simp [hne, hm]) (W_len W hs) hc] at h3
    simp [runOps] at h3
    have h6 := h5 st.next
    rw [← h3] at h6
    simp [Ne.symm hne] at h6

/-! ### The hypotheses are satisfiable -/

/-- Two vectors, the first with room for five elements. -/
theorem reach_two : ∃ st : VSt Nat,
    Reach st ((Env.none.set 0 (some [5, 6])).set 1 (some [7, 8, 9, 10])) ∧
    capacity 0 st = .ok 5 st ∧ capacity 1 st = .ok 4 st := by
  have hs : specRun (V := Nat) Env.none [.newList 0 [5, 6], .reserve 0 5, .newList 1 [7, 8, 9, 10]] =
    some ((Env.none.set 0 (some [5, 6])).set 1 (some [7, 8, 9, 10]), [.unit, .unit, .unit]) := rfl
  obtain ⟨st, hr⟩ := C01_vector_history hs
  have R : Reach st _ := ⟨_, _, hs, hr⟩
  obtain ⟨c, h1, _⟩ := C03_vector_capacity R (x := 0) (xs := [5, 6]) rfl
  obtain ⟨d, h2, _⟩ := C03_vector_capacity R (x := 1) (xs := [7, 8, 9, 10]) rfl
  have k1 : resVal ((runOps (V := Nat) [.newList 0 [5, 6], .reserve 0 5, .newList 1 [7, 8, 9, 10]] >>=
    fun _ => capacity 0) St.init) = some 5 := by decide +kernel
  have k2 : resVal ((runOps (V := Nat) [.newList 0 [5, 6], .reserve 0 5, .newList 1 [7, 8, 9, 10]] >>=
    fun _ => capacity 1) St.init) = some 4 := by decide +kernel
  simp [hr, h1, resVal] at k1
  simp [hr, h2, resVal] at k2
  subst k1 k2
  exact ⟨st, R, h1, h2⟩

/-- C131: the second assignment of `a = b` throws; the third throws after one element was appended. -/
example : ∃ st : VSt Nat,
    (∃ st', copyAssign 0 1 { st with thr := some 1 } = .throw .elem st' ∧
      ∃ st'', runOps [.toList 0, .toList 1, .pushBack 0 3, .destroy 0, .destroy 1] st' =
        .ok [.vals [7, 6], .vals [7, 8, 9, 10], .unit, .unit, .unit] st'' ∧ ∀ a, st''.mem a = none) ∧
    (∃ st', copyAssign 0 1 { st with thr := some 3 } = .throw .elem st' ∧
      toList 0 st' = .ok [7, 8] st' ∧ dtor 0 st' = .ub .liveFree) := by
  obtain ⟨st, R, h1, h2⟩ := reach_two
  obtain ⟨st', h3, h4⟩ := C131_assign_throw_partial R (x := 0) (y := 1) (k := 1) (xs := [5, 6])
    (ys := [7, 8, 9, 10]) rfl rfl (by decide) h1 h2 (by decide) (by decide) (by decide)
  obtain ⟨st2, h5, h6, h7⟩ := C131_assign_stray R (x := 0) (y := 1) (k := 3) (xs := [5, 6])
    (ys := [7, 8, 9, 10]) rfl rfl (by decide) h1 h2 (by decide) (by decide) (by decide)
  obtain ⟨st'', h8, h9⟩ := h4 [.toList 0, .toList 1, .pushBack 0 3, .destroy 0, .destroy 1] _
    [.vals [7, 6], .vals [7, 8, 9, 10], .unit, .unit, .unit] rfl
  refine ⟨st, ⟨st', h3, st'', h8, h9 ?_⟩, st2, h5, h6, h7⟩
  intro z
  by_cases h0 : z = 0 <;> by_cases h10 : z = 1 <;> simp [Env.set, Env.none, h0, h10]

/-- C131: erasing the first of three elements, the second move throws; growing with a throwing copy;
resizing with a throwing constructor; a new vector of four elements whose third throws. -/
example : ∃ (st st1 st2 : VSt Nat) (zs : List Nat),
    erase 0 0 1 { st with thr := some 1 } = .throw .elem st1 ∧ zs[0]? = some 6 ∧ zs[1]? = some 6 ∧
    zs[2]? = some 7 ∧ (∃ s, reserve 0 9 { st with thr := some 3 } = .throw .elem s ∧
      s.mem st.next = some (arr 9 [5, 6])) ∧
    (∃ s, resize 0 4 { st with thr := some 0 } = .throw .elem s ∧ toList 0 s = .ok [5, 6, 7] s) ∧
    ctorN 1 4 { st with thr := some 3 } = .throw .elem st2 ∧ st2.mem st.next = some (arr 4 [0, 0]) ∧
    set 0 2 8 { st with thr := some 0 } = .throw .elem st ∧
    reserve 0 5 { st with thr := some 0 } = .throw .badAlloc st := by
  obtain ⟨st, R, hc⟩ := reach_example
  obtain ⟨st1, zs, h1, _, h2, _⟩ := C131_erase_throw_partial R (x := 0) (xs := [5, 6, 7]) (i := 0) (j := 1)
    (k := 1) rfl (by decide) (by decide)
  have h3 := C131_reserve_leak R (x := 0) (xs := [5, 6, 7]) (n := 9) (k := 2) rfl hc (by decide) (by decide)
  obtain ⟨_, s, _, h4, _, h5, _⟩ := C131_resize_stray R (x := 0) (xs := [5, 6, 7]) (n := 4) (k := 0) rfl hc
    (by decide) (by decide)
  have h6 := C131_ctorN_leak R (x := 1) (n := 4) (k := 2) rfl (by decide)
  exact ⟨st, st1, _, zs, h1, by rw [h2]; rfl, by rw [h2]; rfl, by rw [h2]; rfl,
    ⟨_, h3, by simp⟩, ⟨s, h4, h5⟩, h6, by simp,
    C131_set_throw_partial R (xs := [5, 6, 7]) rfl (by decide) 8,
    C131_reserve_bad_alloc_partial R (xs := [5, 6, 7]) rfl hc (by decide)⟩

end Cest.Vec
