import Verif.Vector.HistThrow
/-
Lemmas for C141: one step of a program, with an exception or without, and whole programs.
-/
namespace Cest.Vec
open Cest
variable {V : Type}

section
variable {st : VSt V} {σ : Nat → Option (AV V)} {x : Nat} {s : AV V}

/-! ### Copy assignment -/

/-- Assigning a block's elements to themselves. -/
theorem selfLoop_throw {O : Type} {s : St O (Blk V)} {a n i m k : Nat} {xs : List V}
    (ha : s.mem a = some (arr n xs)) (hn : xs.length ≤ n) (hm : i + m ≤ xs.length) (hk : k < m)
    (ht : s.thr = some k) :
    forN (fun k => do let v ← load (some a) k; store (some a) k v) i m s = .throw .elem { s with thr := none } := by
  induction m generalizing i s k with
  | zero => omega
  | succ m ih =>
    unfold forN
    have hv : xs[i]? = some xs[i] := by simp
    have h1 := load_arr ha hn hv
    cases k with
    | zero =>
      have h2 := store_throw (i := i) (v := xs[i]) ha (by omega) hn ht
      simp only [M.bind_apply, h1, h2]
    | succ k =>
      have h2 := store_tick (i := i) (v := xs[i]) ha (by omega) hn ht
      rw [List.set_getElem_self, upd_eq_self ha] at h2
      simp only [M.bind_apply, h1, h2]
      rw [ih (s := { s with thr := some k }) (by exact ha) (by omega) (by omega) rfl]

/-- `copyAssign` is `reserve` and then an assignment with enough storage. -/
theorem copyAssign_reserved {y : Nat} {sy : AV V} (W : VW st σ) (hx : σ x = some s) (hy : σ y = some sy)
    (hc : s.cap < sy.cap) : ∃ st1, VW st1 (upd σ x (some ⟨s.xs, sy.cap, some st.next⟩)) ∧
      ∀ k, copyAssign x y { st with thr := some (k + (s.xs.length + 1)) } =
        copyAssign x y { st1 with thr := some k } := by
  have hyx : y ≠ x := by intro h; subst h; rw [hx] at hy; cases hy; omega
  obtain ⟨st1, h1, W1, h2⟩ := reserve_arm W hx hc
  have e : s.reserve sy.cap st.next = ⟨s.xs, sy.cap, some st.next⟩ := by
    unfold AV.reserve; rw [if_pos hc]
  rw [e] at W1
  refine ⟨st1, W1, fun k => ?_⟩
  have hoy := W_obj W hy
  have hoy1 := W_obj W1 (x := y) (s := sy) (by simp [hyx, hy])
  have ho1 := W_obj W1 (upd_same _ _ _)
  have h3 := reserve_idle W1 (upd_same _ _ _) (n := sy.cap) (Nat.le_refl _) (some k)
  unfold copyAssign
  simp only [M.bind_apply]
  rw [getObj_some (by exact hoy), getObj_some (by exact hoy1)]
  simp only [h2, h3]

theorem copyAssign_throw {y : Nat} {sy : AV V} (W : VW st σ) (hx : σ x = some s) (hy : σ y = some sy)
    (hc : sy.cap ≤ s.cap) {k : Nat} (hk : k < sy.xs.length) (hk' : k ≤ s.xs.length) :
    ∃ t, copyAssign x y { st with thr := some k } = .throw .elem t ∧
      Left t (upd σ x (some ⟨sy.xs.take k ++ s.xs.drop k, s.cap, s.p⟩)) 0 := by
  obtain ⟨xs, c, p⟩ := s
  obtain ⟨ys, d, q⟩ := sy
  have ho := W_obj W hx
  have hoy := W_obj W hy
  have hl := W_len W hx
  have hly := W_len W hy
  simp only [] at ho hoy hl hly hk hk' hc ⊢
  have start : ∀ (t : VSt V), t.objs = st.objs → copyAssign x y t = (do
      if ys.length ≥ xs.length then
        forN (fun i => do
          let v ← load q i
          store p i v) 0 xs.length
        forN (fun i => do
          let v ← load q i
          constructAt p i v) xs.length (ys.length - xs.length)
      else
        forN (fun i => do
          let v ← load q i
          store p i v) 0 ys.length
        destroyN p ys.length (xs.length - ys.length)
      let oy ← getObj y
      let o ← getObj x
      setObj x { o with size := oy.size } : VM V Unit) t := by
    intro t ht
    unfold copyAssign reserve
    simp only [M.bind_apply]
    rw [getObj_some (by rw [ht]; exact hoy)]
    simp only []
    rw [getObj_some (by rw [ht]; exact ho)]
    simp only []
    rw [if_neg (by omega)]
    simp only [M.pure_apply]
    rw [getObj_some (by rw [ht]; exact hoy)]
    simp only []
    rw [getObj_some (by rw [ht]; exact ho)]
  cases q with
  | none => have := (W_null W hy).2; simp [this] at hk
  | some b =>
  cases p with
  | none => have := (W_null W hx).1; omega
  | some a =>
    obtain ⟨hm, hc0⟩ := W_mem W hx
    obtain ⟨hmy, hcy⟩ := W_mem W hy
    have hlen : (ys.take k ++ xs.drop k).length = xs.length := by simp; omega
    have W2 := W_inplace W hx (ys := ys.take k ++ xs.drop k) (by omega)
    rw [hlen, upd_eq_self ho] at W2
    refine ⟨{ st with mem := upd st.mem a (some (arr c (ys.take k ++ xs.drop k))) }, ?_, left_world W2⟩
    rw [start { st with thr := some k } rfl]
    have et : st.thr = none := W.thr
    by_cases hxy : x = y
    · subst hxy
      rw [hx] at hy
      cases hy
      rw [if_pos (Nat.le_refl _)]
      simp only [M.bind_apply]
      rw [selfLoop_throw (by exact hm) hl (by omega) hk rfl]
      simp only [List.take_append_drop]
      rw [upd_eq_self hm, ← et]
    have hab : b ≠ a := W_ne W (Ne.symm hxy) hy hx
    by_cases hk2 : k < xs.length
    · have key : ∀ m, k < m → m ≤ xs.length → m ≤ ys.length → _ := fun m h1 h2 h3 =>
        assignLoop_throw (O := Obj) (s := { st with thr := some k }) (a := b) (q := a) (c := d) (n := c)
          (i := 0) (m := m) (k := k) (xs := xs) (ys := ys) (zs := xs) hab (by exact hmy) hly
          (by exact hm) (by simp) (by omega) (by omega) hl h1 rfl
      simp only [Nat.zero_add] at key
      by_cases hge : ys.length ≥ xs.length
      · rw [if_pos hge]
        simp only [M.bind_apply]
        rw [key xs.length hk2 (by omega) hge, ← et]
      · rw [if_neg hge]
        simp only [M.bind_apply]
        rw [key ys.length hk (by omega) (by omega), ← et]
    · have hkx : k = xs.length := by omega
      have k1 := assignLoop_tick (O := Obj) (s := { st with thr := some k }) (a := b) (q := a) (c := d)
        (n := c) (i := 0) (m := xs.length) (k := 0) (xs := xs) (ys := ys) (zs := xs) hab
        (by exact hmy) hly (by exact hm) (by simp) (by omega) (by omega) hl
        (by show some k = _; congr 1)
      simp only [Nat.zero_add, List.drop_length, List.append_nil] at k1
      have k2 := copyLoop_throw (O := Obj)
        (s := { st with mem := upd st.mem a (some (arr c (ys.take xs.length))), thr := some 0 })
        (a := b) (q := a) (c := d) (n := c) (i := xs.length) (m := ys.length - xs.length)
        (k := 0) (xs := ys) (ys := ys.take xs.length) hab (by simp [hab, hmy]) hly (by simp)
        (by simp; omega) (by omega) (by omega) (by omega) rfl
      simp only [upd_upd, List.take_zero, List.append_nil] at k2
      rw [if_pos (by omega)]
      simp only [M.bind_apply, k1, k2]
      rw [← et, hkx, List.drop_length, List.append_nil]

theorem copyAssign_cost' {y : Nat} {sy : AV V} (W : VW st σ) (hx : σ x = some s) (hy : σ y = some sy) :
    CostAt (copyAssign x y) st ((if s.cap < sy.cap then 1 + s.xs.length else 0) + sy.xs.length) := by
  obtain ⟨st2, h2, W2⟩ := reserve_spec (n := sy.cap) W hx
  have hy2 : ∃ s', (upd σ x (some (s.reserve sy.cap st.next))) y = some s' ∧ s'.xs = sy.xs := by
    by_cases h : y = x
    · subst h
      have : s = sy := by rw [hx] at hy; exact Option.some.inj hy
      subst this
      exact ⟨_, upd_same _ _ _, by unfold AV.reserve; split <;> rfl⟩
    · exact ⟨sy, by simp [h, hy], rfl⟩
  obtain ⟨s', hy2, hs'⟩ := hy2
  have ho2 := W_obj W2 (upd_same _ _ _)
  unfold copyAssign
  refine (CostAt.bind_ok (b₁ := 0) (b₂ := (if s.cap < sy.cap then 1 + s.xs.length else 0) + sy.xs.length)
    (CostLe.getObj _ st W.thr) (getObj_some (W_obj W hy)) ?_).mono (by omega)
  refine CostAt.bind_ok (b₁ := if s.cap < sy.cap then 1 + s.xs.length else 0) (b₂ := sy.xs.length)
    (reserve_cost (W_obj W hx) W.thr) h2 ?_
  refine (CostAt.bind_ok (b₁ := 0) (b₂ := sy.xs.length) (CostLe.getObj _ st2 W2.thr)
    (getObj_some (W_obj W2 hy2)) ?_).mono (by omega)
  refine (CostAt.bind_ok (b₁ := 0) (b₂ := sy.xs.length) (CostLe.getObj _ st2 W2.thr)
    (getObj_some ho2) ?_).mono (by omega)
  rw [← hs']
  generalize ((s.reserve sy.cap st.next).xs.length) = m
  refine CostLe.ite (b := s'.xs.length) (fun h => ?_) (fun h => ?_) st2 W2.thr
  · refine CostLe.mono (b := m + (s'.xs.length - m)) ?_ (by simp at h; omega)
    refine CostLe.bind (assignLoop_cost _ _ _ _) fun _ => ?_
    refine CostLe.bind (b₁ := s'.xs.length - m) (b₂ := 0) (copyLoop_cost _ _ _ _) fun _ => ?_
    cost0
  · refine CostLe.bind (b₁ := s'.xs.length) (b₂ := 0) (assignLoop_cost _ _ _ _) fun _ => ?_
    cost0

/-! ### resize -/

variable [Inhabited V]

theorem resize_cost' {n : Nat} (W : VW st σ) (hx : σ x = some s) (hn : s.xs.length < n) :
    CostAt (resize x n) st ((if s.cap < n then 1 + s.xs.length else 0) + (n - s.xs.length)) := by
  have ho := W_obj W hx
  unfold resize
  refine (CostAt.bind_ok (b₁ := 0) (b₂ := (if s.cap < n then 1 + s.xs.length else 0) + (n - s.xs.length))
    (CostLe.getObj _ st W.thr) (getObj_some ho) ?_).mono (by omega)
  simp only [hn, if_true]
  obtain ⟨st2, h2, W2⟩ := reserve_spec (n := n) W hx
  have ho2 := W_obj W2 (upd_same _ _ _)
  refine (CostAt.bind_ok (b₁ := if s.cap < n then 1 + s.xs.length else 0) (b₂ := n - s.xs.length)
    (reserve_cost ho W.thr) h2 ?_).mono (by omega)
  refine (CostAt.bind_ok (b₁ := 0) (b₂ := n - s.xs.length) (CostLe.getObj _ st2 W2.thr)
    (getObj_some ho2) ?_).mono (by omega)
  have e : (s.reserve n st.next).xs = s.xs := by unfold AV.reserve; split <;> rfl
  simp only [e]
  refine CostLe.bind (b₁ := n - s.xs.length) (b₂ := 0) (fillLoop_cost _ _ _ _) (fun _ => ?_) st2 W2.thr
  cost0

theorem resize_reserved {n : Nat} (W : VW st σ) (hx : σ x = some s) (hc : s.cap < n) :
    ∃ st1, VW st1 (upd σ x (some ⟨s.xs, n, some st.next⟩)) ∧
      ∀ k, resize x n { st with thr := some (k + (s.xs.length + 1)) } = resize x n { st1 with thr := some k } := by
  obtain ⟨st1, h1, W1, h2⟩ := reserve_arm W hx hc
  have e : s.reserve n st.next = ⟨s.xs, n, some st.next⟩ := by
    unfold AV.reserve; rw [if_pos hc]
  rw [e] at W1
  have hl := W_len W hx
  have ho := W_obj W hx
  have ho1 := W_obj W1 (upd_same _ _ _)
  refine ⟨st1, W1, fun k => ?_⟩
  have h3 := reserve_idle W1 (upd_same _ _ _) (n := n) (Nat.le_refl _) (some k)
  unfold resize
  simp only [M.bind_apply]
  rw [getObj_some (by exact ho), getObj_some (by exact ho1)]
  simp only []
  rw [if_pos (by omega), if_pos (by omega)]
  simp only [M.bind_apply, h2, h3]

theorem resize_throw {n : Nat} (W : VW st σ) (hx : σ x = some s) (hn : s.xs.length < n) (hc : n ≤ s.cap) :
    resize x n { st with thr := some 0 } = .throw .elem st := by
  obtain ⟨xs, c, p⟩ := s
  have ho := W_obj W hx
  simp only [] at ho hn hc
  cases p with
  | none => have := (W_null W hx).1; omega
  | some a =>
    obtain ⟨hm, hc0⟩ := W_mem W hx
    unfold resize reserve
    simp only [M.bind_apply]
    rw [getObj_some (by exact ho)]
    simp only []
    rw [if_pos (by omega)]
    simp only [M.bind_apply]
    rw [getObj_some (by exact ho)]
    simp only []
    rw [if_neg (by omega)]
    simp only [M.pure_apply]
    rw [getObj_some (by exact ho)]
    simp only []
    rw [fillLoop_throw (n := c) (ys := xs) (k := 0) (by exact hm) rfl (by omega) (by omega) rfl]
    simp only [List.replicate_zero, List.append_nil]
    rw [upd_eq_self hm]
    have := W.thr
    cases st; simp_all

/-! ### Constructors -/

theorem ctorN_throw {n k : Nat} (W : VW st σ) (hx : σ x = none) (hn : n ≠ 0) (hk : k ≤ n) :
    ∃ ex t, ctorN x n { st with thr := some k } = .throw ex t ∧ Left t σ (if k = 0 then 0 else 1) := by
  have hno := W.dom x hx
  have e : (⟨n, fun _ => none⟩ : Blk V) = arr n [] := by
    refine Blk.ext' (by rfl) ?_; intro i; simp
  have et : st.thr = none := W.thr
  cases k with
  | zero =>
    refine ⟨.badAlloc, st, ?_, left_world W⟩
    unfold ctorN ctor reserve
    simp only [M.bind_apply]
    rw [newObj_none (by exact hno)]
    simp only [M.onThrow, M.bind_apply]
    rw [getObj_some (by exact upd_same _ _ _)]
    simp only []
    rw [if_pos (by omega)]
    simp only [M.bind_apply, allocArr, allocC, tick]
    rw [delObj_some (by exact upd_same _ _ _)]
    simp only [upd_upd]
    rw [upd_eq_self hno, ← et]
  | succ k =>
    refine ⟨.elem, _, ?_, left_fresh W (arr n (List.replicate k default))⟩
    unfold ctorN ctor reserve
    simp only [M.bind_apply]
    rw [newObj_none (by exact hno)]
    simp only [M.onThrow, M.bind_apply]
    rw [getObj_some (by exact upd_same _ _ _)]
    simp only []
    rw [if_pos (by omega)]
    simp only [M.bind_apply, allocArr, allocC, tick, forN, M.pure_apply]
    rw [e]
    simp only [ne_eq, not_true, if_false]
    rw [setObj_some (by exact upd_same _ _ _)]
    simp only [upd_upd]
    rw [getObj_some (by exact upd_same _ _ _)]
    simp only []
    rw [setObj_some (by exact upd_same _ _ _)]
    simp only [upd_upd]
    rw [getObj_some (by exact upd_same _ _ _)]
    simp only []
    rw [fillLoop_throw (i := 0) (n := n) (ys := []) (k := k) (by simp) rfl (by omega) (by omega) rfl]
    simp only [List.nil_append, upd_upd]
    rw [delObj_some (by exact upd_same _ _ _)]
    simp only [upd_upd]
    rw [upd_eq_self hno, ← et]

omit [Inhabited V] in
theorem copyCtor_bad_alloc {y : Nat} {sy : AV V} (W : VW st σ) (hx : σ x = none) (hy : σ y = some sy)
    (hpos : sy.cap ≠ 0) : copyCtor x y { st with thr := some 0 } = .throw .badAlloc st := by
  have hyx : y ≠ x := by intro hh; subst hh; simp [hx] at hy
  have hno := W.dom x hx
  have ho := W_obj W hy
  unfold copyCtor ctor
  simp only [M.bind_apply]
  rw [newObj_none (by exact hno)]
  simp only [M.onThrow, M.bind_apply]
  rw [getObj_some (o := ⟨sy.xs.length, sy.cap, sy.p⟩) (by simp [hyx, ho])]
  simp only [reserve, M.bind_apply]
  rw [getObj_some (by exact upd_same _ _ _)]
  simp only []
  rw [if_pos (by omega)]
  simp only [M.bind_apply, allocArr, allocC, tick]
  simp [dtor, clear, getObj, setObj, delObj, destroyN_null, upd_upd]
  rw [upd_eq_self hno]
  have := W.thr
  cases st; simp_all

/-! ### erase -/

omit [Inhabited V] in
theorem erase_throw {i j k : Nat} (W : VW st σ) (hs : σ x = some s) (hij : i ≤ j) (hk : k < s.xs.length - j) :
    ∃ t, erase x i j { st with thr := some k } = .throw .elem t ∧
      Left t (upd σ x (some ⟨s.xs.take i ++ (s.xs.drop j).take k ++ s.xs.drop (i + k), s.cap, s.p⟩)) 0 := by
  obtain ⟨xs, c, p⟩ := s
  have ho := W_obj W hs
  have hl := W_len W hs
  simp only [] at ho hl hk ⊢
  cases p with
  | none => have := (W_null W hs).2; simp [this] at hk
  | some a =>
    obtain ⟨hm, hc⟩ := W_mem W hs
    obtain ⟨zs, h1, h2, h3, h4, h5⟩ := eraseLoop_throw (O := Obj)
      (s := { st with thr := some k }) (i := i) (j := j) (k := 0)
      (m := xs.length - j) (xs := xs) (d := k) hij hl (by omega) (by omega) rfl hm rfl (fun _ _ => rfl)
      (by intros; omega) (fun _ _ => rfl)
    have W2 := W_inplace W hs (ys := zs) (by omega)
    rw [h2, upd_eq_self ho] at W2
    have ez : zs = xs.take i ++ (xs.drop j).take k ++ xs.drop (i + k) := by
      apply List.ext_getElem?
      intro l
      by_cases q1 : l < i
      · rw [h3 l q1, List.append_assoc, List.getElem?_append_left (by simp; omega),
          List.getElem?_take_of_lt q1]
      · by_cases q2 : l < i + k
        · have := h4 (l - i) (by omega)
          rw [show i + (l - i) = l by omega] at this
          rw [this, List.getElem?_append_left (by simp; omega), List.getElem?_append_right (by simp; omega)]
          simp only [List.length_take]
          rw [List.getElem?_take_of_lt (by omega), List.getElem?_drop]
          congr 1; omega
        · rw [h5 l (by omega), List.getElem?_append_right (by simp; omega)]
          simp only [List.length_append, List.length_take, List.length_drop, List.getElem?_drop]
          congr 1; omega
    rw [← ez]
    refine ⟨{ st with mem := upd st.mem a (some (arr c zs)), thr := none }, ?_, ?_⟩
    · unfold erase
      simp only [M.bind_apply]
      rw [getObj_some (by exact ho)]
      simp only []
      rw [if_neg (by omega)]
      simp only [M.bind_apply, h1]
    · have et : st.thr = none := W.thr
      rw [← et]
      exact left_world W2

omit [Inhabited V] in
theorem set_throw {i : Nat} (W : VW st σ) (hs : σ x = some s) (hi : i < s.xs.length) (v : V) :
    set x i v { st with thr := some 0 } = .throw .elem st := by
  obtain ⟨xs, c, p⟩ := s
  have ho := W_obj W hs
  have hl := W_len W hs
  simp only [] at ho hl hi
  cases p with
  | none => have := (W_null W hs).2; simp [this] at hi
  | some a =>
    obtain ⟨hm, hc⟩ := W_mem W hs
    unfold set
    simp only [M.bind_apply]
    rw [getObj_some (by exact ho)]
    simp only []
    rw [store_throw (by exact hm) hi hl rfl]
    simp only [st_thr W.thr]

end
end Cest.Vec
