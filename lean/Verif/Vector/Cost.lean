import Verif.Core.Cost
import Verif.Vector.Refine
import Verif.Vector.CostSpec
/-
Cost of the vector members, and the potential argument for `push_back` (used by Vector/CostProps.lean).
-/
namespace Cest.Vec
open Cest
variable {V : Type}

theorem reserve_cost {st : VSt V} {x n : Nat} {o : Obj} (ho : st.objs x = some o) (ht : st.thr = none) :
    CostAt (reserve x n) st (if n > o.cap then 1 + o.size else 0) := by
  unfold reserve
  refine (((CostLe.getObj x) st ht).bind_ok (getObj_some ho) (b₂ := if n > o.cap then 1 + o.size else 0) ?_).mono
    (by omega)
  by_cases h : n > o.cap
  · simp only [h, if_true]
    refine CostLe.bind (CostLe.allocArr n) (fun q => ?_) st ht
    refine (CostLe.bind (b₁ := o.size) (b₂ := 0) ?_ (fun _ => ?_)).mono (Nat.le_refl _)
    · refine (CostLe.forN (b := 1) (fun i => ?_) 0 o.size).mono (by omega)
      exact (CostLe.bind (b₁ := 0) (b₂ := 1) (CostLe.load _ _) fun v => CostLe.constructAt _ _ _).mono (by omega)
    · cost0
  · simp only [h, if_false]
    exact CostLe.pure _ st ht

theorem read_cost (r : Ref V) : CostLe r.read 0 := by
  cases r with
  | ext v => exact CostLe.pure _
  | cell p i => exact CostLe.load _ _

theorem grow_cost {st : VSt V} {x : Nat} {o : Obj} (ho : st.objs x = some o) (ht : st.thr = none) :
    CostAt (grow x) st (if 0 = o.cap then 1 + o.size else if o.cap = o.size then 1 + o.size else 0) := by
  unfold grow
  refine (((CostLe.getObj x) st ht).bind_ok (getObj_some ho)
    (b₂ := if 0 = o.cap then 1 + o.size else if o.cap = o.size then 1 + o.size else 0) ?_).mono (by omega)
  by_cases h : 0 = o.cap
  · simp only [h, if_true]
    refine (reserve_cost ho ht).mono (by split <;> omega)
  · simp only [h, if_false]
    by_cases h' : o.cap = o.size
    · simp only [h', if_true]
      refine (reserve_cost ho ht).mono (by split <;> omega)
    · simp only [h', if_false]
      exact CostLe.pure _ st ht

theorem pushBack_cost {st : VSt V} {x : Nat} {o : Obj} {r : Ref V} (ho : st.objs x = some o)
    (ht : st.thr = none) :
    CostAt (pushBack x r) st
      ((if 0 = o.cap then 1 + o.size else if o.cap = o.size then 1 + o.size else 0) + 1) := by
  unfold pushBack
  refine (grow_cost ho ht).bind fun _ s' h => ?_
  refine CostLe.bind (b₁ := 0) (b₂ := 1) (CostLe.getObj x) (fun o' => ?_) s' ((grow_cost ho ht).calm h)
  refine CostLe.bind (b₁ := 0) (b₂ := 1) (CostLe.setObj _ _) (fun _ => ?_)
  exact CostLe.bind (b₁ := 0) (b₂ := 1) (read_cost r) (fun v => CostLe.constructAt _ _ _)

theorem swap_cost (x y : Nat) : CostLe (swap x y : VM V Unit) 0 := by
  unfold swap; cost0
theorem clear_cost (x : Nat) : CostLe (clear x : VM V Unit) 0 := by
  unfold clear; cost0
theorem dtor_cost (x : Nat) : CostLe (dtor x : VM V Unit) 0 := by
  have := clear_cost (V := V) x
  unfold dtor; cost0
theorem popBack_cost (x : Nat) : CostLe (popBack x : VM V Unit) 0 := by
  unfold popBack; cost0
theorem size_cost (x : Nat) : CostLe (size x : VM V Nat) 0 := by
  unfold size; cost0
theorem empty_cost (x : Nat) : CostLe (empty x : VM V Bool) 0 := by
  unfold empty; cost0
theorem get_cost (x i : Nat) : CostLe (get x i : VM V V) 0 := by
  unfold get; cost0
theorem at_cost (x i : Nat) : CostLe (at_ x i : VM V V) 0 := by
  unfold at_; cost0
theorem front_cost (x : Nat) : CostLe (front x : VM V V) 0 := by
  unfold front; cost0
theorem back_cost (x : Nat) : CostLe (back x : VM V V) 0 := by
  unfold back; cost0
theorem collect_cost (p : Option Nat) (i n : Nat) : CostLe (collect p i n : VM V (List V)) 0 := by
  induction n generalizing i with
  | zero => exact CostLe.pure _
  | succ n ih =>
    have := ih (i+1)
    unfold collect; cost0
theorem toList_cost (x : Nat) : CostLe (toList x : VM V (List V)) 0 := by
  unfold toList
  exact CostLe.bind (b₁ := 0) (b₂ := 0) (CostLe.getObj x) fun o => collect_cost _ _ _
theorem equalLoop_cost [BEq V] (p q : Option Nat) (i n : Nat) : CostLe (equalLoop p q i n : VM V Bool) 0 := by
  induction n generalizing i with
  | zero => exact CostLe.pure _
  | succ n ih =>
    have := ih (i+1)
    unfold equalLoop; cost0
theorem eq_cost [BEq V] (x y : Nat) : CostLe (eq x y : VM V Bool) 0 := by
  unfold eq
  refine CostLe.bind (b₁ := 0) (b₂ := 0) (CostLe.getObj x) fun o => ?_
  refine CostLe.bind (b₁ := 0) (b₂ := 0) (CostLe.getObj y) fun o' => ?_
  exact CostLe.ite (fun _ => equalLoop_cost _ _ _ _) (fun _ => CostLe.pure _)
theorem set_cost (x i : Nat) (v : V) : CostLe (set x i v : VM V Unit) 1 := by
  unfold set
  exact CostLe.bind (b₁ := 0) (b₂ := 1) (CostLe.getObj x) fun o => CostLe.store _ _ _
theorem moveCtor_cost (x y : Nat) : CostLe (moveCtor x y : VM V Unit) 0 := by
  unfold moveCtor ctor
  exact CostLe.bind (b₁ := 0) (b₂ := 0) (CostLe.newObj _ _) fun _ => swap_cost x y

theorem erase_cost {st : VSt V} {x i j : Nat} {o : Obj} (ho : st.objs x = some o) (ht : st.thr = none) :
    CostAt (erase x i j) st (o.size - j) := by
  unfold erase
  refine (((CostLe.getObj x) st ht).bind_ok (getObj_some ho) (b₂ := o.size - j) ?_).mono (by omega)
  refine CostLe.ite (b := o.size - j) (fun _ => ?_) (fun _ => ?_) st ht
  · refine CostLe.mono (b := 0 + (o.size - j)) ?_ (by omega)
    refine CostLe.bind (CostLe.ub _) fun _ => ?_
    refine CostLe.bind (b₁ := o.size - j) (b₂ := 0) ?_ (fun _ => by cost0)
    refine (CostLe.forN (b := 1) (fun i => ?_) 0 (o.size - j)).mono (by omega)
    exact (CostLe.bind (b₁ := 0) (b₂ := 1) (CostLe.load _ _) fun v => CostLe.store _ _ _).mono (by omega)
  · refine CostLe.bind (b₁ := o.size - j) (b₂ := 0) ?_ (fun _ => by cost0)
    refine (CostLe.forN (b := 1) (fun i => ?_) 0 (o.size - j)).mono (by omega)
    exact (CostLe.bind (b₁ := 0) (b₂ := 1) (CostLe.load _ _) fun v => CostLe.store _ _ _).mono (by omega)

/-- The copying loop of `copyCtor` and `reserve`. -/
theorem copyLoop_cost (p q : Option Nat) (i n : Nat) :
    CostLe (forN (fun k => do let v ← load p k; constructAt q k v) i n : VM V Unit) n := by
  refine (CostLe.forN (b := 1) (fun i => ?_) i n).mono (by omega)
  exact (CostLe.bind (b₁ := 0) (b₂ := 1) (CostLe.load _ _) fun v => CostLe.constructAt _ _ _).mono (by omega)
theorem assignLoop_cost (p q : Option Nat) (i n : Nat) :
    CostLe (forN (fun k => do let v ← load p k; store q k v) i n : VM V Unit) n := by
  refine (CostLe.forN (b := 1) (fun i => ?_) i n).mono (by omega)
  exact (CostLe.bind (b₁ := 0) (b₂ := 1) (CostLe.load _ _) fun v => CostLe.store _ _ _).mono (by omega)
theorem fillLoop_cost (q : Option Nat) (v : V) (i n : Nat) :
    CostLe (forN (fun k => constructAt q k v) i n : VM V Unit) n :=
  (CostLe.forN (b := 1) (fun i => CostLe.constructAt _ _ _) i n).mono (by omega)

theorem copyCtor_cost {st st' : VSt V} {σ : Nat → Option (AV V)} {x y : Nat} {sy : AV V} (W : VW st σ)
    (hx : σ x = none) (hy : σ y = some sy) (hr : copyCtor x y st = .ok () st') :
    CostAt (copyCtor x y) st (1 + sy.xs.length) := by
  obtain ⟨st1, h1, W1⟩ := ctor_spec W hx
  have hyx : y ≠ x := by intro h; subst h; simp [hx] at hy
  have hx1 : (upd σ x (some (⟨[], 0, none⟩ : AV V))) x = some ⟨[], 0, none⟩ := upd_same _ _ _
  have hy1 : (upd σ x (some (⟨[], 0, none⟩ : AV V))) y = some sy := by simp [hyx, hy]
  obtain ⟨st2, h2, W2⟩ := reserve_spec (n := sy.cap) W1 hx1
  have hy2 : (upd (upd σ x (some (⟨[], 0, none⟩ : AV V))) x
      (some (AV.reserve ⟨[], 0, none⟩ sy.cap st1.next))) y = some sy := by simp [hyx, hy]
  unfold copyCtor at hr ⊢
  rw [M.bind_of_ok h1] at hr
  refine (CostAt.bind_ok (b₁ := 0) (b₂ := 1 + sy.xs.length) (CostLe.newObj _ _ st W.thr) h1 ?_).mono (by omega)
  refine CostAt.onThrow_ok ?_ (onThrow_inv hr)
  refine (CostAt.bind_ok (b₁ := 0) (b₂ := 1 + sy.xs.length) (CostLe.getObj _ st1 W1.thr)
    (getObj_some (W_obj W1 hy1)) ?_).mono (by omega)
  refine CostAt.bind_ok (b₁ := 1) (b₂ := sy.xs.length)
    ((reserve_cost (W_obj W1 hx1) W1.thr).mono (by simp; split <;> omega)) h2 ?_
  refine (CostAt.bind_ok (b₁ := 0) (b₂ := sy.xs.length) (CostLe.getObj _ st2 W2.thr)
    (getObj_some (W_obj W2 hy2)) ?_).mono (by omega)
  have ho2 := W_obj W2 (upd_same _ _ _)
  refine (CostAt.bind_ok (b₁ := 0) (b₂ := sy.xs.length) (CostLe.getObj _ st2 W2.thr)
    (getObj_some ho2) ?_).mono (by omega)
  refine (CostAt.bind_ok (b₁ := 0) (b₂ := sy.xs.length) (CostLe.setObj _ _ st2 W2.thr)
    (setObj_some ho2) ?_).mono (by omega)
  refine (CostAt.bind_ok (b₁ := 0) (b₂ := sy.xs.length) (CostLe.getObj _ _ (by exact W2.thr))
    (getObj_some (by exact upd_same _ _ _)) ?_).mono (by omega)
  exact copyLoop_cost _ _ _ _ _ W2.thr

theorem ctorN_cost [Inhabited V] {st st' : VSt V} {σ : Nat → Option (AV V)} {x n : Nat} (W : VW st σ)
    (hx : σ x = none) (hr : ctorN x n st = .ok () st') : CostAt (ctorN x n) st (1 + n) := by
  obtain ⟨st1, h1, W1⟩ := ctor_spec W hx
  have hx1 : (upd σ x (some (⟨[], 0, none⟩ : AV V))) x = some ⟨[], 0, none⟩ := upd_same _ _ _
  obtain ⟨st2, h2, W2⟩ := reserve_spec (n := n) W1 hx1
  unfold ctorN at hr ⊢
  rw [M.bind_of_ok h1] at hr
  refine (CostAt.bind_ok (b₁ := 0) (b₂ := 1 + n) (CostLe.newObj _ _ st W.thr) h1 ?_).mono (by omega)
  refine CostAt.onThrow_ok ?_ (onThrow_inv hr)
  refine CostAt.bind_ok (b₁ := 1) (b₂ := n)
    ((reserve_cost (W_obj W1 hx1) W1.thr).mono (by simp; split <;> omega)) h2 ?_
  have ho2 := W_obj W2 (upd_same _ _ _)
  refine (CostAt.bind_ok (b₁ := 0) (b₂ := n) (CostLe.getObj _ st2 W2.thr)
    (getObj_some ho2) ?_).mono (by omega)
  refine (CostAt.bind_ok (b₁ := 0) (b₂ := n) (CostLe.setObj _ _ st2 W2.thr)
    (setObj_some ho2) ?_).mono (by omega)
  refine (CostAt.bind_ok (b₁ := 0) (b₂ := n) (CostLe.getObj _ _ (by exact W2.thr))
    (getObj_some (by exact upd_same _ _ _)) ?_).mono (by omega)
  exact fillLoop_cost _ _ _ _ _ W2.thr

theorem copyAssign_cost {st : VSt V} {σ : Nat → Option (AV V)} {x y : Nat} {sx sy : AV V} (W : VW st σ)
    (hx : σ x = some sx) (hy : σ y = some sy) :
    CostAt (copyAssign x y) st (1 + sx.xs.length + sy.xs.length) := by
  obtain ⟨st2, h2, W2⟩ := reserve_spec (n := sy.cap) W hx
  have hy2 : ∃ s, (upd σ x (some (sx.reserve sy.cap st.next))) y = some s ∧ s.xs = sy.xs := by
    by_cases h : y = x
    · subst h
      have : sx = sy := by rw [hx] at hy; exact Option.some.inj hy
      subst this
      exact ⟨_, upd_same _ _ _, by unfold AV.reserve; split <;> rfl⟩
    · exact ⟨sy, by simp [h, hy], rfl⟩
  obtain ⟨s', hy2, hs'⟩ := hy2
  have ho2 := W_obj W2 (upd_same _ _ _)
  unfold copyAssign
  refine (CostAt.bind_ok (b₁ := 0) (b₂ := 1 + sx.xs.length + sy.xs.length) (CostLe.getObj _ st W.thr)
    (getObj_some (W_obj W hy)) ?_).mono (by omega)
  refine CostAt.bind_ok (b₁ := 1 + sx.xs.length) (b₂ := sy.xs.length)
    ((reserve_cost (W_obj W hx) W.thr).mono (by split <;> simp)) h2 ?_
  refine (CostAt.bind_ok (b₁ := 0) (b₂ := sy.xs.length) (CostLe.getObj _ st2 W2.thr)
    (getObj_some (W_obj W2 hy2)) ?_).mono (by omega)
  refine (CostAt.bind_ok (b₁ := 0) (b₂ := sy.xs.length) (CostLe.getObj _ st2 W2.thr)
    (getObj_some ho2) ?_).mono (by omega)
  rw [← hs']
  generalize ((sx.reserve sy.cap st.next).xs.length) = m
  refine CostLe.ite (b := s'.xs.length) (fun h => ?_) (fun h => ?_) st2 W2.thr
  · refine CostLe.mono (b := m + (s'.xs.length - m)) ?_ (by simp at h; omega)
    refine CostLe.bind (assignLoop_cost _ _ _ _) fun _ => ?_
    refine CostLe.bind (b₁ := s'.xs.length - m) (b₂ := 0) (copyLoop_cost _ _ _ _) fun _ => ?_
    cost0
  · refine CostLe.bind (b₁ := s'.xs.length) (b₂ := 0) (assignLoop_cost _ _ _ _) fun _ => ?_
    cost0

theorem resize_cost [Inhabited V] {st : VSt V} {σ : Nat → Option (AV V)} {x n : Nat} {s : AV V} (W : VW st σ)
    (hx : σ x = some s) :
    CostAt (resize x n) st (if n ≤ s.xs.length then 0 else 1 + n) := by
  have ho := W_obj W hx
  unfold resize
  refine (CostAt.bind_ok (b₁ := 0) (b₂ := if n ≤ s.xs.length then 0 else 1 + n) (CostLe.getObj _ st W.thr)
    (getObj_some ho) ?_).mono (by omega)
  by_cases hn : n > s.xs.length
  · simp only [hn, if_true, if_neg (Nat.not_le.mpr hn)]
    obtain ⟨st2, h2, W2⟩ := reserve_spec (n := n) W hx
    have ho2 := W_obj W2 (upd_same _ _ _)
    refine (CostAt.bind_ok (b₁ := 1 + s.xs.length) (b₂ := n - s.xs.length)
      ((reserve_cost ho W.thr).mono (by split <;> simp)) h2 ?_).mono (by omega)
    refine (CostAt.bind_ok (b₁ := 0) (b₂ := n - s.xs.length) (CostLe.getObj _ st2 W2.thr)
      (getObj_some ho2) ?_).mono (by omega)
    have e : (s.reserve n st.next).xs = s.xs := by unfold AV.reserve; split <;> rfl
    simp only [e]
    refine CostLe.bind (b₁ := n - s.xs.length) (b₂ := 0) (fillLoop_cost _ _ _ _) (fun _ => ?_) st2 W2.thr
    cost0
  · simp only [hn, if_false, if_pos (Nat.not_lt.mp hn)]
    refine CostLe.ite (fun _ => ?_) (fun _ => ?_) st W.thr <;> cost0

/-! ### The potential -/

/-- Potential of one vector: how far its contents reach beyond half of the capacity, twice. -/
def pot : Option (AV V) → Nat
  | none => 0
  | some s => 2 * s.xs.length - s.cap

/-- Potential of the variables below `N`. -/
def pots (σ : Nat → Option (AV V)) : Nat → Nat
  | 0 => 0
  | N+1 => pots σ N + pot (σ N)

theorem pots_upd_ge (σ : Nat → Option (AV V)) (x : Nat) (s : Option (AV V)) (N : Nat) (h : N ≤ x) :
    pots (upd σ x s) N = pots σ N := by
  induction N with
  | zero => rfl
  | succ N ih => simp only [pots]; rw [ih (by omega), upd_apply, if_neg (by omega)]

theorem pots_upd (σ : Nat → Option (AV V)) (x : Nat) (s : Option (AV V)) (N : Nat) (h : x < N) :
    pots (upd σ x s) N + pot (σ x) = pots σ N + pot s := by
  induction N with
  | zero => omega
  | succ N ih =>
    simp only [pots]
    by_cases hx : x = N
    · subst hx
      rw [pots_upd_ge _ _ _ _ (Nat.le_refl _), upd_same]; omega
    · rw [upd_apply, if_neg (Ne.symm hx)]
      have := ih (by omega)
      omega

theorem pots_upd_le (σ : Nat → Option (AV V)) (x : Nat) (s : Option (AV V)) (N : Nat)
    (h : pot s ≤ pot (σ x)) : pots (upd σ x s) N ≤ pots σ N := by
  by_cases hx : x < N
  · have := pots_upd σ x s N hx; omega
  · rw [pots_upd_ge _ _ _ _ (by omega)]; exact Nat.le_refl _

/-- Paying for a step that changes one variable. -/
theorem pay1 {σ : Nat → Option (AV V)} {x N c p : Nat} {s : Option (AV V)} (hN : x < N)
    (h : c + pot s ≤ p + pot (σ x)) : c + pots (upd σ x s) N ≤ p + pots σ N := by
  have := pots_upd σ x s N hN; omega

theorem pot_some (s : AV V) : pot (some s) = 2 * s.xs.length - s.cap := rfl

theorem pushAll_cost {vs : List V} {st : VSt V} {σ : Nat → Option (AV V)} {x : Nat} {s : AV V}
    (W : VW st σ) (h : σ x = some s) :
    ∃ st' s', pushAll x vs st = .ok () st' ∧ VW st' (upd σ x (some s')) ∧ s'.xs = s.xs ++ vs ∧
      ∃ c, c + pot (some s') ≤ 4 * vs.length + pot (some s) ∧ CostAt (pushAll x vs) st c := by
  induction vs generalizing st σ s with
  | nil => exact ⟨st, s, rfl, by rw [upd_eq_self h]; exact W, by simp, 0, by simp, CostLe.pure _ st W.thr⟩
  | cons v vs ih =>
    obtain ⟨st1, h1, W1⟩ := pushBack_ext (v := v) W h
    obtain ⟨st2, s2, h2, W2, hs2, c, hc, hcost⟩ := ih W1 (upd_same _ _ _)
    have hl := W_len W h
    refine ⟨st2, s2, by simp [pushAll, h1, h2], by rwa [upd_upd] at W2, ?_, _, ?_,
      CostAt.bind_ok (pushBack_cost (W_obj W h) W.thr) h1 hcost⟩
    · rw [hs2]; simp [AV.push]
    · simp only [pot_some, AV.push, List.length_append, List.length_cons, List.length_nil] at hc ⊢
      split at hc <;> split <;> (try split at hc) <;> (try split) <;> omega

theorem ctorList_cost {vs : List V} {st : VSt V} {σ : Nat → Option (AV V)} {x : Nat} (W : VW st σ)
    (h : σ x = none) :
    ∃ st' s', ctorList x vs st = .ok () st' ∧ VW st' (upd σ x (some s')) ∧ s'.xs = vs ∧
      ∃ c, c + pot (some s') ≤ 4 * vs.length ∧ CostAt (ctorList x vs) st c := by
  obtain ⟨st1, h1, W1⟩ := ctor_spec W h
  obtain ⟨st2, s2, h2, W2, hs2, c, hc, hcost⟩ := pushAll_cost (vs := vs) W1 (upd_same _ _ _)
  refine ⟨st2, s2, ?_, by rwa [upd_upd] at W2, by simpa using hs2, 0 + c, by simp [pot_some] at hc ⊢; omega, ?_⟩
  · unfold ctorList
    simp only [M.bind_apply, h1]
    rw [M.onThrow_of_ok h2]
  · exact CostAt.bind_ok (CostLe.newObj _ _ st W.thr) h1 (CostAt.onThrow_ok hcost h2)

variable [Inhabited V] [BEq V]

/-- One step: the specification's result at the price of the operation, potentials included. -/
theorem step_cost {st : VSt V} {σ : Nat → Option (AV V)} {e e' : Env V} {op : Op V} {o : Out V} {N : Nat}
    (W : VW st σ) (he : envOf σ = e) (hs : specStep e op = some (e', o)) (hN : ∀ x ∈ op.mutates, x < N) :
    ∃ st' σ' c, runOp op st = .ok o st' ∧ VW st' σ' ∧ envOf σ' = e' ∧ CostAt (runOp op) st c ∧
      c + pots σ' N ≤ price e op + pots σ N := by
  cases op with
  | new x =>
    simp only [specStep] at hs
    split at hs <;> simp at hs
    rename_i hx; obtain ⟨rfl, rfl⟩ := hs
    have hx' := envOf_none he hx
    obtain ⟨st', h1, W'⟩ := ctor_spec W hx'
    exact ⟨st', _, 0, by simp [runOp, h1], W', by rw [envOf_upd, he]; rfl,
      (CostLe.newObj _ _ st W.thr : CostAt (ctor x) st 0).ret,
      pay1 (hN x (by simp [Op.mutates])) (by simp [pot, hx', price])⟩
  | newN x n =>
    simp only [specStep] at hs
    split at hs <;> simp at hs
    rename_i hx; obtain ⟨rfl, rfl⟩ := hs
    have hx' := envOf_none he hx
    obtain ⟨st', s', h1, W', h2⟩ := ctorN_spec (n := n) W hx'
    have hl := W_len W' (upd_same _ _ _)
    refine ⟨st', _, _, by simp [runOp, h1], W', by rw [envOf_upd, he]; simp [h2],
      (ctorN_cost W hx' h1).ret, pay1 (hN x (by simp [Op.mutates])) ?_⟩
    simp only [pot, hx', price, h2, List.length_replicate] at hl ⊢; omega
  | newList x vs =>
    simp only [specStep] at hs
    split at hs <;> simp at hs
    rename_i hx; obtain ⟨rfl, rfl⟩ := hs
    have hx' := envOf_none he hx
    obtain ⟨st', s', h1, W', h2, c, hc, hcost⟩ := ctorList_cost (vs := vs) W hx'
    refine ⟨st', _, c, by simp [runOp, h1], W', by rw [envOf_upd, he]; simp [h2],
      hcost.ret, pay1 (hN x (by simp [Op.mutates])) ?_⟩
    simpa [hx', price, pot] using hc
  | newCopy x y =>
    simp only [specStep] at hs
    split at hs <;> simp at hs
    rename_i ys hx hy; obtain ⟨rfl, rfl⟩ := hs
    obtain ⟨s, hy', rfl⟩ := envOf_some he hy
    have hx' := envOf_none he hx
    obtain ⟨st', h1, W'⟩ := copyCtor_spec W hx' hy'
    have hl := W_len W hy'
    refine ⟨st', _, _, by simp [runOp, h1], W', by rw [envOf_upd, he]; simp,
      (copyCtor_cost W hx' hy' h1).ret, pay1 (hN x (by simp [Op.mutates])) ?_⟩
    simp only [pot, hx', price, hy, Option.getD_some]; omega
  | newMove x y =>
    simp only [specStep] at hs
    split at hs <;> simp at hs
    rename_i ys hx hy; obtain ⟨rfl, rfl⟩ := hs
    obtain ⟨s, hy', rfl⟩ := envOf_some he hy
    have hx' := envOf_none he hx
    have hyx : y ≠ x := by intro h; subst h; simp [hx'] at hy'
    obtain ⟨st', h1, W'⟩ := moveCtor_spec W hx' hy'
    refine ⟨st', _, _, by simp [runOp, h1], W', by rw [envOf_upd, envOf_upd, he]; simp,
      (moveCtor_cost x y st W.thr).ret, ?_⟩
    have a1 := pots_upd σ x (some s) N (hN x (by simp [Op.mutates]))
    have a2 := pots_upd (upd σ x (some s)) y (some ⟨[], 0, none⟩) N (hN y (by simp [Op.mutates]))
    rw [upd_apply, if_neg hyx, hy'] at a2
    rw [hx'] at a1
    simp only [pot, List.length_nil, price] at a1 a2 ⊢
    omega
  | assign x y =>
    simp only [specStep] at hs
    split at hs <;> simp at hs
    rename_i xs ys hx hy; obtain ⟨rfl, rfl⟩ := hs
    obtain ⟨s, hx', rfl⟩ := envOf_some he hx
    obtain ⟨sy, hy', rfl⟩ := envOf_some he hy
    obtain ⟨st', h1, W'⟩ := copyAssign_spec W hx' hy'
    have hl := W_len W hy'
    refine ⟨st', _, _, by simp [runOp, h1], W', by rw [envOf_upd, he]; simp [AV.assign],
      (copyAssign_cost W hx' hy').ret, pay1 (hN x (by simp [Op.mutates])) ?_⟩
    simp only [pot_some, price, hx, hy, Option.getD_some, AV.assign]; omega
  | moveAssign x y =>
    simp only [specStep] at hs
    split at hs <;> simp at hs
    rename_i xs ys hx hy; obtain ⟨rfl, rfl⟩ := hs
    obtain ⟨s, hx', rfl⟩ := envOf_some he hx
    obtain ⟨sy, hy', rfl⟩ := envOf_some he hy
    obtain ⟨st', h1, W'⟩ := swap_spec W hx' hy'
    refine ⟨st', _, _, by simp [runOp, moveAssign, h1], W', by rw [envOf_upd, envOf_upd, he]; simp,
      (swap_cost x y st W.thr : CostAt (moveAssign x y) st 0).ret, ?_⟩
    have a1 := pots_upd σ x (some sy) N (hN x (by simp [Op.mutates]))
    have a2 := pots_upd (upd σ x (some sy)) y (some s) N (hN y (by simp [Op.mutates]))
    rw [hx'] at a1
    by_cases hyx : y = x
    · subst hyx; rw [upd_same] at a2; simp only [price]; omega
    · rw [upd_apply, if_neg hyx, hy'] at a2; simp only [price]; omega
  | swap x y =>
    simp only [specStep] at hs
    split at hs <;> simp at hs
    rename_i xs ys hx hy; obtain ⟨rfl, rfl⟩ := hs
    obtain ⟨s, hx', rfl⟩ := envOf_some he hx
    obtain ⟨sy, hy', rfl⟩ := envOf_some he hy
    obtain ⟨st', h1, W'⟩ := swap_spec W hx' hy'
    refine ⟨st', _, _, by simp [runOp, h1], W', by rw [envOf_upd, envOf_upd, he]; simp,
      (swap_cost x y st W.thr).ret, ?_⟩
    have a1 := pots_upd σ x (some sy) N (hN x (by simp [Op.mutates]))
    have a2 := pots_upd (upd σ x (some sy)) y (some s) N (hN y (by simp [Op.mutates]))
    rw [hx'] at a1
    by_cases hyx : y = x
    · subst hyx; rw [upd_same] at a2; simp only [price]; omega
    · rw [upd_apply, if_neg hyx, hy'] at a2; simp only [price]; omega
  | pushBack x v =>
    simp only [specStep] at hs
    split at hs <;> simp at hs
    rename_i xs hx; obtain ⟨rfl, rfl⟩ := hs
    obtain ⟨s, hx', rfl⟩ := envOf_some he hx
    obtain ⟨st', h1, W'⟩ := pushBack_ext (v := v) W hx'
    have hl := W_len W hx'
    refine ⟨st', _, _, by simp [runOp, h1], W', by rw [envOf_upd, he]; simp [AV.push],
      (pushBack_cost (W_obj W hx') W.thr).ret, pay1 (hN x (by simp [Op.mutates])) ?_⟩
    simp only [pot_some, hx', AV.push, List.length_append, List.length_cons, List.length_nil, price]
    split <;> (try split) <;> (try split) <;> omega
  | pushBackFrom x y i =>
    simp only [specStep] at hs
    split at hs <;> try simp at hs
    rename_i xs ys hx hy
    by_cases hxy : x = y
    · simp [hxy] at hs
    · simp only [hxy] at hs
      split at hs <;> simp at hs
      rename_i v hv
      obtain ⟨rfl, rfl⟩ := hs
      obtain ⟨s, hx', rfl⟩ := envOf_some he hx
      obtain ⟨sy, hy', rfl⟩ := envOf_some he hy
      obtain ⟨st', h1, W'⟩ := pushBack_spec (r := .cell sy.p i) (v := v) W hx' (by
        intro st1 c' p' W1 _ objs'
        have hyx : y ≠ x := Ne.symm hxy
        have hy1 : (upd σ x (some ⟨s.xs, c', p'⟩)) y = some sy := by simp [hyx, hy']
        obtain ⟨ys, d, q⟩ := sy
        have hl := W_len W1 hy1
        simp only [] at hv hl
        cases q with
        | none => have := (W_null W1 hy1).2; simp [this] at hv
        | some b => exact load_arr (by exact (W_mem W1 hy1).1) hl hv)
      have hl := W_len W hx'
      refine ⟨st', _, _, ?_, W', by rw [envOf_upd, he]; simp [AV.push],
        CostAt.bind_ok (CostLe.getObj y st W.thr) (getObj_some (W_obj W hy'))
          (pushBack_cost (W_obj W hx') W.thr).ret, pay1 (hN x (by simp [Op.mutates])) ?_⟩
      · simp [runOp, getObj_some (W_obj W hy'), h1]
      · simp only [pot_some, hx', AV.push, List.length_append, List.length_cons, List.length_nil, price]
        split <;> (try split) <;> (try split) <;> omega
  | popBack x =>
    simp only [specStep] at hs
    split at hs <;> simp at hs
    rename_i xs hx; obtain ⟨hne, rfl, rfl⟩ := hs
    obtain ⟨s, hx', rfl⟩ := envOf_some he hx
    obtain ⟨st', h1, W'⟩ := popBack_spec W hx' hne
    refine ⟨st', _, _, by simp [runOp, h1], W', by rw [envOf_upd, he]; simp,
      (popBack_cost x st W.thr).ret, pay1 (hN x (by simp [Op.mutates])) ?_⟩
    simp only [pot_some, hx', List.length_dropLast, price]; omega
  | resize x n =>
    simp only [specStep] at hs
    split at hs <;> simp at hs
    rename_i xs hx; obtain ⟨rfl, rfl⟩ := hs
    obtain ⟨s, hx', rfl⟩ := envOf_some he hx
    obtain ⟨st', s', h1, W', h2, h3, _⟩ := resize_spec (n := n) W hx'
    refine ⟨st', _, _, by simp [runOp, h1], W', by rw [envOf_upd, he]; simp [h2],
      (resize_cost W hx').ret, pay1 (hN x (by simp [Op.mutates])) ?_⟩
    simp only [pot_some, hx', h2, h3, List.length_append, List.length_take, List.length_replicate, price, hx,
      Option.getD_some]
    split <;> omega
  | reserve x n =>
    simp only [specStep] at hs
    split at hs <;> simp at hs
    rename_i xs hx; obtain ⟨rfl, rfl⟩ := hs
    obtain ⟨s, hx', rfl⟩ := envOf_some he hx
    obtain ⟨st', h1, W'⟩ := reserve_spec (n := n) W hx'
    refine ⟨st', _, _, by simp [runOp, h1], W', ?_, (reserve_cost (W_obj W hx') W.thr).ret, ?_⟩
    · rw [envOf_upd, he]
      funext z
      simp only [Env.set, Option.map_some]
      split
      · rename_i hz; subst hz; rw [hx]; simp [AV.reserve]; split <;> rfl
      · rfl
    · have := pots_upd_le σ x (some (s.reserve n st.next)) N (by
        rw [hx', pot_some, pot_some]; unfold AV.reserve; split <;> simp <;> omega)
      simp only [price, hx, Option.getD_some]
      split <;> omega
  | clear x =>
    simp only [specStep] at hs
    split at hs <;> simp at hs
    rename_i xs hx; obtain ⟨rfl, rfl⟩ := hs
    obtain ⟨s, hx', rfl⟩ := envOf_some he hx
    obtain ⟨st', h1, W'⟩ := clear_spec W hx'
    refine ⟨st', _, _, by simp [runOp, h1], W', by rw [envOf_upd, he]; simp,
      (clear_cost x st W.thr).ret, pay1 (hN x (by simp [Op.mutates])) ?_⟩
    simp only [pot_some, hx', List.length_nil, price]; omega
  | erase x i j =>
    simp only [specStep] at hs
    split at hs <;> simp at hs
    rename_i xs hx; obtain ⟨⟨hij, hj⟩, rfl, rfl⟩ := hs
    obtain ⟨s, hx', rfl⟩ := envOf_some he hx
    obtain ⟨st', h1, W'⟩ := erase_spec W hx' hij hj
    refine ⟨st', _, _, by simp [runOp, h1], W', by rw [envOf_upd, he]; simp,
      (erase_cost (W_obj W hx') W.thr).ret, pay1 (hN x (by simp [Op.mutates])) ?_⟩
    simp only [pot_some, hx', List.length_append, List.length_take, List.length_drop, price, hx,
      Option.getD_some]
    omega
  | set x i v =>
    simp only [specStep] at hs
    split at hs <;> simp at hs
    rename_i xs hx; obtain ⟨hi, rfl, rfl⟩ := hs
    obtain ⟨s, hx', rfl⟩ := envOf_some he hx
    obtain ⟨st', h1, W'⟩ := set_spec (v := v) W hx' hi
    refine ⟨st', _, _, by simp [runOp, h1], W', by rw [envOf_upd, he]; simp,
      (set_cost x i v st W.thr).ret, pay1 (hN x (by simp [Op.mutates])) ?_⟩
    simp only [pot_some, hx', List.length_set, price]; omega
  | destroy x =>
    simp only [specStep] at hs
    split at hs <;> simp at hs
    rename_i xs hx; obtain ⟨rfl, rfl⟩ := hs
    obtain ⟨s, hx', rfl⟩ := envOf_some he hx
    obtain ⟨st', h1, W'⟩ := dtor_spec W hx'
    refine ⟨st', _, _, by simp [runOp, h1], W', by rw [envOf_upd, he]; simp,
      (dtor_cost x st W.thr).ret, pay1 (hN x (by simp [Op.mutates])) ?_⟩
    simp [pot, price]
  | size x =>
    simp only [specStep] at hs
    split at hs <;> simp at hs
    rename_i xs hx; obtain ⟨rfl, rfl⟩ := hs
    obtain ⟨s, hx', rfl⟩ := envOf_some he hx
    exact ⟨st, σ, 0, by simp [runOp, size_spec W hx'], W, he, (size_cost x st W.thr).ret, by simp⟩
  | empty x =>
    simp only [specStep] at hs
    split at hs <;> simp at hs
    rename_i xs hx; obtain ⟨rfl, rfl⟩ := hs
    obtain ⟨s, hx', rfl⟩ := envOf_some he hx
    exact ⟨st, σ, 0, by simp [runOp, empty_spec W hx'], W, he, (empty_cost x st W.thr).ret, by simp⟩
  | get x i =>
    simp only [specStep] at hs
    split at hs <;> try simp at hs
    split at hs <;> simp at hs
    rename_i xs hx _ v hv; obtain ⟨rfl, rfl⟩ := hs
    obtain ⟨s, hx', rfl⟩ := envOf_some he hx
    exact ⟨st, σ, 0, by simp [runOp, get_spec W hx' hv], W, he, (get_cost x i st W.thr).ret, by simp⟩
  | at_ x i =>
    have hcost : CostAt (runOp (.at_ x i) : VM V (Out V)) st 0 := by
      unfold runOp
      refine CostLe.tryCatch (b₁ := 0) (b₂ := 0) (fun s hs => (at_cost x i s hs).ret) (fun e => ?_) st W.thr
      cases e <;> first | exact CostLe.pure _ | exact CostLe.throw _
    simp only [specStep] at hs
    split at hs <;> try simp at hs
    rename_i xs hx
    obtain ⟨s, hx', rfl⟩ := envOf_some he hx
    split at hs <;> simp at hs
    · rename_i v hv; obtain ⟨rfl, rfl⟩ := hs
      exact ⟨st, σ, 0, by simp [runOp, M.tryCatch, at_spec W hx' hv], W, he, hcost, by simp⟩
    · rename_i hv; obtain ⟨rfl, rfl⟩ := hs
      simp at hv
      exact ⟨st, σ, 0, by simp [runOp, M.tryCatch, at_throw W hx' hv], W, he, hcost, by simp⟩
  | front x =>
    simp only [specStep] at hs
    split at hs <;> try simp at hs
    split at hs <;> simp at hs
    rename_i xs hx _ v hv; obtain ⟨rfl, rfl⟩ := hs
    obtain ⟨s, hx', rfl⟩ := envOf_some he hx
    exact ⟨st, σ, 0, by simp [runOp, front_spec W hx' hv], W, he, (front_cost x st W.thr).ret, by simp⟩
  | back x =>
    simp only [specStep] at hs
    split at hs <;> try simp at hs
    split at hs <;> simp at hs
    rename_i xs hx _ v hv; obtain ⟨rfl, rfl⟩ := hs
    obtain ⟨s, hx', rfl⟩ := envOf_some he hx
    exact ⟨st, σ, 0, by simp [runOp, back_spec W hx' hv], W, he, (back_cost x st W.thr).ret, by simp⟩
  | toList x =>
    simp only [specStep] at hs
    split at hs <;> simp at hs
    rename_i xs hx; obtain ⟨rfl, rfl⟩ := hs
    obtain ⟨s, hx', rfl⟩ := envOf_some he hx
    exact ⟨st, σ, 0, by simp [runOp, toList_spec W hx'], W, he, (toList_cost x st W.thr).ret, by simp⟩
  | eq x y =>
    simp only [specStep] at hs
    split at hs <;> simp at hs
    rename_i xs ys hx hy; obtain ⟨rfl, rfl⟩ := hs
    obtain ⟨s, hx', rfl⟩ := envOf_some he hx
    obtain ⟨sy, hy', rfl⟩ := envOf_some he hy
    exact ⟨st, σ, 0, by simp [runOp, eq_spec W hx' hy'], W, he, (eq_cost x y st W.thr).ret, by simp⟩

theorem run_cost {ops : List (Op V)} {st : VSt V} {σ : Nat → Option (AV V)} {e e' : Env V}
    {os : List (Out V)} {N : Nat} (W : VW st σ) (he : envOf σ = e) (hs : specRun e ops = some (e', os))
    (hN : ∀ op ∈ ops, ∀ x ∈ op.mutates, x < N) :
    ∃ st' σ' c, runOps ops st = .ok os st' ∧ VW st' σ' ∧ envOf σ' = e' ∧ CostAt (runOps ops) st c ∧
      c + pots σ' N ≤ total e ops + pots σ N := by
  induction ops generalizing st σ e os with
  | nil =>
    simp only [specRun] at hs; cases hs
    exact ⟨st, σ, 0, rfl, W, he, CostLe.pure _ st W.thr, by simp⟩
  | cons op ops ih =>
    simp only [specRun] at hs
    split at hs <;> try simp at hs
    rename_i e1 o h1
    split at hs <;> simp at hs
    rename_i e2 os2 h2
    obtain ⟨rfl, rfl⟩ := hs
    obtain ⟨st1, σ1, c1, r1, W1, he1, k1, p1⟩ := step_cost W he h1 (hN op (by simp))
    obtain ⟨st2, σ2, c2, r2, W2, he2, k2, p2⟩ := ih W1 he1 h2 (fun op h => hN op (by simp [h]))
    refine ⟨st2, σ2, c1 + c2, by simp [runOps, r1, r2], W2, he2, ?_, ?_⟩
    · unfold runOps
      exact k1.bind_ok r1 k2.ret
    · simp only [total, h1]; omega

theorem exists_gt (l : List Nat) : ∃ N, ∀ x ∈ l, x < N := by
  induction l with
  | nil => exact ⟨0, by simp⟩
  | cons a l ih =>
    obtain ⟨N, hN⟩ := ih
    refine ⟨N + a + 1, fun x hx => ?_⟩
    rcases List.mem_cons.mp hx with rfl | h
    · omega
    · have := hN x h; omega

omit [Inhabited V] [BEq V] in
/-- Some number lies above all variables a program changes. -/
theorem exists_bound (ops : List (Op V)) : ∃ N, ∀ op ∈ ops, ∀ x ∈ op.mutates, x < N := by
  obtain ⟨N, hN⟩ := exists_gt (ops.flatMap Op.mutates)
  exact ⟨N, fun op h x hx => hN x (List.mem_flatMap.mpr ⟨op, h, hx⟩)⟩

omit [Inhabited V] [BEq V] in
/-- With room for it, an element is pushed without an allocation. -/
theorem pushBack_room {v : V} {st st' : VSt V} {σ : Nat → Option (AV V)} {x : Nat} {s : AV V}
    (W : VW st σ) (h : σ x = some s) (hc : s.xs.length < s.cap) (hr : pushBack x (.ext v) st = .ok () st') :
    st'.next = st.next := by
  obtain ⟨xs, c, p⟩ := s
  simp only at hc
  have ho := W_obj W h
  cases p with
  | none => have := (W_null W h).1; omega
  | some a =>
    have hm := (W_mem W h).1
    simp only [pushBack, grow, M.bind_apply, getObj_some ho] at hr
    rw [if_neg (by omega), if_neg (by omega)] at hr
    simp only [M.pure_apply, getObj_some ho, setObj_some ho, Ref.read] at hr
    rw [constructAt_arr (by exact hm) rfl hc (by exact W.thr)] at hr
    cases hr; rfl

omit [Inhabited V] [BEq V] in
/-- With room for all of them, pushing elements costs one copy each. -/
theorem pushAll_room {vs : List V} {st : VSt V} {σ : Nat → Option (AV V)} {x : Nat} {s : AV V}
    (W : VW st σ) (h : σ x = some s) (hc : s.xs.length + vs.length ≤ s.cap) :
    ∃ st', pushAll x vs st = .ok () st' ∧
      VW st' (upd σ x (some ⟨s.xs ++ vs, s.cap, s.p⟩)) ∧ st'.next = st.next ∧
      CostAt (pushAll x vs) st vs.length := by
  induction vs generalizing st σ s with
  | nil => exact ⟨st, rfl, by simp; rw [upd_eq_self h]; exact W, rfl, CostLe.pure _ st W.thr⟩
  | cons v vs ih =>
    simp only [List.length_cons] at hc
    obtain ⟨st1, h1, W1⟩ := pushBack_ext (v := v) W h
    have e : s.push v st.next = ⟨s.xs ++ [v], s.cap, s.p⟩ := by
      unfold AV.push
      rw [if_neg (by omega), if_neg (by omega), if_pos (by omega)]
    rw [e] at W1
    obtain ⟨st2, h2, W2, hn, hcost⟩ := ih W1 (upd_same _ _ _) (by simp; omega)
    refine ⟨st2, by simp [pushAll, h1, h2], by rw [upd_upd] at W2; simpa using W2,
      hn.trans (pushBack_room W h (by omega) h1), ?_⟩
    refine (CostAt.bind_ok (f := fun _ => pushAll x vs) (pushBack_cost (W_obj W h) W.thr) h1 hcost).mono ?_
    simp only [List.length_cons]
    rw [if_neg (by omega), if_neg (by omega)]; omega

end Cest.Vec
