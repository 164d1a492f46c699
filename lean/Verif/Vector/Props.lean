import Verif.Vector.Refine
import Verif.Vector.Throw
/-
Properties C01–C10 of cest::vector.
-/
namespace Cest.Vec
open Cest
variable {V : Type} [Inhabited V] [BEq V]

/-- `st` is a state reached by some client program that respects the preconditions of the interface,
and `e` gives the contents that the specification assigns to the variables at that point. -/
def Reach (st : VSt V) (e : Env V) : Prop :=
  ∃ ops outs, specRun Env.none ops = some (e, outs) ∧ runOps ops St.init = .ok outs st

theorem reach_world {st : VSt V} {e : Env V} (h : Reach st e) : ∃ σ, VW st σ ∧ envOf σ = e := by
  obtain ⟨ops, outs, h1, h2⟩ := h
  obtain ⟨st', σ', r, W, he⟩ := run_refines (World.init (I := vecI)) rfl h1
  rw [h2] at r; cases r
  exact ⟨σ', W, he⟩

theorem runOps_append (ops ops' : List (Op V)) (st : VSt V) :
    runOps (ops ++ ops') st = match runOps ops st with
      | .ok os st' => (match runOps ops' st' with
        | .ok os' st'' => .ok (os ++ os') st''
        | .throw e s => .throw e s
        | .ub u => .ub u
        | .timeout => .timeout)
      | .throw e s => .throw e s
      | .ub u => .ub u
      | .timeout => .timeout := by
  induction ops generalizing st with
  | nil => simp [runOps]; cases runOps ops' st <;> rfl
  | cons op ops ih =>
    simp only [List.cons_append, runOps, M.bind_apply, ih, M.pure_apply]
    cases runOp op st with
    | ok o s =>
      simp only []
      cases runOps ops s with
      | ok os s' => simp only []; cases runOps ops' s' <;> rfl
      | throw _ _ => rfl
      | ub _ => rfl
      | timeout => rfl
    | throw _ _ => rfl
    | ub _ => rfl
    | timeout => rfl

theorem specRun_append {e e' : Env V} {ops ops' : List (Op V)} {os : List (Out V)}
    (h : specRun e ops = some (e', os)) :
    specRun e (ops ++ ops') = (specRun e' ops').map (fun r => (r.1, os ++ r.2)) := by
  induction ops generalizing e os with
  | nil => simp [specRun] at h; obtain ⟨rfl, rfl⟩ := h; simp
  | cons op ops ih =>
    simp only [List.cons_append, specRun] at h ⊢
    cases h1 : specStep e op with
    | none => simp [h1] at h
    | some r =>
      obtain ⟨e1, o⟩ := r
      simp only [h1] at h ⊢
      cases h2 : specRun e1 ops with
      | none => simp [h2] at h
      | some r2 =>
        obtain ⟨e2, os2⟩ := r2
        simp [h2] at h
        obtain ⟨rfl, rfl⟩ := h
        rw [ih h2]
        cases specRun e2 ops' <;> simp

/-- Reachability is closed under further operations. -/
theorem Reach.run {st st' : VSt V} {e e' : Env V} {ops : List (Op V)} {os : List (Out V)}
    (h : Reach st e) (hs : specRun e ops = some (e', os)) (hr : runOps ops st = .ok os st') :
    Reach st' e' := by
  obtain ⟨ops0, outs0, h1, h2⟩ := h
  refine ⟨ops0 ++ ops, outs0 ++ os, ?_, ?_⟩
  · rw [specRun_append h1, hs]; rfl
  · rw [runOps_append, h2]; simp [hr]

/-! ### C01 -/

/-- **C01.** Every program that respects the interface's preconditions runs without undefined
behaviour, exception or divergence, and every observation equals that of mathematical sequences. -/
theorem C01_vector_history {ops : List (Op V)} {e : Env V} {outs : List (Out V)}
    (h : specRun Env.none ops = some (e, outs)) : ∃ st, runOps ops St.init = .ok outs st := by
  obtain ⟨st, σ, r, _, _⟩ := run_refines (World.init (I := vecI)) rfl h
  exact ⟨st, r⟩

/-- The hypothesis of C01 is met by a program with reallocation, copy, self-assignment, erase and
out-of-range access. -/
example : (specRun (V := Nat) Env.none
    [.newList 0 [1, 2, 3], .newCopy 1 0, .pushBackFrom 0 1 2, .erase 0 1 3, .assign 0 0,
     .toList 0, .at_ 0 7, .eq 0 1, .newMove 2 1, .size 1, .destroy 0, .destroy 1, .toList 2]).map Prod.snd =
    some [.unit, .unit, .unit, .nat 1, .unit, .vals [1, 3], .outOfRange, .bool false, .unit, .nat 0,
     .unit, .unit, .vals [1, 2, 3]] := rfl

/-! ### C02 -/

/-- **C02 (no leak).** After any program at whose end no vector is alive, no storage is allocated.
(Double destruction, double free, wrong-size free, freeing live elements, constructing over live
elements and reading dead ones are undefined behaviour of the machine, excluded by C01.) -/
theorem C02_vector_no_leak {ops : List (Op V)} {e : Env V} {outs : List (Out V)}
    (h : specRun Env.none ops = some (e, outs)) (hd : ∀ x, e x = none) :
    ∃ st, runOps ops St.init = .ok outs st ∧ ∀ a, st.mem a = none := by
  obtain ⟨st, σ, r, W, he⟩ := run_refines (World.init (I := vecI)) rfl h
  exact ⟨st, r, W.empty_mem (fun x => envOf_none he (hd x))⟩

example : ∃ e, specRun (V := Nat) Env.none
    [.newList 0 [1, 2, 3], .newCopy 1 0, .destroy 0, .destroy 1] = some (e, [.unit, .unit, .unit, .unit]) ∧
    ∀ x, e x = none := ⟨_, rfl, by intro x; simp [Env.set, Env.none]; grind⟩

/-- **C02 (exact lifetimes).** At every point of every program each allocated block belongs to exactly
one living vector, has exactly its capacity, and the live elements in it are exactly the vector's. -/
theorem C02_vector_storage {st : VSt V} {e : Env V} (h : Reach st e) {a : Nat} {b : Blk V}
    (hb : st.mem a = some b) :
    ∃ x xs, e x = some xs ∧ data x st = .ok (some a) st ∧ capacity x st = .ok b.len st ∧
      (∀ i, b.slot i = xs[i]?) ∧
      ∀ y ys, e y = some ys → data y st = .ok (some a) st → y = x := by
  obtain ⟨σ, W, rfl⟩ := reach_world h
  obtain ⟨x, hx⟩ := W.own a (by simp [hb])
  cases hs : σ x with
  | none => simp [hs] at hx
  | some s =>
    obtain ⟨xs, c, p⟩ := s
    simp [hs] at hx
    subst hx
    obtain ⟨hm, hc⟩ := W_mem W hs
    rw [hb] at hm
    simp at hm
    refine ⟨x, xs, by simp [envOf, hs], data_spec W hs, by rw [hm]; exact capacity_spec W hs,
      by intro i; rw [hm]; rfl, ?_⟩
    intro y ys hy hdy
    obtain ⟨sy, hy', rfl⟩ := envOf_some rfl hy
    rw [data_spec W hy'] at hdy
    simp at hdy
    exact W.disj y x a (by simp [hy', hdy]) (by simp [hs])

/-! ### C03 -/

/-- **C03 (size ≤ capacity).** -/
theorem C03_vector_capacity {st : VSt V} {e : Env V} (h : Reach st e) {x : Nat} {xs : List V}
    (hx : e x = some xs) :
    ∃ c, capacity x st = .ok c st ∧ size x st = .ok xs.length st ∧ xs.length ≤ c := by
  obtain ⟨σ, W, rfl⟩ := reach_world h
  obtain ⟨s, hs, rfl⟩ := envOf_some rfl hx
  exact ⟨s.cap, capacity_spec W hs, size_spec W hs, W_len W hs⟩

/-- **C03 (reserve).** -/
theorem C03_vector_reserve {st : VSt V} {e : Env V} (h : Reach st e) {x : Nat} {xs : List V}
    (hx : e x = some xs) (n : Nat) :
    ∃ st' c p, capacity x st = .ok c st ∧ data x st = .ok p st ∧ reserve x n st = .ok () st' ∧
      Reach st' e ∧ capacity x st' = .ok (max c n) st' ∧ toList x st' = .ok xs st' ∧
      (n ≤ c → data x st' = .ok p st') := by
  have h0 := h
  obtain ⟨σ, W, rfl⟩ := reach_world h
  obtain ⟨s, hs, rfl⟩ := envOf_some rfl hx
  obtain ⟨st', h1, W'⟩ := reserve_spec (n := n) W hs
  have hs' : (upd σ x (some (s.reserve n st.next))) x = some (s.reserve n st.next) := upd_same _ _ _
  refine ⟨st', s.cap, s.p, capacity_spec W hs, data_spec W hs, h1, ?_, ?_, ?_, ?_⟩
  · refine h0.run (ops := [.reserve x n]) (os := [.unit]) ?_ (by simp [runOps, runOp, h1])
    simp [specRun, specStep, hx]
  · rw [capacity_spec W' hs']
    simp only [AV.reserve]; split <;> simp <;> omega
  · rw [toList_spec W' hs']
    simp only [AV.reserve]; split <;> rfl
  · intro hn
    rw [data_spec W' hs']
    simp only [AV.reserve]; rw [if_neg (by omega)]

/-- **C03 (push_back growth and pointer stability).** -/
theorem C03_vector_push_growth {st : VSt V} {e : Env V} (h : Reach st e) {x : Nat} {xs : List V}
    (hx : e x = some xs) (v : V) :
    ∃ st' c p, capacity x st = .ok c st ∧ data x st = .ok p st ∧ pushBack x (.ext v) st = .ok () st' ∧
      (xs.length < c → data x st' = .ok p st' ∧ capacity x st' = .ok c st') ∧
      (xs.length = c → capacity x st' = .ok (if c = 0 then 1 else 2 * c) st') := by
  obtain ⟨σ, W, rfl⟩ := reach_world h
  obtain ⟨s, hs, rfl⟩ := envOf_some rfl hx
  obtain ⟨st', h1, W'⟩ := pushBack_ext (v := v) W hs
  have hs' : (upd σ x (some (s.push v st.next))) x = some (s.push v st.next) := upd_same _ _ _
  refine ⟨st', s.cap, s.p, capacity_spec W hs, data_spec W hs, h1, ?_, ?_⟩
  · intro hlt
    rw [data_spec W' hs', capacity_spec W' hs']
    simp only [AV.push, if_pos hlt]
    rw [if_neg (by omega), if_neg (by omega)]
    simp
  · intro heq
    rw [capacity_spec W' hs']
    simp only [AV.push]
    by_cases h0 : s.cap = 0
    · simp [h0]
    · rw [if_neg h0, if_pos heq.symm, if_neg h0]; congr 1; omega

/-- **C03 (resize / copy assignment within capacity keep the storage).** -/
theorem C03_vector_resize_assign_stable {st : VSt V} {e : Env V} (h : Reach st e) {x : Nat}
    {xs : List V} (hx : e x = some xs) :
    ∃ c p, capacity x st = .ok c st ∧ data x st = .ok p st ∧
      (∀ n, n ≤ c → ∃ st', resize x n st = .ok () st' ∧ data x st' = .ok p st' ∧
        capacity x st' = .ok c st') ∧
      (∀ y ys d, e y = some ys → capacity y st = .ok d st → d ≤ c →
        ∃ st', copyAssign x y st = .ok () st' ∧ data x st' = .ok p st' ∧ capacity x st' = .ok c st') := by
  obtain ⟨σ, W, rfl⟩ := reach_world h
  obtain ⟨s, hs, rfl⟩ := envOf_some rfl hx
  refine ⟨s.cap, s.p, capacity_spec W hs, data_spec W hs, ?_, ?_⟩
  · intro n hn
    obtain ⟨st', s', h1, W', h2, h3, h4⟩ := resize_spec (n := n) W hs
    refine ⟨st', h1, ?_, ?_⟩
    · rw [data_spec W' (upd_same _ _ _), h4 hn]
    · rw [capacity_spec W' (upd_same _ _ _), h3]; congr 1; omega
  · intro y ys d hy hd hdc
    obtain ⟨sy, hy', rfl⟩ := envOf_some rfl hy
    rw [capacity_spec W hy'] at hd; simp at hd
    obtain ⟨st', h1, W'⟩ := copyAssign_spec W hs hy'
    refine ⟨st', h1, ?_, ?_⟩
    · rw [data_spec W' (upd_same _ _ _)]; simp only [AV.assign]; rw [if_neg (by omega)]
    · rw [capacity_spec W' (upd_same _ _ _)]; simp only [AV.assign]; congr 1; omega

/-- **C03 (geometric growth).** `n > 0` push_backs into a new vector give a power-of-two capacity in
`[n, 2n)`. -/
theorem C03_vector_doubling {st : VSt V} {e : Env V} (h : Reach st e) {x : Nat} (hx : e x = none)
    (vs : List V) (hne : vs ≠ []) :
    ∃ st1 st2 k, ctor x st = .ok () st1 ∧ pushAll x vs st1 = .ok () st2 ∧
      capacity x st2 = .ok (2^k) st2 ∧ vs.length ≤ 2^k ∧ 2^k < 2 * vs.length := by
  obtain ⟨σ, W, rfl⟩ := reach_world h
  obtain ⟨st1, h1, W1⟩ := ctor_spec W (envOf_none rfl hx)
  -- invariant of pushing
  have key : ∀ (vs : List V) (st1 : VSt V) (σ : Nat → Option (AV V)) (s : AV V), VW st1 σ → σ x = some s →
      ((s.cap = 0 ∧ s.xs = []) ∨ ∃ k, s.cap = 2^k ∧ s.xs.length ≤ 2^k ∧ 2^k < 2 * s.xs.length) →
      ∃ st2 s2, pushAll x vs st1 = .ok () st2 ∧ VW st2 (upd σ x (some s2)) ∧
        s2.xs = s.xs ++ vs ∧
        ((s2.cap = 0 ∧ s2.xs = []) ∨ ∃ k, s2.cap = 2^k ∧ s2.xs.length ≤ 2^k ∧ 2^k < 2 * s2.xs.length) := by
    intro vs
    induction vs with
    | nil =>
      intro st1 σ s W hs hi
      exact ⟨st1, s, rfl, by rw [upd_eq_self hs]; exact W, by simp, hi⟩
    | cons v vs ih =>
      intro st1 σ s W hs hi
      obtain ⟨st2, h2, W2⟩ := pushBack_ext (v := v) W hs
      obtain ⟨st3, s3, h3, W3, h4, h5⟩ := ih st2 _ (s.push v st1.next) W2 (upd_same _ _ _) (by
        right
        simp only [AV.push]
        rcases hi with ⟨hc, hx⟩ | ⟨k, hc, hl1, hl2⟩
        · exact ⟨0, by simp [hc], by simp [hx], by simp [hx]⟩
        · have hpos : 0 < 2^k := Nat.two_pow_pos k
          by_cases hfull : s.cap = s.xs.length
          · refine ⟨k+1, ?_, ?_, ?_⟩
            · rw [if_neg (by omega), if_pos hfull, hc, Nat.pow_succ]
            · simp only [List.length_append, List.length_singleton]
              rw [Nat.pow_succ]; omega
            · simp only [List.length_append, List.length_singleton]
              rw [Nat.pow_succ]; omega
          · refine ⟨k, ?_, ?_, ?_⟩
            · rw [if_neg (by omega), if_neg hfull, hc]
            · simp only [List.length_append, List.length_singleton]; omega
            · simp only [List.length_append, List.length_singleton]; omega)
      refine ⟨st3, s3, by simp [pushAll, h2, h3], by rwa [upd_upd] at W3, ?_, h5⟩
      rw [h4]; simp [AV.push]
  obtain ⟨st2, s2, h2, W2, h3, h4⟩ := key vs st1 _ ⟨[], 0, none⟩ W1 (upd_same _ _ _) (Or.inl ⟨rfl, rfl⟩)
  simp only [List.nil_append] at h3
  rcases h4 with ⟨_, h5⟩ | ⟨k, hk, hl1, hl2⟩
  · rw [h3] at h5; exact absurd h5 hne
  · refine ⟨st1, st2, k, h1, h2, ?_, by rw [← h3]; exact hl1, by rw [← h3]; exact hl2⟩
    rw [capacity_spec W2 (upd_same _ _ _), hk]

/-- Result of a terminating computation. -/
def resVal {S α : Type} : Res S α → Option α
  | .ok a _ => some a
  | _ => none

/-- Witness builder: the state after a concrete program, with the capacity of one of its vectors. -/
theorem reach_witness (ops : List (Op V)) {e : Env V} {outs : List (Out V)} {x c : Nat} {xs : List V}
    (h : specRun Env.none ops = some (e, outs)) (hx : e x = some xs)
    (hc : resVal ((runOps ops >>= fun _ => capacity x) St.init) = some c) :
    ∃ st, Reach st e ∧ capacity x st = .ok c st := by
  obtain ⟨st, hr⟩ := C01_vector_history h
  have R : Reach st e := ⟨ops, outs, h, hr⟩
  obtain ⟨c', h1, _⟩ := C03_vector_capacity R hx
  simp [hr, h1, resVal] at hc
  subst hc
  exact ⟨st, R, h1⟩

/-- A reachable state with a non-empty vector (hypotheses of the theorems of this file). -/
theorem reach_example : ∃ st : VSt Nat, Reach st (Env.none.set 0 (some [5, 6, 7])) ∧
    capacity 0 st = .ok 4 st :=
  reach_witness [.newList 0 [5, 6, 7]] (outs := [.unit]) (xs := [5, 6, 7]) rfl rfl (by decide +kernel)

/-- A reachable full vector. -/
theorem reach_full : ∃ st : VSt Nat, Reach st (Env.none.set 0 (some [5])) ∧
    capacity 0 st = .ok 1 st :=
  reach_witness [.newList 0 [5]] (outs := [.unit]) (xs := [5]) rfl rfl (by decide +kernel)

/-- A reachable empty vector with spare capacity. -/
theorem reach_spare : ∃ st : VSt Nat, Reach st (Env.none.set 0 (some [])) ∧
    capacity 0 st = .ok 1 st := by
  have h := reach_witness (V := Nat) [.new 0, .reserve 0 1] (outs := [.unit, .unit]) (x := 0)
    (xs := []) (c := 1) rfl rfl (by decide +kernel)
  exact h

/-! ### C04 -/

/-- **C04.** `at(i)` returns element `i` when `i < size()` and otherwise throws `out_of_range` and
changes nothing; it never has undefined behaviour. -/
theorem C04_vector_at {st : VSt V} {e : Env V} (h : Reach st e) {x : Nat} {xs : List V}
    (hx : e x = some xs) (i : Nat) :
    (∀ hi : i < xs.length, at_ x i st = .ok xs[i] st) ∧
    (xs.length ≤ i → at_ x i st = .throw .outOfRange st) := by
  obtain ⟨σ, W, rfl⟩ := reach_world h
  obtain ⟨s, hs, rfl⟩ := envOf_some rfl hx
  exact ⟨fun hi => at_spec W hs (by simp), fun hi => at_throw W hs hi⟩

/-! ### C05 -/

omit [Inhabited V] [BEq V] in
theorem set_ne {e : Env V} {x z : Nat} {v : Option (List V)} (h : z ≠ x) : e.set x v z = e z := by
  simp [Env.set, h]

theorem specStep_frame {e e' : Env V} {op : Op V} {o : Out V} {z : Nat}
    (h : specStep e op = some (e', o)) (hz : z ∉ op.mutates) : e' z = e z := by
  cases op <;> simp only [specStep] at h <;> simp only [Op.mutates, List.mem_cons, List.not_mem_nil,
    or_false, not_or] at hz <;> (repeat' split at h) <;> simp at h <;>
    (try obtain ⟨rfl, rfl⟩ := h) <;> simp_all [set_ne]

theorem specRun_frame {ops : List (Op V)} {e e' : Env V} {os : List (Out V)} {z : Nat}
    (h : specRun e ops = some (e', os)) (hz : ∀ op ∈ ops, z ∉ op.mutates) : e' z = e z := by
  induction ops generalizing e os with
  | nil => simp [specRun] at h; rw [h.1]
  | cons op ops ih =>
    simp only [specRun] at h
    split at h <;> try simp at h
    rename_i e1 o h1
    split at h <;> simp at h
    rename_i e2 os2 h2
    obtain ⟨rfl, rfl⟩ := h
    rw [ih h2 (fun op hop => hz op (List.mem_cons_of_mem _ hop)),
      specStep_frame h1 (hz op List.mem_cons_self)]

/-- **C05 (copies are equal and independent).** After `vector x(y)`, whatever program runs
afterwards, the one of `x`, `y` that it does not modify still holds the original contents. -/
theorem C05_vector_copy_independent {st : VSt V} {e : Env V} (h : Reach st e) {x y : Nat} {ys : List V}
    (hx : e x = none) (hy : e y = some ys) {ops : List (Op V)} {e' : Env V} {outs : List (Out V)}
    (hs : specRun (e.set x (some ys)) ops = some (e', outs)) {z : Nat} (hz : z = x ∨ z = y)
    (hnm : ∀ op ∈ ops, z ∉ op.mutates) :
    ∃ st1 st2, copyCtor x y st = .ok () st1 ∧ runOps ops st1 = .ok outs st2 ∧
      toList z st2 = .ok ys st2 := by
  obtain ⟨σ, W, rfl⟩ := reach_world h
  obtain ⟨s, hy', rfl⟩ := envOf_some rfl hy
  obtain ⟨st1, h1, W1⟩ := copyCtor_spec W (envOf_none rfl hx) hy'
  obtain ⟨st2, σ2, h2, W2, he2⟩ := run_refines W1 (by rw [envOf_upd]; rfl) hs
  refine ⟨st1, st2, h1, h2, ?_⟩
  have hyx : y ≠ x := by intro hh; subst hh; simp [hx] at hy
  have : e' z = some s.xs := by
    rw [specRun_frame hs hnm]
    rcases hz with rfl | rfl
    · simp [Env.set]
    · rw [set_ne hyx, hy]
  obtain ⟨s2, hz2, h3⟩ := envOf_some he2 this
  rw [toList_spec W2 hz2, h3]

/-- **C05 (copy assignment, including self-assignment).** -/
theorem C05_vector_assign_independent {st : VSt V} {e : Env V} (h : Reach st e) {x y : Nat}
    {xs ys : List V} (hx : e x = some xs) (hy : e y = some ys) {ops : List (Op V)} {e' : Env V}
    {outs : List (Out V)} (hs : specRun (e.set x (some ys)) ops = some (e', outs)) {z : Nat}
    (hz : z = x ∨ z = y) (hnm : ∀ op ∈ ops, z ∉ op.mutates) :
    ∃ st1 st2, copyAssign x y st = .ok () st1 ∧ runOps ops st1 = .ok outs st2 ∧
      toList z st2 = .ok ys st2 := by
  obtain ⟨σ, W, rfl⟩ := reach_world h
  obtain ⟨sx, hx', rfl⟩ := envOf_some rfl hx
  obtain ⟨s, hy', rfl⟩ := envOf_some rfl hy
  obtain ⟨st1, h1, W1⟩ := copyAssign_spec W hx' hy'
  obtain ⟨st2, σ2, h2, W2, he2⟩ := run_refines W1 (by rw [envOf_upd]; rfl) hs
  refine ⟨st1, st2, h1, h2, ?_⟩
  have : e' z = some s.xs := by
    rw [specRun_frame hs hnm]
    rcases hz with rfl | rfl
    · simp [Env.set]
    · simp only [Env.set]; split
      · rfl
      · exact hy
  obtain ⟨s2, hz2, h3⟩ := envOf_some he2 this
  rw [toList_spec W2 hz2, h3]

/-- **C05 (move construction empties the source; move assignment and swap exchange, also with
oneself).** -/
theorem C05_vector_move {st : VSt V} {e : Env V} (h : Reach st e) {y : Nat} {ys : List V}
    (hy : e y = some ys) :
    (∀ x, e x = none → ∃ st', moveCtor x y st = .ok () st' ∧ toList x st' = .ok ys st' ∧
      toList y st' = .ok [] st') ∧
    (∀ x xs, e x = some xs → ∃ st', moveAssign x y st = .ok () st' ∧ toList x st' = .ok ys st' ∧
      toList y st' = .ok xs st') ∧
    (∀ x xs, e x = some xs → ∃ st', swap x y st = .ok () st' ∧ toList x st' = .ok ys st' ∧
      toList y st' = .ok xs st') := by
  obtain ⟨σ, W, rfl⟩ := reach_world h
  obtain ⟨s, hy', rfl⟩ := envOf_some rfl hy
  have hswap : ∀ x xs, envOf σ x = some xs → ∃ st', swap x y st = .ok () st' ∧
      toList x st' = .ok s.xs st' ∧ toList y st' = .ok xs st' := by
    intro x xs hx
    obtain ⟨sx, hx', rfl⟩ := envOf_some rfl hx
    obtain ⟨st1, h1, W1⟩ := swap_spec W hx' hy'
    refine ⟨st1, h1, ?_, toList_spec W1 (upd_same _ _ _)⟩
    by_cases hxy : x = y
    · subst hxy
      rw [hx'] at hy'; cases hy'
      exact toList_spec W1 (upd_same _ _ _)
    · exact toList_spec W1 (by simp [hxy])
  refine ⟨?_, hswap, hswap⟩
  intro x hx
  have hyx : y ≠ x := by intro hh; subst hh; simp [hx] at hy
  obtain ⟨st1, h1, W1⟩ := moveCtor_spec W (envOf_none rfl hx) hy'
  refine ⟨st1, h1, toList_spec W1 (by simp [Ne.symm hyx]), toList_spec W1 (upd_same _ _ _)⟩

/-! ### C06 -/

/-- **C06.** `erase` removes exactly positions `i … j-1`, returns the iterator to position `i`, and
does not reallocate. -/
theorem C06_vector_erase {st : VSt V} {e : Env V} (h : Reach st e) {x : Nat} {xs : List V}
    (hx : e x = some xs) {i j : Nat} (hij : i ≤ j) (hj : j ≤ xs.length) :
    ∃ st', erase x i j st = .ok i st' ∧ toList x st' = .ok (xs.take i ++ xs.drop j) st' ∧
      (∃ p, data x st = .ok p st ∧ data x st' = .ok p st') ∧
      (∃ c, capacity x st = .ok c st ∧ capacity x st' = .ok c st') := by
  obtain ⟨σ, W, rfl⟩ := reach_world h
  obtain ⟨s, hs, rfl⟩ := envOf_some rfl hx
  obtain ⟨st', h1, W1⟩ := erase_spec W hs hij hj
  have hs1 := upd_same σ x (some (⟨s.xs.take i ++ s.xs.drop j, s.cap, s.p⟩ : AV V))
  exact ⟨st', h1, toList_spec W1 hs1,
    ⟨s.p, data_spec W hs, by rw [data_spec W1 hs1]⟩,
    ⟨s.cap, capacity_spec W hs, by rw [capacity_spec W1 hs1]⟩⟩

/-! ### C07 -/

/-- `v.push_back(v[i])`. -/
def pushBackSelf (x i : Nat) : VM V Unit := do
  let o ← getObj x
  pushBack x (.cell o.p i)

/-- The full claim of C07: appending one of the vector's own elements always works. -/
def C07_full_statement (V : Type) [Inhabited V] [BEq V] : Prop :=
  ∀ (st : VSt V) (e : Env V) (x : Nat) (xs : List V) (i : Nat), Reach st e → e x = some xs →
    (hi : i < xs.length) → ∃ st', pushBackSelf x i st = .ok () st' ∧
      toList x st' = .ok (xs ++ [xs[i]]) st'

/-- **C07 (part that holds).** It works when the vector does not have to grow. Missing: the case
`size() == capacity()`, which is undefined behaviour (next theorem). -/
theorem C07_vector_push_own_partial {st : VSt V} {e : Env V} (h : Reach st e) {x : Nat} {xs : List V}
    (hx : e x = some xs) {i c : Nat} (hi : i < xs.length) (hc : capacity x st = .ok c st)
    (hlt : xs.length < c) :
    ∃ st', pushBackSelf x i st = .ok () st' ∧ toList x st' = .ok (xs ++ [xs[i]]) st' := by
  obtain ⟨σ, W, rfl⟩ := reach_world h
  obtain ⟨s, hs, rfl⟩ := envOf_some rfl hx
  rw [capacity_spec W hs] at hc; simp at hc; subst hc
  obtain ⟨st', h1, W1⟩ := pushBack_spec (r := .cell s.p i) (v := s.xs[i]) W hs (by
    intro st1 c' p' W1 hp objs'
    have hp := hp hlt; subst hp
    have hs1 : (upd σ x (some ⟨s.xs, c', s.p⟩)) x = some ⟨s.xs, c', s.p⟩ := upd_same _ _ _
    have hl := W_len W1 hs1
    simp only [] at hl
    cases hq : s.p with
    | none => rw [hq] at hs1 W1; have := (W_null W1 hs1).2; simp [this] at hi
    | some b =>
      rw [hq] at hs1 W1
      exact load_arr (by exact (W_mem W1 hs1).1) hl (by simp))
  refine ⟨st', ?_, toList_spec W1 (upd_same _ _ _)⟩
  simp [pushBackSelf, getObj_some (W_obj W hs), h1]

/-- **C07 (violation).** Whenever the vector is full, `v.push_back(v[i])` reads freed storage. -/
theorem C07_vector_push_own_full_ub {st : VSt V} {e : Env V} (h : Reach st e) {x : Nat} {xs : List V}
    (hx : e x = some xs) {i : Nat} (hi : i < xs.length) (hc : capacity x st = .ok xs.length st) :
    pushBackSelf x i st = .ub .dangling := by
  obtain ⟨σ, W, rfl⟩ := reach_world h
  obtain ⟨s, hs, rfl⟩ := envOf_some rfl hx
  rw [capacity_spec W hs] at hc; simp at hc
  obtain ⟨st1, h1, W1⟩ := reserve_spec (n := s.cap * 2) W hs
  have ho := W_obj W hs
  have hgrow : grow x st = .ok () st1 := by
    unfold grow
    simp only [M.bind_apply, getObj_some ho]
    rw [if_neg (by omega), if_pos hc]; exact h1
  have hs1 : (upd σ x (some (s.reserve (s.cap * 2) st.next))) x =
    some (s.reserve (s.cap * 2) st.next) := upd_same _ _ _
  have ho1 := W_obj W1 hs1
  have hlt : s.cap * 2 > s.cap := by omega
  simp only [AV.reserve, hlt, if_true] at ho1 W1
  unfold pushBackSelf pushBack
  simp only [M.bind_apply, getObj_some ho, hgrow, getObj_some ho1]
  rw [setObj_some ho1]
  simp only [Ref.read]
  cases hq : s.p with
  | none =>
    obtain ⟨xs, c, p⟩ := s
    simp only [] at hq hi; subst hq; have := (W_null W hs).2; simp [this] at hi
  | some b =>
    have hb : b < st.next := W.lt_next (x := x) (by simp [hs, hq])
    have hfree : st1.mem b = none := by
      apply Classical.byContradiction
      intro hne
      obtain ⟨y, hy⟩ := W1.own b hne
      by_cases hyx : y = x
      · subst hyx; simp at hy; omega
      · simp [hyx] at hy
        exact hyx (W.disj y x b hy (by simp [hs, hq]))
    simp [load, withSlot, getC, hfree]

/-- **C07 is false**: a one-element vector of capacity one. -/
theorem C07_vector_push_own_refuted : ¬ C07_full_statement Nat := by
  intro hall
  obtain ⟨st, hr, hcap⟩ := reach_full
  obtain ⟨st', h1, _⟩ := hall _ _ 0 [5] 0 hr rfl (by decide)
  rw [C07_vector_push_own_full_ub hr (x := 0) (xs := [5]) (i := 0) rfl (by decide) hcap] at h1
  cases h1

/-! ### C08 -/

/-- The full claim of C08: whatever throws inside `push_back`, the vector keeps its contents and can
be destroyed. -/
def C08_full_statement (V : Type) [Inhabited V] [BEq V] : Prop :=
  ∀ (st : VSt V) (e : Env V) (x : Nat) (xs : List V) (v : V) (k : Nat), Reach st e → e x = some xs →
    ∀ ex st', pushBack x (.ext v) { st with thr := some k } = .throw ex st' →
      toList x st' = .ok xs st' ∧ ∃ st'', dtor x st' = .ok () st''

/-- **C08 (part that holds).** If the vector is full and the exception comes from the allocation
(`k = 0`) or from copying an existing element (`1 ≤ k ≤ size()`) during growth, the vector keeps its
contents and can be destroyed.  Missing: an exception from copying the new element (next theorem). -/
theorem C08_vector_push_throw_partial {st : VSt V} {e : Env V} (h : Reach st e) {x : Nat} {xs : List V}
    (hx : e x = some xs) (v : V) {k : Nat} (hc : capacity x st = .ok xs.length st)
    (hk : k ≤ xs.length) :
    ∃ ex st', pushBack x (.ext v) { st with thr := some k } = .throw ex st' ∧
      toList x st' = .ok xs st' ∧ ∃ st'', dtor x st' = .ok () st'' := by
  obtain ⟨σ, W, rfl⟩ := reach_world h
  obtain ⟨s, hs, rfl⟩ := envOf_some rfl hx
  rw [capacity_spec W hs] at hc; simp at hc
  have ho := W_obj W hs
  cases k with
  | zero =>
    have hst : ({ st with thr := none } : VSt V) = st := by
      have := W.thr; cases st; simp_all
    refine ⟨.badAlloc, st, ?_, toList_spec W hs, by
      obtain ⟨st', h1, _⟩ := dtor_spec W hs; exact ⟨st', h1⟩⟩
    unfold pushBack grow reserve
    simp only [M.bind_apply]
    rw [getObj_some (by exact ho)]
    simp only []
    by_cases h0 : 0 = s.cap
    · rw [if_pos h0]
      simp only [M.bind_apply]
      rw [getObj_some (by exact ho)]
      simp only []
      rw [if_pos (by omega)]
      simp [allocArr, allocC, tick, hst]
    · rw [if_neg h0, if_pos hc]
      simp only [M.bind_apply]
      rw [getObj_some (by exact ho)]
      simp only []
      rw [if_pos (by omega)]
      simp [allocArr, allocC, tick, hst]
  | succ k =>
    obtain ⟨xs, c, p⟩ := s
    simp only [] at hc hk ho
    cases p with
    | none => have := (W_null W hs).2; simp [this] at hk
    | some a =>
      obtain ⟨hm, hc0⟩ := W_mem W hs
      have hlt := W_lt W hs
      have hne : a ≠ st.next := by omega
      have hl := W_len W hs
      simp only [] at hl
      have ht := copyLoop_throw (O := Obj)
        (s := { st with mem := upd st.mem st.next (some (arr (c*2) [])), next := st.next + 1, thr := some k })
        (a := a) (q := st.next) (c := c) (n := c*2) (i := 0) (m := xs.length) (xs := xs) (ys := [])
        (k := k) hne (by simp [hne, hm]) hl (by simp) rfl (by omega) (by omega) (by omega) rfl
      simp only [List.nil_append, List.drop_zero, upd_upd] at ht
      refine ⟨.elem, 
        (⟨st.objs, upd st.mem st.next (some (arr (c*2) (xs.take k))), st.next + 1, none⟩ : VSt V), ?_, ?_⟩
      · unfold pushBack grow reserve
        simp only [M.bind_apply]
        rw [getObj_some (by exact ho)]
        simp only []
        rw [if_neg (by omega), if_pos hc]
        simp only [M.bind_apply]
        rw [getObj_some (by exact ho)]
        simp only []
        rw [if_pos (by omega)]
        simp only [M.bind_apply, allocArr, allocC, tick]
        have e : (⟨c*2, fun _ => none⟩ : Blk V) = arr (c*2) [] := by
          refine Blk.ext' (by rfl) ?_; intro i; simp
        rw [e, ht]
      · refine ⟨toList_raw (a := a) (c := c) (by exact ho) (by simp [hne, hm]) hl, _,
          dtor_raw (a := a) (c := c) (xs := xs) (by exact ho) (by simp [hne, hm]) hl hc0⟩

/-- **C08 (violation).** If the new element's copy throws when no growth is needed, the vector is left
with one element too many and its destructor has undefined behaviour. -/
theorem C08_vector_push_throw_ub {st : VSt V} {e : Env V} (h : Reach st e) {x : Nat} {xs : List V}
    (hx : e x = some xs) (v : V) {c : Nat} (hc : capacity x st = .ok c st) (hlt : xs.length < c) :
    ∃ st', pushBack x (.ext v) { st with thr := some 0 } = .throw .elem st' ∧
      dtor x st' = .ub .deadDestroy := by
  obtain ⟨σ, W, rfl⟩ := reach_world h
  obtain ⟨s, hs, rfl⟩ := envOf_some rfl hx
  rw [capacity_spec W hs] at hc; simp at hc; subst hc
  obtain ⟨xs, c, p⟩ := s
  have ho := W_obj W hs
  simp only [] at ho hlt
  cases p with
  | none => have := (W_null W hs).1; omega
  | some a =>
    obtain ⟨hm, hc0⟩ := W_mem W hs
    refine ⟨{ st with objs := upd st.objs x (some ⟨xs.length + 1, c, some a⟩), thr := none }, ?_, ?_⟩
    · unfold pushBack grow
      simp only [M.bind_apply]
      rw [getObj_some (by exact ho)]
      simp only []
      rw [if_neg (by omega), if_neg (by omega)]
      simp only [M.pure_apply]
      rw [getObj_some (by exact ho)]
      simp only []
      rw [setObj_some (by exact ho)]
      simp only [Ref.read, M.pure_apply]
      rw [constructAt_throw (by exact hm) rfl hlt rfl]
    · unfold dtor clear
      simp only [M.bind_apply]
      rw [getObj_some (by exact upd_same _ _ _)]
      simp only []
      rw [destroyN_dead (b := arr c xs) (n := c) (k := xs.length) (xs := xs) (by exact hm) rfl
        (fun _ _ => rfl) rfl (by omega) (by omega) hlt]

/-- **C08 is false**: an empty vector with reserved storage. -/
theorem C08_vector_push_throw_refuted : ¬ C08_full_statement Nat := by
  intro hall
  obtain ⟨st, hr, hcap⟩ := reach_spare
  obtain ⟨st', h1, h2⟩ := C08_vector_push_throw_ub hr (x := 0) (xs := []) rfl 7 (c := 1) hcap (by decide)
  obtain ⟨_, st'', h3⟩ := hall _ _ 0 [] 7 0 hr rfl _ _ h1
  rw [h2] at h3; cases h3

/-! ### C09 -/

/-- The full claim of C09: copy construction never ends in undefined behaviour, whatever throws. -/
def C09_full_statement (V : Type) [Inhabited V] [BEq V] : Prop :=
  ∀ (st : VSt V) (e : Env V) (x y : Nat) (ys : List V) (k : Nat), Reach st e → e x = none →
    e y = some ys → ∀ u, copyCtor x y { st with thr := some k } ≠ .ub u

/-- **C09 (part that holds).** If the allocation throws, the half-built copy disappears and nothing else
changes.  Missing: a throwing element copy (next theorem). -/
theorem C09_vector_copy_throw_partial {st : VSt V} {e : Env V} (h : Reach st e) {x y : Nat} {ys : List V}
    (hx : e x = none) (hy : e y = some ys) {c : Nat} (hc : capacity y st = .ok c st) (hpos : 0 < c) :
    copyCtor x y { st with thr := some 0 } = .throw .badAlloc st := by
  obtain ⟨σ, W, rfl⟩ := reach_world h
  obtain ⟨s, hs, rfl⟩ := envOf_some rfl hy
  rw [capacity_spec W hs] at hc; simp at hc; subst hc
  have hyx : y ≠ x := by intro hh; subst hh; simp [hx] at hy
  have hno := W.dom x (envOf_none rfl hx)
  have ho := W_obj W hs
  unfold copyCtor ctor
  simp only [M.bind_apply]
  rw [newObj_none (by exact hno)]
  simp only [M.onThrow, M.bind_apply]
  rw [getObj_some (o := ⟨s.xs.length, s.cap, s.p⟩) (by simp [hyx, ho])]
  simp only [reserve, M.bind_apply]
  rw [getObj_some (by exact upd_same _ _ _)]
  simp only []
  rw [if_pos hpos]
  simp only [M.bind_apply, allocArr, allocC, tick]
  simp [dtor, clear, getObj, setObj, delObj, destroyN_null, upd_upd]
  rw [upd_eq_self hno]
  have := W.thr
  cases st; simp_all

/-- **C09 (violation).** If the copy of any element throws, the destructor that runs during unwinding
destroys elements that were never constructed. -/
theorem C09_vector_copy_throw_ub {st : VSt V} {e : Env V} (h : Reach st e) {x y : Nat} {ys : List V}
    (hx : e x = none) (hy : e y = some ys) {j : Nat} (hj : j < ys.length) :
    copyCtor x y { st with thr := some (j+1) } = .ub .deadDestroy := by
  obtain ⟨σ, W, rfl⟩ := reach_world h
  obtain ⟨s, hs, rfl⟩ := envOf_some rfl hy
  obtain ⟨ys, c, p⟩ := s
  have hyx : y ≠ x := by intro hh; subst hh; simp [hx] at hy
  have hno := W.dom x (envOf_none rfl hx)
  have ho := W_obj W hs
  have hl := W_len W hs
  simp only [] at ho hl hj
  cases p with
  | none => have := (W_null W hs).2; simp [this] at hj
  | some a =>
    obtain ⟨hm, hc0⟩ := W_mem W hs
    have hlt := W_lt W hs
    have hne : a ≠ st.next := by omega
    unfold copyCtor ctor
    simp only [M.bind_apply]
    rw [newObj_none (by exact hno)]
    simp only [M.onThrow, M.bind_apply]
    rw [getObj_some (o := ⟨ys.length, c, some a⟩) (by simp [hyx, ho])]
    simp only [reserve, M.bind_apply]
    rw [getObj_some (by exact upd_same _ _ _)]
    simp only []
    rw [if_pos (by omega)]
    simp only [M.bind_apply, allocArr, allocC, tick, forN, M.pure_apply]
    have e : (⟨c, fun _ => none⟩ : Blk V) = arr c [] := by
      refine Blk.ext' (by rfl) ?_; intro i; simp
    rw [e]
    simp only [ne_eq, not_true, if_false]
    rw [setObj_some (by exact upd_same _ _ _)]
    simp only [upd_upd]
    rw [getObj_some (o := ⟨ys.length, c, some a⟩) (by simp [hyx, ho])]
    simp only []
    rw [getObj_some (by exact upd_same _ _ _)]
    simp only []
    rw [setObj_some (by exact upd_same _ _ _)]
    simp only [upd_upd]
    rw [getObj_some (by exact upd_same _ _ _)]
    simp only []
    rw [copyLoop_throw (i := 0) (k := j) (xs := ys) (ys := []) (c := c) (n := c) hne
      (by simp [hne, hm]) hl (by simp) rfl (by omega) (by omega) (by omega) rfl]
    simp only [dtor, clear, M.bind_apply, upd_upd]
    rw [getObj_some (by exact upd_same _ _ _)]
    simp only []
    rw [destroyN_dead (b := arr c (ys.take j)) (n := c) (k := j) (xs := ys.take j) (by simp) rfl
        (fun _ _ => rfl) (by simp; omega) (by omega) (by omega) (by omega)]

/-- **C09 is false**: copying a one-element vector whose element copy throws. -/
theorem C09_vector_copy_throw_refuted : ¬ C09_full_statement Nat := by
  intro hall
  obtain ⟨st, hr, hcap⟩ := reach_full
  exact hall _ _ 1 0 [5] 1 hr rfl rfl _
    (C09_vector_copy_throw_ub hr (x := 1) (y := 0) (ys := [5]) rfl rfl (j := 0) (by decide))

/-! ### C10 -/

/-- **C10.** `a == b` is true iff both have the same length and equal elements at every index. -/
theorem C10_vector_eq [LawfulBEq V] {st : VSt V} {e : Env V} (h : Reach st e) {x y : Nat}
    {xs ys : List V} (hx : e x = some xs) (hy : e y = some ys) :
    ∃ b, eq x y st = .ok b st ∧
      (b = true ↔ xs.length = ys.length ∧ ∀ i, i < xs.length → xs[i]? = ys[i]?) := by
  obtain ⟨σ, W, rfl⟩ := reach_world h
  obtain ⟨sx, hx', rfl⟩ := envOf_some rfl hx
  obtain ⟨sy, hy', rfl⟩ := envOf_some rfl hy
  refine ⟨_, eq_spec W hx' hy', ?_⟩
  rw [beq_iff_eq]
  constructor
  · intro h; rw [h]; simp
  · rintro ⟨h1, h2⟩
    apply List.ext_getElem?
    intro i
    by_cases hi : i < sx.xs.length
    · exact h2 i hi
    · rw [List.getElem?_eq_none (by omega), List.getElem?_eq_none (by omega)]

/-! ### The hypotheses are satisfiable -/

/-- C04, C06 on a reachable three-element vector. -/
example : ∃ st : VSt Nat, at_ 0 2 st = .ok 7 st ∧ at_ 0 3 st = .throw .outOfRange st ∧
    ∃ st', erase 0 1 2 st = .ok 1 st' ∧ toList 0 st' = .ok [5, 7] st' := by
  obtain ⟨st, hr, _⟩ := reach_example
  have h4 := C04_vector_at hr (x := 0) (xs := [5, 6, 7]) rfl
  obtain ⟨st', h6, h6', _⟩ := C06_vector_erase hr (x := 0) (xs := [5, 6, 7]) rfl (i := 1) (j := 2)
    (by decide) (by decide)
  exact ⟨st, (h4 2).1 (by decide), (h4 3).2 (by decide), st', h6, h6'⟩

/-- C05: the source is modified, cleared and destroyed; the copy keeps the contents. -/
example : ∃ (st st1 st2 : VSt Nat) (outs : List (Out Nat)), copyCtor 1 0 st = .ok () st1 ∧
    runOps [.set 0 1 9, .pushBack 0 3, .clear 0, .destroy 0] st1 = .ok outs st2 ∧
    toList 1 st2 = .ok [5, 6, 7] st2 := by
  obtain ⟨st, hr, _⟩ := reach_example
  obtain ⟨st1, st2, h1, h2, h3⟩ := C05_vector_copy_independent hr (x := 1) (y := 0) (ys := [5, 6, 7])
    rfl rfl (ops := [.set 0 1 9, .pushBack 0 3, .clear 0, .destroy 0]) rfl (z := 1) (Or.inl rfl)
    (by simp [Op.mutates])
  exact ⟨st, st1, st2, _, h1, h2, h3⟩

/-- C07 partial: spare capacity. -/
example : ∃ st st' : VSt Nat, pushBackSelf 0 1 st = .ok () st' ∧
    toList 0 st' = .ok [5, 6, 7, 6] st' := by
  obtain ⟨st, hr, hc⟩ := reach_example
  obtain ⟨st', h1, h2⟩ := C07_vector_push_own_partial hr (x := 0) (xs := [5, 6, 7]) rfl (i := 1)
    (by decide) hc (by decide)
  exact ⟨st, st', h1, h2⟩

/-- C08 partial: a full vector whose existing element throws when copied. -/
example : ∃ (st : VSt Nat) (ex : Exc) (st' : VSt Nat),
    pushBack 0 (.ext 8) { st with thr := some 1 } = .throw ex st' ∧ toList 0 st' = .ok [5] st' := by
  obtain ⟨st, hr, hc⟩ := reach_full
  obtain ⟨ex, st', h1, h2, _⟩ := C08_vector_push_throw_partial hr (x := 0) (xs := [5]) rfl 8 (k := 1)
    hc (by decide)
  exact ⟨st, ex, st', h1, h2⟩

end Cest.Vec
