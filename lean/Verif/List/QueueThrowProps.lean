import Verif.List.QueueThrowSpec
import Verif.List.QueueThrowRun
import Verif.List.QueueProps
import Verif.List.CostProps
import Verif.List.ThrowProps
/-
C164: what cest::queue over cest::list costs, and exceptions in its operations.
-/
namespace Cest.Lst.Queue
open Cest
variable {V : Type}

/-! ### helper lemmas -/

theorem step_price {e e' : Env V} {op : QOp V} {o : Out V} (h : specStep e (toOp op) = some (e', o)) :
    2 * e'.next = 2 * e.next + qprice (view e) op := by
  cases op with
  | new x =>
    cases hx : e.lists x <;> simp [toOp, specStep, hx] at h
    obtain ⟨rfl, rfl⟩ := h
    simp [qprice, Env.setL]
  | newCopy x y =>
    cases hx : e.lists x <;> cases hy : e.lists y <;> simp [toOp, specStep, hx, hy] at h
    obtain ⟨rfl, rfl⟩ := h
    simp [qprice, Env.setL, Env.bump, view, hy]; omega
  | assign x y =>
    cases hx : e.lists x <;> cases hy : e.lists y <;> simp [toOp, specStep, hx, hy] at h
    obtain ⟨hxy, rfl, rfl⟩ := h
    simp [qprice, Env.setL, Env.bump, view, hy]; omega
  | destroy x =>
    cases hx : e.lists x <;> simp [toOp, specStep, hx] at h
    obtain ⟨rfl, rfl⟩ := h
    simp [qprice, Env.setL]
  | push x v =>
    cases hx : e.lists x <;> simp [toOp, specStep, hx] at h
    obtain ⟨rfl, rfl⟩ := h
    simp [qprice, Env.setL, Env.bump]; omega
  | pop x =>
    rcases hx : e.lists x with _ | (_ | ⟨a, s⟩) <;> simp [toOp, specStep, hx] at h
    obtain ⟨rfl, rfl⟩ := h
    simp [qprice, Env.setL]
  | size x =>
    cases hx : e.lists x <;> simp [toOp, specStep, hx] at h
    obtain ⟨rfl, rfl⟩ := h
    simp [qprice]
  | empty x =>
    cases hx : e.lists x <;> simp [toOp, specStep, hx] at h
    obtain ⟨rfl, rfl⟩ := h
    simp [qprice]
  | front x =>
    rcases hx : e.lists x with _ | (_ | ⟨a, s⟩) <;> simp [toOp, specStep, hx] at h
    obtain ⟨rfl, rfl⟩ := h
    simp [qprice]
  | back x =>
    rcases hx : e.lists x with _ | s <;> simp [toOp, specStep, hx] at h
    rcases hl : s.getLast? with _ | a <;> simp [hl] at h
    obtain ⟨rfl, rfl⟩ := h
    simp [qprice]

theorem writes_toOp (ops : List (QOp V)) : writes (ops.map toOp) = 0 := by
  induction ops with
  | nil => rfl
  | cons op ops ih => cases op <;> simpa [toOp, writes] using ih

theorem run_price {ops : List (QOp V)} : ∀ {e : Env V} {q' : QEnv V} {os : List (QOut V)},
    qspecRun (view e) ops = some (q', os) →
    ∃ e', specRun e (ops.map toOp) = some (e', os.map toOut) ∧ 2 * e'.next = 2 * e.next + qtotal (view e) ops := by
  induction ops with
  | nil =>
    intro e q' os h
    simp only [qspecRun, Option.some.injEq, Prod.mk.injEq] at h
    obtain ⟨rfl, rfl⟩ := h
    exact ⟨e, rfl, rfl⟩
  | cons op ops ih =>
    intro e q' os h
    rw [qspecRun] at h
    rw [qtotal]
    cases h1 : qspecStep (view e) op with
    | none => rw [h1] at h; cases h
    | some r =>
      rw [h1] at h
      obtain ⟨q1, o⟩ := r
      dsimp only at h ⊢
      obtain ⟨e1, s1, rfl⟩ := step_view h1
      cases h2 : qspecRun (view e1) ops with
      | none => rw [h2] at h; cases h
      | some r =>
        rw [h2] at h
        obtain ⟨q2, os'⟩ := r
        simp only [Option.some.injEq, Prod.mk.injEq] at h
        obtain ⟨rfl, rfl⟩ := h
        obtain ⟨e2, s2, hn⟩ := ih h2
        refine ⟨e2, by simp [specRun, s1, s2], ?_⟩
        have := step_price s1
        omega

theorem runs_of {fuel : Nat} {its its' : Its} {ops : List (QOp V)} {os : List (QOut V)} {s s' : LSt V}
    (h : runOps fuel its (ops.map toOp) s = .ok (its', os.map toOut) s') : runQOps fuel ops s = .ok os s' := by
  rw [runs_toOp, M.bind_apply] at h
  cases h3 : runQOps fuel ops s with
  | ok os' s1 =>
    rw [h3] at h
    simp only [M.pure_apply, Res.ok.injEq, Prod.mk.injEq] at h
    obtain ⟨⟨_, h4⟩, rfl⟩ := h
    rw [List.map_injective_iff.2 (fun _ _ h => toOut_inj h) h4]
  | _ => rw [h3] at h; cases h

theorem runT_toOp (fuel : Nat) (its : Its) (ops : List (Option Nat × QOp V)) (s : LSt V) :
    runT fuel its (ops.map fun p => (p.1, toOp p.2)) s =
      (runQT fuel ops >>= fun o => pure (its, o.map (Option.map toOut))) s := by
  induction ops generalizing s with
  | nil => rfl
  | cons p ops ih =>
    obtain ⟨t, op⟩ := p
    rw [List.map_cons, M.bind_apply]
    simp only [runT, runQT, run_toOp, M.bind_apply]
    cases runQOp fuel op { s with thr := t } with
    | ok o s1 =>
      simp only [M.pure_apply, ih, M.bind_apply]
      cases runQT fuel ops { s1 with thr := none } <;> rfl
    | throw x s1 =>
      simp only [ih, M.bind_apply]
      cases runQT fuel ops { s1 with thr := none } <;> rfl
    | _ => rfl

theorem throw_view {e e' : Env V} {op : QOp V} {o : Out V} (h : specStep e (toOp op) = some (e', o)) (k : Nat) :
    match qspecThrow (view e) op k with
    | none => specThrow e (toOp op) k = none
    | some (q, n) => ∃ e'', specThrow e (toOp op) k = some (e'', n) ∧ view e'' = q := by
  cases op with
  | push x v =>
    rcases k with _ | (_ | k)
    · exact ⟨e, rfl, rfl⟩
    · exact ⟨e.bump 1, rfl, rfl⟩
    · have h1 : qspecThrow (view e) (.push x v) (k + 2) = none := if_neg (by simp [qprice])
      rw [h1]
      simp [specThrow, toOp]
  | newCopy x y =>
    cases hx : e.lists x <;> cases hy : e.lists y <;> simp [toOp, specStep, hx, hy] at h
    rename_i t
    have hv : view e y = some (t.map Prod.snd) := by simp [view, hy]
    by_cases hk : k < 2 * t.length
    · have h1 : qspecThrow (view e) (.newCopy x y) k = some (view e, k % 2) := if_pos (by simpa [qprice, hv] using hk)
      rw [h1]
      exact ⟨e.bump ((k + 1) / 2), by simp [specThrow, toOp, hy, hk], rfl⟩
    · have h1 : qspecThrow (view e) (.newCopy x y) k = none := if_neg (by simpa [qprice, hv] using hk)
      rw [h1]
      simp [specThrow, toOp, hy, hk]
  | assign x y =>
    cases hx : e.lists x <;> cases hy : e.lists y <;> simp [toOp, specStep, hx, hy] at h
    rename_i s t
    have hv : view e y = some (t.map Prod.snd) := by simp [view, hy]
    by_cases hk : k < 2 * t.length
    · have h1 : qspecThrow (view e) (.assign x y) k =
          some ((view e).set x (some (((view e y).getD []).take (k / 2))), k % 2) := if_pos (by simpa [qprice, hv] using hk)
      rw [h1]
      refine ⟨_, by simp only [specThrow, toOp, hy, hk, if_true]; rfl, ?_⟩
      rw [view_bump, view_setL, hv, Option.map_some, number_snd]
      rfl
    · have h1 : qspecThrow (view e) (.assign x y) k = none := if_neg (by simpa [qprice, hv] using hk)
      rw [h1]
      simp [specThrow, toOp, hy, hk]
  | _ => simp [qspecThrow, qprice, specThrow, toOp]

theorem runT_view {ops : List (Option Nat × QOp V)} : ∀ {e : Env V} {q' : QEnv V} {os : List (Option (QOut V))} {n : Nat},
    qspecRunT (view e) ops = some (q', os, n) →
    ∃ e', specRunT e (ops.map fun p => (p.1, toOp p.2)) = some (e', os.map (Option.map toOut), n) ∧ view e' = q' := by
  induction ops with
  | nil =>
    intro e q' os n h
    simp only [qspecRunT, Option.some.injEq, Prod.mk.injEq] at h
    obtain ⟨rfl, rfl, rfl⟩ := h
    exact ⟨e, rfl, rfl⟩
  | cons p ops ih =>
    obtain ⟨t, op⟩ := p
    intro e q' os n h
    rw [qspecRunT] at h
    cases h1 : qspecStep (view e) op with
    | none => rw [h1] at h; cases h
    | some r =>
      rw [h1] at h
      obtain ⟨q1, o⟩ := r
      obtain ⟨e1, s1, rfl⟩ := step_view h1
      dsimp only at h
      simp only [List.map_cons, specRunT, s1]
      have hT : match t.bind (qspecThrow (view e) op) with
          | none => t.bind (specThrow e (toOp op)) = none
          | some (q, n) => ∃ e'', t.bind (specThrow e (toOp op)) = some (e'', n) ∧ view e'' = q := by
        cases t with
        | none => rfl
        | some k => exact throw_view s1 k
      cases h2 : t.bind (qspecThrow (view e) op) with
      | none =>
        rw [h2] at h hT
        obtain ⟨⟨q2, os', m⟩, h3, h4⟩ := Option.map_eq_some_iff.1 h
        obtain ⟨e2, s2, rfl⟩ := ih h3
        simp only [Prod.mk.injEq] at h4
        obtain ⟨rfl, rfl, rfl⟩ := h4
        exact ⟨e2, by rw [show _ = none from hT, s2]; rfl, rfl⟩
      | some r =>
        obtain ⟨q2, m2⟩ := r
        rw [h2] at h hT
        obtain ⟨e'', hT, rfl⟩ := hT
        obtain ⟨⟨q2, os', m⟩, h3, h4⟩ := Option.map_eq_some_iff.1 h
        obtain ⟨e2, s2, rfl⟩ := ih h3
        simp only [Prod.mk.injEq] at h4
        obtain ⟨rfl, rfl, rfl⟩ := h4
        exact ⟨e2, by rw [hT]; dsimp only; rw [s2]; rfl, rfl⟩

/-! ### C164 -/

/-- **C164 (cost).** A program over queues with list as their container makes at most two allocations and element copies for each
`push` and for each element of a queue that is copied; `pop`, `front`, `back`, `size`, `empty` and destruction make none.  (Started with
`thr = some (k + c)`, a program that makes `c` of them ends with `thr = some k`.) -/
theorem C164_queue_list_cost {ops : List (QOp V)} {q : QEnv V} {outs : List (QOut V)}
    (h : qspecRun (fun _ => none) ops = some (q, outs)) :
    ∃ F, ∀ fuel, F ≤ fuel → ∃ st c, c ≤ qtotal (fun _ => none) ops ∧ runQOps fuel ops St.init = .ok outs st ∧
      ∀ k, runQOps fuel ops { (St.init : LSt V) with thr := some (k + c) } = .ok outs { st with thr := some k } := by
  obtain ⟨e', h1, h2⟩ := run_price (e := Env.none) h
  obtain ⟨F, hF⟩ := C128_list_cost h1
  refine ⟨F, fun fuel hf => ?_⟩
  obtain ⟨st, its, c, hc, h3, h4⟩ := hF fuel hf
  refine ⟨st, c, ?_, runs_of h3, fun k => runs_of (h4 k)⟩
  rw [price, writes_toOp, h2, view_none] at hc
  simpa [Env.none] using hc

/-- **C164 (exceptions).** Take any program over any number of queues with list as their container, with an exception thrown at any
allocation or element copy of any operation, and caught, as often as the program likes.  If the operations are used within their
preconditions, nothing in the program has undefined behaviour, and every observation is the one of the specification `qspecRunT`: a `push`
that throws changes nothing, a copy construction that throws leaves no queue, an assignment that throws leaves a prefix of the source.
At the end there is one node for every element in the queues (`xs` are the queues that exist), and one for every exception that was
thrown by the copy of an element into its node. -/
theorem C164_queue_list_throw {ops : List (Option Nat × QOp V)} {q : QEnv V} {outs : List (Option (QOut V))} {n : Nat}
    (h : qspecRunT (fun _ => none) ops = some (q, outs, n)) :
    ∃ F st, (∀ fuel, F ≤ fuel → runQT fuel ops St.init = .ok outs st) ∧
      ∀ xs : List Nat, xs.Nodup → (∀ x, q x ≠ none ↔ x ∈ xs) →
        ∃ l : List Nat, l.Nodup ∧ (∀ a, st.mem a ≠ none ↔ a ∈ l) ∧
          l.length = (xs.map fun x => ((q x).getD []).length).sum + n := by
  obtain ⟨e', h1, rfl⟩ := runT_view (e := Env.none) h
  obtain ⟨F, st, its, h2, g, s0, rfl, A, hap, l, l1, l2, l3⟩ :=
    runT_refines ⟨noGarbage, St.init, rfl, agree_init, lost_none _⟩ h1
  refine ⟨F, s0.ext g, fun fuel hf => ?_, fun xs hxs hq => ?_⟩
  · have : runT fuel (fun _ => none) (ops.map fun p => (p.1, toOp p.2)) St.init = _ := h2 fuel hf
    rw [runT_toOp, M.bind_apply] at this
    cases h3 : runQT fuel ops St.init with
    | ok os s =>
      rw [h3] at this
      simp only [M.pure_apply, Res.ok.injEq, Prod.mk.injEq] at this
      obtain ⟨⟨_, h4⟩, rfl⟩ := this
      rw [List.map_injective_iff.2 (Option.map_injective fun _ _ h => toOut_inj h) h4]
    | _ => rw [h3] at this; cases this
  · obtain ⟨l', m1, m2, m3⟩ := nodes_list A hxs hq
    refine ⟨l' ++ l, ?_, fun a => ?_, by rw [List.length_append, m3]; simpa using l2⟩
    · rw [List.nodup_append']
      exact ⟨m1, l1, fun a h1 h2 => (m2 a).2 h1 (hap a ((l3 a).2 h2)).1⟩
    · rw [List.mem_append, ← m2, ← l3]
      simp only [St.ext]
      cases g a <;> simp

/-- Two queues, with a push whose allocation fails, one whose copy fails, a copy that fails at its second element and an assignment that
fails at the second allocation. -/
def demoT : List (Option Nat × QOp Nat) :=
  [(none, .new 0), (none, .push 0 4), (some 0, .push 0 5), (some 1, .push 0 6), (some 2, .push 0 7), (none, .size 0), (some 3, .newCopy 1 0),
    (none, .new 1), (some 2, .assign 1 0), (none, .size 1), (none, .back 1), (some 0, .pop 0), (some 0, .front 0)]

example : (qspecRunT (fun _ => none) demoT).map (fun r => (r.1 0, r.1 1, r.2)) = some (some [7], some [4],
    [some .unit, some .unit, none, none, some .unit, some (.nat 2), none, some .unit, none, some (.nat 1), some (.val 4), some .unit,
      some (.val 7)], 2) := rfl

/-- The queues hold two elements in the end and two nodes are lost, so there are four nodes. -/
example : ∃ F outs, ∃ st : LSt Nat, (∀ fuel, F ≤ fuel → runQT fuel demoT St.init = .ok outs st) ∧
    ∃ l : List Nat, l.Nodup ∧ (∀ a, st.mem a ≠ none ↔ a ∈ l) ∧ l.length = 4 := by
  obtain ⟨F, st, h1, h2⟩ := C164_queue_list_throw (ops := demoT) rfl
  obtain ⟨l, a, b, c⟩ := h2 [0, 1] (by decide) (fun x => by
    match x with
    | 0 => simp [QEnv.set]
    | 1 => simp [QEnv.set]
    | n+2 => simp [QEnv.set])
  exact ⟨F, _, st, h1, l, a, b, by rw [c]; rfl⟩

/-- The program of C163: four pushes and two copies, of queues with two and three elements, cost at most 18. -/
example : qtotal (fun _ => none) demo = 18 := rfl

end Cest.Lst.Queue
