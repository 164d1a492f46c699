import Verif.List.Queue
import Verif.List.Props
import Mathlib.Data.List.Nodup
/-
C163: cest::queue over cest::list.
-/
namespace Cest.Lst.Queue
open Cest
variable {V : Type}

/-! ### helper lemmas -/

/-- The list operation behind a queue operation. -/
def toOp : QOp V → Op V
  | .new x => .new x
  | .newCopy x y => .newCopy x y
  | .assign x y => .assign x y
  | .destroy x => .destroy x
  | .push x v => .pushBack x v
  | .pop x => .popFront x
  | .size x => .size x
  | .empty x => .empty x
  | .front x => .front x
  | .back x => .back x

def toOut : QOut V → Out V
  | .unit => .unit
  | .nat n => .nat n
  | .bool b => .bool b
  | .val v => .val v

theorem toOut_inj {a b : QOut V} (h : toOut a = toOut b) : a = b := by
  cases a <;> cases b <;> simp_all [toOut]

theorem run_toOp (fuel : Nat) (its : Its) (op : QOp V) (s : LSt V) :
    runOp fuel its (toOp op) s = (runQOp fuel op >>= fun o => pure (its, toOut o)) s := by
  cases op <;> simp only [toOp, runOp, runQOp, qctor, qctorFrom, qassign, qdtor, qpush, qpop, qsize, qempty, qfront, qback,
    M.bind_apply, M.pure_apply] <;> split <;> rfl

theorem runs_toOp (fuel : Nat) (its : Its) (ops : List (QOp V)) (s : LSt V) :
    runOps fuel its (ops.map toOp) s = (runQOps fuel ops >>= fun o => pure (its, o.map toOut)) s := by
  induction ops generalizing s with
  | nil => rfl
  | cons op ops ih =>
    rw [List.map_cons, runOps, runQOps]
    simp only [M.bind_apply, run_toOp]
    cases runQOp fuel op s with
    | ok o s1 =>
      simp only [M.pure_apply, ih, M.bind_apply]
      cases runQOps fuel ops s1 <;> rfl
    | _ => rfl

/-- The queues of an environment of lists. -/
def view (e : Env V) : QEnv V := fun x => (e.lists x).map fun s => s.map Prod.snd

theorem view_setL (e : Env V) (x : Nat) (s : Option (Seq V)) :
    view (e.setL x s) = (view e).set x (s.map fun s => s.map Prod.snd) := by
  funext y
  simp only [view, Env.setL, QEnv.set]
  split <;> rfl

theorem view_bump (e : Env V) (n : Nat) : view (e.bump n) = view e := rfl

theorem step_view {e : Env V} {op : QOp V} {q' : QEnv V} {o : QOut V} (h : qspecStep (view e) op = some (q', o)) :
    ∃ e', specStep e (toOp op) = some (e', toOut o) ∧ view e' = q' := by
  cases op with
  | new x =>
    cases hx : e.lists x <;> simp [qspecStep, view, hx] at h
    obtain ⟨rfl, rfl⟩ := h
    exact ⟨_, by simp only [toOp, specStep, hx]; rfl, by rw [view_setL]; rfl⟩
  | newCopy x y =>
    cases hx : e.lists x <;> cases hy : e.lists y <;> simp [qspecStep, view, hx, hy] at h
    obtain ⟨rfl, rfl⟩ := h
    exact ⟨_, by simp only [toOp, specStep, hx, hy]; rfl, by rw [view_bump, view_setL]; simp [number_snd]⟩
  | assign x y =>
    cases hx : e.lists x <;> cases hy : e.lists y <;> simp [qspecStep, view, hx, hy] at h
    obtain ⟨hxy, rfl, rfl⟩ := h
    exact ⟨_, by simp only [toOp, specStep, hx, hy, if_neg hxy]; rfl, by rw [view_bump, view_setL]; simp [number_snd]⟩
  | destroy x =>
    cases hx : e.lists x <;> simp [qspecStep, view, hx] at h
    obtain ⟨rfl, rfl⟩ := h
    exact ⟨_, by simp only [toOp, specStep, hx]; rfl, by rw [view_setL]; rfl⟩
  | push x v =>
    cases hx : e.lists x <;> simp [qspecStep, view, hx] at h
    obtain ⟨rfl, rfl⟩ := h
    exact ⟨_, by simp only [toOp, specStep, hx]; rfl, by rw [view_bump, view_setL]; simp⟩
  | pop x =>
    rcases hx : e.lists x with _ | (_ | ⟨a, s⟩) <;> simp [qspecStep, view, hx] at h
    obtain ⟨rfl, rfl⟩ := h
    exact ⟨_, by simp only [toOp, specStep, hx]; rfl, by rw [view_setL]; rfl⟩
  | size x =>
    cases hx : e.lists x <;> simp [qspecStep, view, hx] at h
    obtain ⟨rfl, rfl⟩ := h
    exact ⟨e, by simp [toOp, specStep, hx, toOut], rfl⟩
  | empty x =>
    cases hx : e.lists x <;> simp [qspecStep, view, hx] at h
    obtain ⟨rfl, rfl⟩ := h
    exact ⟨e, by simp [toOp, specStep, hx, toOut], rfl⟩
  | front x =>
    rcases hx : e.lists x with _ | (_ | ⟨a, s⟩) <;> simp [qspecStep, view, hx] at h
    obtain ⟨rfl, rfl⟩ := h
    exact ⟨e, by simp [toOp, specStep, hx, toOut], rfl⟩
  | back x =>
    rcases hx : e.lists x with _ | s <;> simp [qspecStep, view, hx] at h
    rcases hl : s.getLast? with _ | a <;> simp [hl] at h
    obtain ⟨rfl, rfl⟩ := h
    exact ⟨e, by simp [toOp, specStep, hx, toOut, hl], rfl⟩

theorem run_view {ops : List (QOp V)} : ∀ {e : Env V} {q' : QEnv V} {os : List (QOut V)},
    qspecRun (view e) ops = some (q', os) →
    ∃ e', specRun e (ops.map toOp) = some (e', os.map toOut) ∧ view e' = q' := by
  induction ops with
  | nil =>
    intro e q' os h
    simp only [qspecRun, Option.some.injEq, Prod.mk.injEq] at h
    obtain ⟨rfl, rfl⟩ := h
    exact ⟨e, rfl, rfl⟩
  | cons op ops ih =>
    intro e q' os h
    rw [qspecRun] at h
    cases h1 : qspecStep (view e) op with
    | none => rw [h1] at h; cases h
    | some r =>
      rw [h1] at h
      obtain ⟨q1, o⟩ := r
      dsimp only at h
      obtain ⟨e1, s1, rfl⟩ := step_view h1
      cases h2 : qspecRun (view e1) ops with
      | none => rw [h2] at h; cases h
      | some r =>
        rw [h2] at h
        obtain ⟨q2, os'⟩ := r
        simp only [Option.some.injEq, Prod.mk.injEq] at h
        obtain ⟨rfl, rfl⟩ := h
        obtain ⟨e2, s2, rfl⟩ := ih h2
        exact ⟨e2, by simp [specRun, s1, s2], rfl⟩

theorem view_none : view (Env.none : Env V) = fun _ => none := rfl

/-- The nodes of the lists: as many as elements. -/
theorem nodes_list {st : LSt V} {its : Its} {e' : Env V} (A : Agree st its e') {xs : List Nat} (hxs : xs.Nodup)
    (hq : ∀ x, view e' x ≠ none ↔ x ∈ xs) :
    ∃ l : List Nat, l.Nodup ∧ (∀ a, st.mem a ≠ none ↔ a ∈ l) ∧
      l.length = (xs.map fun x => ((view e' x).getD []).length).sum := by
  have W := A.world
  let L : Nat → List Nat := fun x => ids ((e'.lists x).getD [])
  have hL : ∀ x a, a ∈ L x ↔ a ∈ (listI V).oids (e'.lists x) := fun x a => by
    cases hx : e'.lists x <;> simp [L, hx]
  refine ⟨xs.flatMap L, ?_, fun a => ?_, ?_⟩
  · rw [List.nodup_flatMap]
    refine ⟨fun x _ => ?_, ?_⟩
    · cases hx : e'.lists x with
      | none => simp [L, hx]
      | some s =>
        obtain ⟨o, ho, R⟩ := W_rep W hx
        simpa [L, hx] using R.nodup
    · refine hxs.imp fun {x y} hxy => ?_
      intro a h1 h2
      exact hxy (W.disj x y a ((hL x a).1 h1) ((hL y a).1 h2))
  · rw [List.mem_flatMap]
    constructor
    · intro ha
      obtain ⟨x, hx⟩ := W.own a ha
      refine ⟨x, (hq x).1 ?_, (hL x a).2 hx⟩
      cases hs : e'.lists x with
      | none => simp [hs] at hx
      | some s => simp [view, hs]
    · rintro ⟨x, _, hx⟩
      exact W.alloc ((hL x a).1 hx)
  · rw [List.length_flatMap]
    congr 1
    refine List.map_congr_left fun x _ => ?_
    cases hx : e'.lists x <;> simp [L, view, hx, ids]

/-! ### C163 -/

/-- **C163.** Every program over any number of queues with list as their container that respects the interface runs without undefined
behaviour, exception or divergence, and elements leave each queue in the order they entered it.  Afterwards there are exactly as many
nodes as elements in the queues (`xs` are the queues that exist): popping returns the storage at once, whatever has passed through
a queue, unlike the queue over deque (C130). -/
theorem C163_queue_list {ops : List (QOp V)} {q : QEnv V} {outs : List (QOut V)}
    (h : qspecRun (fun _ => none) ops = some (q, outs)) :
    ∃ F st, (∀ fuel, F ≤ fuel → runQOps fuel ops St.init = .ok outs st) ∧
      ∀ xs : List Nat, xs.Nodup → (∀ x, q x ≠ none ↔ x ∈ xs) →
        ∃ l : List Nat, l.Nodup ∧ (∀ a, st.mem a ≠ none ↔ a ∈ l) ∧
          l.length = (xs.map fun x => ((q x).getD []).length).sum := by
  obtain ⟨e', h1, rfl⟩ := run_view (e := Env.none) h
  obtain ⟨F, st, its, h2, A⟩ := run_refines agree_init h1
  refine ⟨F, st, fun fuel hf => ?_, fun xs hxs hq => ?_⟩
  · have := h2 fuel hf
    rw [runs_toOp, M.bind_apply] at this
    cases h3 : runQOps fuel ops St.init with
    | ok os s =>
      rw [h3] at this
      simp only [M.pure_apply, Res.ok.injEq, Prod.mk.injEq] at this
      obtain ⟨⟨_, h4⟩, rfl⟩ := this
      rw [List.map_injective_iff.2 (fun _ _ h => toOut_inj h) h4]
    | _ => rw [h3] at this; cases this
  exact nodes_list A hxs hq

/-- **C163 (empty queues).** `pop()` of an empty queue over list is undefined behaviour (as the standard says; over deque it does
nothing), and so are `front()` and `back()`: the sentinel has no element. -/
theorem C163_queue_empty {ops : List (QOp V)} {q : QEnv V} {outs : List (QOut V)}
    (h : qspecRun (fun _ => none) ops = some (q, outs)) {x : Nat} (hx : q x = some []) :
    ∃ F st, ∀ fuel, F ≤ fuel → runQOps fuel ops St.init = .ok outs st ∧ runQOp fuel (.pop x) st = .ub .oob ∧
      runQOp fuel (.front x) st = .ub .oob ∧ runQOp fuel (.back x) st = .ub .oob := by
  obtain ⟨e', h1, rfl⟩ := run_view (e := Env.none) h
  obtain ⟨F, st, its, h2, A⟩ := run_refines agree_init h1
  have hs : e'.lists x = some [] := by
    cases hl : e'.lists x <;> simp_all [view]
  obtain ⟨o, ho, R⟩ := W_rep A.world hs
  have hn : o.next = .head x := R.onext
  have hp : o.prev = .head x := R.oprev
  refine ⟨F, st, fun fuel hf => ⟨?_, ?_, ?_, ?_⟩⟩
  · have := h2 fuel hf
    rw [runs_toOp, M.bind_apply] at this
    cases h3 : runQOps fuel ops St.init with
    | ok os s =>
      rw [h3] at this
      simp only [M.pure_apply, Res.ok.injEq, Prod.mk.injEq] at this
      obtain ⟨⟨_, h4⟩, rfl⟩ := this
      rw [List.map_injective_iff.2 (fun _ _ h => toOut_inj h) h4]
    | _ => rw [h3] at this; cases this
  · simp [runQOp, qpop, popFront, begin_, getNext, getObj, setObj, erase, unhook, getPrev, setNext, setPrev, destroyVal, ho, hn, hp, upd, M.ub]
  · simp [runQOp, qfront, front, begin_, getNext, getObj, deref, getVal, ho, hn, M.ub]
  · simp [runQOp, qback, back, end_, dec, getPrev, getObj, deref, getVal, ho, hp, M.ub]

/-- A program with two queues, one of them a copy. -/
def demo : List (QOp Nat) :=
  [.new 0, .push 0 4, .push 0 5, .push 0 6, .front 0, .pop 0, .newCopy 1 0, .push 0 7, .front 0, .back 0, .pop 1, .size 0, .size 1,
    .front 1, .assign 1 0, .back 1, .pop 0, .pop 0, .pop 0, .empty 0]

example : (qspecRun (fun _ => none) demo).map Prod.snd = some [.unit, .unit, .unit, .unit, .val 4, .unit, .unit, .unit, .val 5, .val 7,
    .unit, .nat 3, .nat 1, .val 6, .unit, .val 7, .unit, .unit, .unit, .bool true] := rfl

end Cest.Lst.Queue
