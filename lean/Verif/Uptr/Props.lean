import Verif.Uptr.Proofs
/-
Properties of unique_ptr (C52, C53) and function (C57).
-/
namespace Cest.Uptr
open Cest
variable {V A R : Type}

/-- What a machine state must look like for an environment: variable by variable. -/
def Shows (st : USt V) (e : Env V) : Prop :=
  ∀ x, match e x with
    | none => st.objs x = none
    | some (.up none) => st.objs x = some (.ptr .up none)
    | some (.up (some v)) => ∃ a, st.objs x = some (.ptr .up (some a)) ∧ st.mem a = some v
    | some (.raw none) => st.objs x = some (.ptr .raw none)
    | some (.raw (some v)) => ∃ a, st.objs x = some (.ptr .raw (some a)) ∧ st.mem a = some v
    | some (.callable v) => st.objs x = some (.val v)

/-- Every object that has not been deleted is held by exactly one variable. -/
def SoleOwner (st : USt V) : Prop :=
  ∀ a, st.mem a ≠ none → ∃ x k, st.objs x = some (.ptr k (some a)) ∧
    ∀ y k', st.objs y = some (.ptr k' (some a)) → y = x

theorem Reps.shows {st : USt V} {e : Env V} (h : Reps st e) : Shows st e := by
  obtain ⟨σ, hW, rfl⟩ := h
  intro x
  simp only [envOf]
  cases hs : σ x with
  | none => exact hW.dom x hs
  | some s =>
    match s with
    | .ptr .up none => exact W_obj hW hs
    | .ptr .up (some (a, v)) => exact ⟨a, W_obj hW hs, W_mem hW hs⟩
    | .ptr .raw none => exact W_obj hW hs
    | .ptr .raw (some (a, v)) => exact ⟨a, W_obj hW hs, W_mem hW hs⟩
    | .val v => exact W_val hW hs

theorem Reps.sole {st : USt V} {e : Env V} (h : Reps st e) : SoleOwner st := by
  intro a ha
  cases hm : st.mem a with
  | none => exact absurd hm ha
  | some v =>
    obtain ⟨x, k, h1, h2, _⟩ := h.owner hm
    exact ⟨x, k, h1, h2⟩

/-! ## C52 -/

/-- C52 Every history of unique_ptr operations that respects the preconditions runs without undefined
behaviour (so nothing is deleted twice or used after deletion), returns what the ownership specification
says, and ends in a state in which every undeleted object has exactly one holder. -/
theorem C52_uptr_history (ops : List (Op V)) (e : Env V) (os : List (Out V R))
    (h : specRun Env.none ops = some (e, os)) :
    ∃ st, runOps ops St.init = .ok os st ∧ Shows st e ∧ SoleOwner st := by
  obtain ⟨st, h1, h2⟩ := run_refines Reps.init h
  exact ⟨st, h1, h2.shows, h2.sole⟩

/-- C52 If at the end no variable owns an object, everything ever created has been deleted. -/
theorem C52_uptr_no_leak (ops : List (Op V)) (e : Env V) (os : List (Out V R))
    (h : specRun Env.none ops = some (e, os))
    (he : ∀ x v, e x ≠ some (.up (some v)) ∧ e x ≠ some (.raw (some v))) :
    ∃ st, runOps ops St.init = .ok os st ∧ ∀ a, st.mem a = none := by
  obtain ⟨st, h1, h2⟩ := run_refines Reps.init h
  refine ⟨st, h1, fun a => ?_⟩
  cases hm : st.mem a with
  | none => rfl
  | some v =>
    obtain ⟨x, k, _, _, h3⟩ := h2.owner hm
    rcases h3 with h3 | h3
    · exact absurd h3 (he x v).1
    · exact absurd h3 (he x v).2

/-- The history used as a witness below. -/
def demo : List (Op Nat) :=
  [.make 0 5, .newMove 1 0, .make 2 6, .moveAssign 1 2, .moveAssign 1 1, .get 1, .toBool 0, .eq 0 0,
   .resetNew 2 7, .release 9 1, .reset 1, .adopt 3 9, .resetNew 3 8, .ne 3 2, .release 8 3, .resetRaw 2 8,
   .set 2 1, .get 2, .release 7 2, .deleteRaw 7, .dropRaw 7, .dropRaw 8, .dropRaw 9,
   .destroy 0, .destroy 1, .destroy 2, .destroy 3]

example : ∃ e, specRun (R := Unit) Env.none demo = some (e,
    [.unit, .unit, .unit, .unit, .unit, .val 6, .bool false, .bool true, .unit, .unit, .unit, .unit, .unit,
     .bool true, .unit, .unit, .unit, .val 1, .unit, .unit, .unit, .unit, .unit, .unit, .unit, .unit,
     .unit]) ∧ ∀ x v, e x ≠ some (.up (some v)) ∧ e x ≠ some (.raw (some v)) := by
  refine ⟨_, rfl, ?_⟩
  intro x v
  simp only [Env.set, Env.none]
  constructor <;> simp <;> intros <;> simp [*]

/-- C52 Dereferencing a null unique_ptr is undefined behaviour in every state: the precondition of `*`
in the specification cannot be dropped. -/
theorem C52_uptr_null_deref_ub (st : USt V) (x : Nat) (hx : st.objs x = some (.ptr .up none)) (v : V) :
    star x st = .ub .null ∧ starSet x v st = .ub .null := by
  constructor
  · simp only [star, M.bind_apply]
    rw [getPtr_ok hx]
    rfl
  · simp only [starSet, M.bind_apply]
    rw [getPtr_ok hx]
    rfl

example : ∃ st : USt Nat, st.objs 0 = some (.ptr .up none) := by
  obtain ⟨st, _, h, _⟩ := C52_uptr_history (R := Unit) (V := Nat) [.new 0] _ _ rfl
  exact ⟨st, h 0⟩

/-- C52 The destructor deletes the pointee and nothing else, and a null unique_ptr deletes nothing. -/
theorem C52_uptr_dtor (st : USt V) (x : Nat) (p : Option Nat) (hx : st.objs x = some (.ptr .up p))
    (hp : ∀ a, p = some a → st.mem a ≠ none) :
    dtor x st = .ok () { st with
      objs := fun z => if z = x then none else st.objs z,
      mem := fun a => if p = some a then none else st.mem a } := by
  simp only [dtor, M.bind_apply]
  rw [getPtr_ok hx]
  match p with
  | none =>
    show delObj x st = _
    rw [delObj_some hx]
    simp
    rfl
  | some a =>
    show (freeC a >>= fun _ => delObj x) st = _
    cases hm : st.mem a with
    | none => exact absurd hm (hp a rfl)
    | some v =>
      simp only [M.bind_apply]
      rw [freeC_some hm]
      simp only []
      rw [delObj_some (by exact hx)]
      congr 2
      funext b
      simp only [upd_apply]
      by_cases h : b = a
      · subst h; simp
      · have : ¬ a = b := fun h' => h h'.symm
        simp [h, this]

/-! ## C53 -/

/-- C53 Move construction: the new pointer holds what the source held, the source is null, no object is
created, deleted or changed, no other variable changes. -/
theorem C53_uptr_move_ctor (st : USt V) (x y : Nat) (p : Option Nat) (hx : st.objs x = none)
    (hy : st.objs y = some (.ptr .up p)) :
    ctorMove x y st = .ok () { st with
      objs := (fun z => if z = x then some (.ptr .up p) else if z = y then some (.ptr .up none) else st.objs z) } := by
  have hxy : x ≠ y := by intro e; subst e; rw [hx] at hy; cases hy
  simp only [ctorMove, release, ctorPtr, M.bind_apply]
  rw [getPtr_ok hy]
  simp only []
  rw [setPtr_ok hy]
  simp only [M.pure_apply]
  rw [newObj_none (by simp [hxy, hx])]
  rfl

/-- C53 Move assignment exchanges the pointees, for different variables and for self-move alike. -/
theorem C53_uptr_move_assign (st : USt V) (x y : Nat) (p q : Option Nat)
    (hx : st.objs x = some (.ptr .up p)) (hy : st.objs y = some (.ptr .up q)) :
    moveAssign x y st = .ok () { st with
      objs := (fun z => if z = x then some (.ptr .up q) else if z = y then some (.ptr .up p) else st.objs z) } := by
  simp only [moveAssign, M.bind_apply]
  rw [getPtr_ok hy]
  simp only []
  rw [getPtr_ok hx]
  simp only []
  rw [setPtr_ok hy]
  simp only []
  have h : ∃ p', (upd st.objs y (some (.ptr .up p))) x = some (.ptr .up p') := by
    by_cases e : x = y
    · exact ⟨p, by simp [e]⟩
    · exact ⟨p, by simp [e, hx]⟩
  obtain ⟨p', h⟩ := h
  rw [setPtr_ok (p := p') (by exact h)]
  rfl

/-- C53 Self-move leaves everything as it was. -/
theorem C53_uptr_self_move (st : USt V) (x : Nat) (p : Option Nat)
    (hx : st.objs x = some (.ptr .up p)) : moveAssign x x st = .ok () st := by
  rw [C53_uptr_move_assign st x x p p hx hx]
  congr
  funext z
  by_cases h : z = x
  · subst h; simp [hx]
  · simp [h]

/-- C53 `release` returns the pointee, leaves null and deletes nothing. -/
theorem C53_uptr_release (st : USt V) (x : Nat) (p : Option Nat)
    (hx : st.objs x = some (.ptr .up p)) :
    release x st = .ok p { st with
      objs := (fun z => if z = x then some (.ptr .up none) else st.objs z) } := by
  simp only [release, M.bind_apply]
  rw [getPtr_ok hx]
  simp only []
  rw [setPtr_ok hx]
  rfl

/-- C53 `reset(n)` deletes the old pointee (if any), nothing else, and stores `n`. -/
theorem C53_uptr_reset (st : USt V) (x : Nat) (p n : Option Nat)
    (hx : st.objs x = some (.ptr .up p)) (hp : ∀ a, p = some a → st.mem a ≠ none) :
    reset x n st = .ok () { st with
      objs := fun z => if z = x then some (.ptr .up n) else st.objs z,
      mem := fun a => if p = some a then none else st.mem a } := by
  simp only [reset, M.bind_apply]
  rw [getPtr_ok hx]
  simp only []
  rw [setPtr_ok hx]
  simp only []
  match p with
  | none => simp; rfl
  | some a =>
    cases hm : st.mem a with
    | none => exact absurd hm (hp a rfl)
    | some v =>
      show freeC a _ = _
      rw [freeC_some (by exact hm)]
      congr 2
      funext b
      simp only [upd_apply]
      by_cases h : b = a
      · subst h; simp
      · have : ¬ a = b := fun h' => h h'.symm
        simp [h, this]

/-- C53 `operator bool` is true iff `get()` is not null; neither changes anything. -/
theorem C53_uptr_bool (st : USt V) (x : Nat) (p : Option Nat)
    (hx : st.objs x = some (.ptr .up p)) :
    get x st = .ok p st ∧ ∃ b, toBool x st = .ok b st ∧ (b = true ↔ p ≠ none) := by
  refine ⟨getPtr_ok hx, p.isSome, ?_, ?_⟩
  · simp only [toBool, M.bind_apply]
    rw [getPtr_ok hx]
    rfl
  · cases p <;> simp

/-- The hypotheses of the C53 theorems are met after ordinary histories. -/
example : ∃ (st : USt Nat) (a b : Nat), st.objs 0 = some (.ptr .up (some a)) ∧
    st.objs 1 = some (.ptr .up (some b)) ∧ st.objs 2 = none ∧ st.mem a ≠ none ∧ st.mem b ≠ none := by
  obtain ⟨st, _, h, _⟩ := C52_uptr_history (R := Unit) (V := Nat) [.make 0 5, .make 1 6] _ _ rfl
  obtain ⟨a, h0, m0⟩ := h 0
  obtain ⟨b, h1, m1⟩ := h 1
  exact ⟨st, a, b, h0, h1, h 2, by simp [m0], by simp [m1]⟩

/-! ## C57 -/

/-- C57 Every history of creating, calling, moving and destroying functions and callables agrees with the
specification in which a function owns a private copy of its callable. -/
theorem C57_function_history (call : V → A → R × V) (ops : List (FOp V A)) (e : Env V)
    (os : List (Out V R)) (h : fspecRun call Env.none ops = some (e, os)) :
    ∃ st, runFOps call ops St.init = .ok os st ∧ Shows st e ∧ SoleOwner st := by
  obtain ⟨st, h1, h2⟩ := frun_refines call Reps.init h
  exact ⟨st, h1, h2.shows, h2.sole⟩

/-- C57 Once all functions are destroyed (or moved from), every stored callable has been destroyed. -/
theorem C57_function_no_leak (call : V → A → R × V) (ops : List (FOp V A)) (e : Env V)
    (os : List (Out V R)) (h : fspecRun call Env.none ops = some (e, os))
    (he : ∀ x v, e x ≠ some (.up (some v)) ∧ e x ≠ some (.raw (some v))) :
    ∃ st, runFOps call ops St.init = .ok os st ∧ ∀ a, st.mem a = none := by
  obtain ⟨st, h1, h2⟩ := frun_refines call Reps.init h
  refine ⟨st, h1, fun a => ?_⟩
  cases hm : st.mem a with
  | none => rfl
  | some v =>
    obtain ⟨x, k, _, _, h3⟩ := h2.owner hm
    rcases h3 with h3 | h3
    · exact absurd h3 (he x v).1
    · exact absurd h3 (he x v).2

/-- Results of calling a callable with a list of arguments one after another. -/
def results (call : V → A → R × V) (v : V) : List A → List R
  | [] => []
  | a :: as => (call v a).1 :: results call (call v a).2 as

theorem fspecRun_calls (call : V → A → R × V) (x : Nat) (as : List A) (v : V) (e : Env V)
    (hx : e x = some (.up (some v))) :
    ∃ e', fspecRun call e (as.map (.call x)) = some (e', (results call v as).map .res) ∧
      ∀ z, z ≠ x → e' z = e z := by
  induction as generalizing v e with
  | nil => exact ⟨e, rfl, fun _ _ => rfl⟩
  | cons a as ih =>
    obtain ⟨e', h1, h2⟩ := ih (call v a).2 (e.set x (some (.up (some (call v a).2))))
      (by simp [Env.set])
    refine ⟨e', ?_, fun z hz => ?_⟩
    · simp [fspecRun, fspecStep, hx, h1, results]
    · rw [h2 z hz]; simp [Env.set, hz]

/-- C57 A function made from a callable `c` and called with any sequence of arguments returns what a copy
of `c` called with them one after another returns (its state persists), and `c` itself is unaffected. -/
theorem C57_function_calls (call : V → A → R × V) (v : V) (as : List A) :
    ∃ st, runFOps call (.newCallable 0 v :: .new 1 0 :: as.map (.call 1)) St.init =
        .ok (.unit :: .unit :: (results call v as).map .res) st ∧
      st.objs 0 = some (.val v) := by
  obtain ⟨e', h1, h2⟩ := fspecRun_calls call 1 as v
    ((Env.none.set 0 (some (.callable v))).set 1 (some (.up (some v)))) (by simp [Env.set])
  obtain ⟨st, r, s, _⟩ := C57_function_history call (.newCallable 0 v :: .new 1 0 :: as.map (.call 1))
    e' (.unit :: .unit :: (results call v as).map .res)
    (by
      have e1 : fspecStep (R := R) call Env.none (.newCallable 0 v) =
          some (Env.none.set 0 (some (.callable v)), .unit) := rfl
      have e2 : fspecStep (R := R) call (Env.none.set 0 (some (.callable v))) (.new 1 0) =
          some ((Env.none.set 0 (some (.callable v))).set 1 (some (.up (some v))), .unit) := rfl
      simp only [fspecRun, e1, e2, h1])
  refine ⟨st, r, ?_⟩
  have := s 0
  rw [h2 0 (by decide)] at this
  simpa [Env.set] using this

/-- C57 Calling a moved-from function is undefined behaviour (it dereferences null). -/
theorem C57_function_moved_from_ub (call : V → A → R × V) (st : USt V) (x y : Nat) (p : Option Nat)
    (hx : st.objs x = none) (hy : st.objs y = some (.ptr .up p)) (a : A) :
    (funMove x y >>= fun _ => funCall call y a) st = .ub .null := by
  have hxy : y ≠ x := by intro e; subst e; rw [hx] at hy; cases hy
  simp only [M.bind_apply, funMove]
  rw [C53_uptr_move_ctor st x y p hx hy]
  simp only [funCall, M.bind_apply]
  rw [getPtr_ok (k := .up) (p := none) (by simp [hxy])]
  rfl

/-- A counter: returns its state plus the argument and increments its state. -/
def counter : Nat → Nat → Nat × Nat := fun s a => (s + a, s + 1)

example : results counter 10 [1, 1, 1] = [11, 12, 13] := rfl
example : ∃ e, fspecRun counter Env.none
    [.newCallable 0 10, .new 1 0, .call 1 1, .call 1 1, .callCallable 0 5, .newMove 2 1, .call 2 1, .new 3 0,
     .moveAssign 3 2, .call 3 0, .call 2 0, .destroy 1, .destroy 2, .destroy 3, .dropCallable 0]
    = some (e, [.unit, .unit, .res 11, .res 12, .res 15, .unit, .res 13, .unit, .unit, .res 13, .res 11,
        .unit, .unit, .unit, .unit]) ∧ ∀ x, e x = none := by
  refine ⟨_, rfl, ?_⟩
  intro x
  simp only [Env.set, Env.none]
  simp
  intros
  simp [*]

end Cest.Uptr
