import Verif.Uptr.Props
/-
Initialising a `cest::function` from another one (C115).

`function` has no copy constructor of its own that could be used: the implicit one is deleted because of the
member `f_` (functional.hpp:53, memory.hpp:28).  For a non-const lvalue argument overload resolution takes
the constructor template `function(F&& f)` (functional.hpp:60-63, 76-79) with `F = function&`, for an rvalue
the implicit move constructor.
-/
namespace Cest.Uptr
open Cest

/-- What an `impl_f` on the heap holds in its member `f_` (functional.hpp:31, 46): a callable of the client, or
a `function`, i.e. the pointer in it. -/
inductive Target (V : Type) where
  | user (v : V)
  | fn (p : Option Nat)

variable {V A R : Type}

/-- functional.hpp:60-63, 76-79 `function(F&& f)` with `F = function&`: `make_unique<impl_f<function, …>>`
obtains storage (memory.hpp:135-139) and runs `impl_f(F&& f) : f_(f)` (functional.hpp:25, 40).  There `f` is an
lvalue of type `function`, so `f_` is initialised by this same constructor.  If that throws, the new-expression
releases the storage.  The result is the new function's `f_`; the recursion never looks at its argument.  `fuel`
bounds the depth of the recursion. -/
def copyTarget : Nat → UM (Target V) (Option Nat)
  | 0 => M.timeout
  | fuel+1 => do
    let a ← allocC (.fn none)
    let p ← M.onThrow (copyTarget fuel) (freeC a)
    setC a (.fn p)
    return some a

/-- `function x(y);` for a non-const lvalue `y`. -/
def funCopy (fuel x y : Nat) : UM (Target V) Unit := do
  let _ ← getPtr .up y
  let p ← copyTarget fuel
  ctorPtr x p

/-- Calling a function whose target is a callable of the client (functional.hpp:56-58, 27-29). -/
def callUser (call : V → A → R × V) (x : Nat) (a : A) : UM (Target V) R := do
  let p ← deref (← getPtr .up x)
  match ← getC p with
  | .user v =>
    setC p (.user (call v a).2)
    return (call v a).1
  | .fn _ => M.timeout      -- never constructed, see below

/-- While storage can be allocated the recursion does not end. -/
theorem copyTarget_timeout (fuel : Nat) (st : USt (Target V)) (ht : st.thr = none) :
    copyTarget fuel st = .timeout := by
  induction fuel generalizing st with
  | zero => rfl
  | succ fuel ih =>
    simp only [copyTarget, M.bind_apply]
    rw [allocC_none ht]
    simp only [M.onThrow]
    rw [ih _ (by exact ht)]

/-- When the allocation after `n` successful ones fails, all storage obtained so far is released. -/
theorem copyTarget_throw (n : Nat) : ∀ (fuel : Nat) (st : USt (Target V)), n < fuel → st.thr = some n →
    (∀ a, st.next ≤ a → st.mem a = none) →
    copyTarget fuel st = .throw .badAlloc { st with next := st.next + n, thr := none } := by
  induction n with
  | zero =>
    intro fuel st hf ht _
    cases fuel with
    | zero => omega
    | succ fuel => simp [copyTarget, allocC, tick, ht]
  | succ n ih =>
    intro fuel st hf ht hfr
    cases fuel with
    | zero => omega
    | succ fuel =>
      have ha : allocC (Target.fn none) st = .ok st.next { st with
          mem := upd st.mem st.next (some (.fn none)), next := st.next + 1, thr := some n } := by
        simp [allocC, tick, ht]
      simp only [copyTarget, M.bind_apply]
      rw [ha]
      simp only [M.onThrow]
      rw [ih fuel _ (by omega) rfl (by
        intro a h
        have h' : st.next + 1 ≤ a := h
        have : a ≠ st.next := by omega
        simp [this, hfr a (by omega)])]
      simp only []
      rw [freeC_some (c := .fn none) (by simp)]
      simp only [upd_upd]
      have : upd st.mem st.next none = st.mem := by
        have := upd_self st.mem st.next
        rwa [hfr st.next (Nat.le_refl _)] at this
      rw [this]
      have : st.next + 1 + n = st.next + (n + 1) := by omega
      rw [this]

/-- The claim: a copy of a function calls a copy of its target. -/
def C115_full_statement : Prop :=
  ∀ (call : Nat → Nat → Nat × Nat) (st : USt (Target Nat)) (x y a v : Nat), st.objs x = none → x ≠ y →
    st.thr = none → (∀ b, st.next ≤ b → st.mem b = none) →
    st.objs y = some (.ptr .up (some a)) → st.mem a = some (.user v) →
    ∃ fuel st', funCopy fuel x y st = .ok () st' ∧
      ∀ w, ∃ st'', callUser call x w st' = .ok (call v w).1 st''

/-- **C115 (violation).** Initialising a function from an lvalue function never succeeds: as long as memory can
be allocated the constructor calls itself without end (no recursion depth suffices); when an allocation fails
it throws `bad_alloc`, everything allocated having been released again. -/
theorem C115_function_copy_diverges (st : USt (Target V)) (x y : Nat) (p : Option Nat)
    (hy : st.objs y = some (.ptr .up p)) :
    (st.thr = none → ∀ fuel, funCopy fuel x y st = .timeout) ∧
    (∀ n, st.thr = some n → (∀ a, st.next ≤ a → st.mem a = none) → ∀ fuel, n < fuel →
      funCopy fuel x y st = .throw .badAlloc { st with next := st.next + n, thr := none }) := by
  constructor
  · intro ht fuel
    simp only [funCopy, M.bind_apply]
    rw [getPtr_ok hy]
    simp only []
    rw [copyTarget_timeout fuel st ht]
  · intro n ht hf fuel hn
    simp only [funCopy, M.bind_apply]
    rw [getPtr_ok hy]
    simp only []
    rw [copyTarget_throw n fuel st hn ht hf]

/-- A state with one function whose target is a callable with state 7. -/
def oneFun (k : Option Nat) : USt (Target Nat) :=
  ⟨fun x => if x = 0 then some (.ptr .up (some 0)) else none,
   fun a => if a = 0 then some (.user 7) else none, 1, k⟩

example : (oneFun none).objs 0 = some (.ptr .up (some 0)) ∧ (oneFun none).mem 0 = some (.user 7) ∧
    (oneFun (some 3)).thr = some 3 ∧ ∀ a, (oneFun (some 3)).next ≤ a → (oneFun (some 3)).mem a = none := by
  refine ⟨rfl, rfl, rfl, ?_⟩
  intro a h
  have h' : 1 ≤ a := h
  have : a ≠ 0 := by omega
  simp [oneFun, this]

theorem C115_function_copy_refuted : ¬ C115_full_statement := by
  intro h
  obtain ⟨fuel, st', h1, _⟩ := h (fun s a => (s + a, s)) (oneFun none) 1 0 0 7 rfl (by decide) rfl (by
    intro a h
    have h' : 1 ≤ a := h
    have : a ≠ 0 := by omega
    simp [oneFun, this]) rfl rfl
  rw [(C115_function_copy_diverges (oneFun none) 1 0 (some 0) rfl).1 rfl fuel] at h1
  cases h1

/-- **C115 (part that holds).** Initialising from an rvalue function (the implicit move constructor) gives a
function that calls the very target of the old one; nothing is allocated and no other variable changes.  What
is missing: initialisation from an lvalue. -/
theorem C115_function_move_partial (call : V → A → R × V) (st : USt (Target V)) (x y a : Nat) (v : V)
    (hx : st.objs x = none) (hy : st.objs y = some (.ptr .up (some a))) (ha : st.mem a = some (.user v)) :
    ∃ st', funMove x y st = .ok () st' ∧ st'.mem = st.mem ∧ (∀ z, z ≠ x → z ≠ y → st'.objs z = st.objs z) ∧
      ∀ w, ∃ st'', callUser call x w st' = .ok (call v w).1 st'' ∧ st''.mem a = some (.user (call v w).2) := by
  refine ⟨_, C53_uptr_move_ctor st x y (some a) hx hy, rfl, ?_, ?_⟩
  · intro z h1 h2
    simp [h1, h2]
  · intro w
    have e : callUser call x w { st with objs := (fun z => if z = x then some (.ptr .up (some a))
        else if z = y then some (.ptr .up none) else st.objs z) } = .ok (call v w).1 { st with
          objs := (fun z => if z = x then some (.ptr .up (some a)) else if z = y then some (.ptr .up none)
            else st.objs z),
          mem := upd st.mem a (some (.user (call v w).2)) } := by
      simp only [callUser, M.bind_apply]
      rw [getPtr_ok (k := .up) (p := some a) (by simp)]
      simp only [deref_some]
      rw [getC_some (by exact ha)]
      simp only [M.bind_apply]
      rw [setC_some (by exact ha)]
      rfl
    exact ⟨_, e, by simp⟩

example : (oneFun none).objs 1 = none ∧ (oneFun none).objs 0 = some (.ptr .up (some 0)) ∧
    (oneFun none).mem 0 = some (.user 7) := ⟨rfl, rfl, rfl⟩

end Cest.Uptr
