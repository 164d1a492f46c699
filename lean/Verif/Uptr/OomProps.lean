import Verif.Uptr.Oom
/-
Properties of unique_ptr and function when storage runs out (C143).
-/
namespace Cest.Uptr
open Cest
variable {V A R : Type}

theorem Reps.empty {st : USt V} {e : Env V} (h : Reps st e)
    (he : ∀ x v, e x ≠ some (.up (some v)) ∧ e x ≠ some (.raw (some v))) (a : Nat) : st.mem a = none := by
  cases hm : st.mem a with
  | none => rfl
  | some v =>
    obtain ⟨x, k, _, _, h3⟩ := h.owner hm
    rcases h3 with h3 | h3
    · exact absurd h3 (he x v).1
    · exact absurd h3 (he x v).2

/-- C143 Programs with unique_ptrs whose exceptions are caught: no undefined behaviour, observations as
specified (an operation that throws has no effect), and every undeleted object has exactly one holder: nothing
is lost. -/
theorem C143_uptr_programs_catch (ops : List (Option Nat × Op V)) (e : Env V) (os : List (Option (Out V R)))
    (h : specRunT Env.none ops = some (e, os)) :
    ∃ st, runT ops St.init = .ok os st ∧ Shows st e ∧ SoleOwner st := by
  obtain ⟨st, h1, h2⟩ := runT_refines Reps.init h
  exact ⟨st, h1, h2.shows, h2.sole⟩

/-- C143 If at the end no variable owns an object, memory is empty, whichever allocations failed. -/
theorem C143_uptr_no_leak (ops : List (Option Nat × Op V)) (e : Env V) (os : List (Option (Out V R)))
    (h : specRunT Env.none ops = some (e, os))
    (he : ∀ x v, e x ≠ some (.up (some v)) ∧ e x ≠ some (.raw (some v))) :
    ∃ st, runT ops St.init = .ok os st ∧ ∀ a, st.mem a = none := by
  obtain ⟨st, h1, h2⟩ := runT_refines Reps.init h
  exact ⟨st, h1, h2.empty he⟩

/-- C143 The same for programs with functions and callables. -/
theorem C143_function_programs_catch (call : V → A → R × V) (ops : List (Option Nat × FOp V A)) (e : Env V)
    (os : List (Option (Out V R))) (h : fspecRunT call Env.none ops = some (e, os)) :
    ∃ st, frunT call ops St.init = .ok os st ∧ Shows st e ∧ SoleOwner st := by
  obtain ⟨st, h1, h2⟩ := frunT_refines call Reps.init h
  exact ⟨st, h1, h2.shows, h2.sole⟩

/-- C143 Once all functions are destroyed or moved from, memory is empty, whichever allocations failed. -/
theorem C143_function_no_leak (call : V → A → R × V) (ops : List (Option Nat × FOp V A)) (e : Env V)
    (os : List (Option (Out V R))) (h : fspecRunT call Env.none ops = some (e, os))
    (he : ∀ x v, e x ≠ some (.up (some v)) ∧ e x ≠ some (.raw (some v))) :
    ∃ st, frunT call ops St.init = .ok os st ∧ ∀ a, st.mem a = none := by
  obtain ⟨st, h1, h2⟩ := frunT_refines call Reps.init h
  exact ⟨st, h1, h2.empty he⟩

/-- The failing operations leave variable 0 with the object 5; later attempts succeed. -/
example : ∃ e, specRunT (R := Unit) Env.none [(none, .make 0 5), (some 0, .make 1 6), (some 0, .resetNew 0 7),
    (some 0, .get 0), (some 1, .make 1 6), (some 0, .moveAssign 0 1), (some 3, .resetNew 0 8), (none, .get 0),
    (none, .get 1), (some 0, .destroy 0), (none, .destroy 1)] = some (e,
    [some .unit, none, none, some (.val 5), some .unit, some .unit, some .unit, some (.val 8), some (.val 5),
     some .unit, some .unit]) ∧ ∀ x v, e x ≠ some (.up (some v)) ∧ e x ≠ some (.raw (some v)) := by
  refine ⟨_, rfl, ?_⟩
  intro x v
  simp only [Env.set, Env.none]
  constructor <;> simp <;> intros <;> simp [*]

example : ∃ e, fspecRunT counter Env.none
    [(none, .newCallable 0 10), (some 0, .new 1 0), (some 1, .new 1 0), (some 0, .call 1 1), (none, .call 1 1),
     (some 0, .new 2 0), (none, .newMove 2 1), (none, .call 2 0), (none, .destroy 1), (none, .destroy 2),
     (none, .dropCallable 0)]
    = some (e, [some .unit, none, some .unit, some (.res 11), some (.res 12), none, some .unit, some (.res 12),
        some .unit, some .unit, some .unit]) ∧ ∀ x, e x = none := by
  refine ⟨_, rfl, ?_⟩
  intro x
  simp only [Env.set, Env.none]
  simp
  intros
  simp [*]

end Cest.Uptr
