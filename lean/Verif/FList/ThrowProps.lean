import Verif.FList.ThrowHist
/-
C138: programs with forward_lists whose exceptions are caught.
-/
namespace Cest.FL
open Cest
variable {V : Type}

/-- **C138 (forward_list).** Take any program of operations on any number of lists, with an exception thrown at any
allocation or element copy of any operation, and caught, as often as the program likes. If the operations
are used within their preconditions, nothing in the program has undefined behaviour, and every observation
is the one of the specification `specRunT`: a push or an insertion that throws changes nothing, nor do
`*it = v` and assignment (`operator=` copies first, then swaps); a copy construction that throws leaves no
list; all iterators stay valid.
At the end the allocated nodes are those of the lists and the lost ones: one for every exception thrown by
the copy of an element into a new node by an insertion, and all nodes allocated by copies of lists that
threw. -/
theorem C138_forward_list {ops : List (Option Nat × Op V)} {e : Env V} {outs : List (Option (Out V))} {n : Nat}
    (h : specRunT Env.none ops = some (e, outs, n)) :
    ∃ F st its, (∀ fuel, F ≤ fuel → runT fuel (fun _ => none) ops St.init = .ok (its, outs) st) ∧
      ∃ l : List Nat, l.Nodup ∧ l.length = n ∧
        ∀ a, (st.mem a ≠ none ↔ a ∈ l ∨ ∃ x s, e.lists x = some s ∧ a ∈ s.map Prod.fst) ∧
          ¬ (a ∈ l ∧ ∃ x s, e.lists x = some s ∧ a ∈ s.map Prod.fst) := by
  obtain ⟨F, st, its, h1, g, s0, rfl, A, hap, l, l1, l2, l3⟩ :=
    runT_refines ⟨noGarbage, St.init, rfl, agree_init, lost_none _⟩ h
  have W := A.world
  refine ⟨F, _, its, h1, l, l1, by simpa using l2, fun a => ?_⟩
  have own : s0.mem a ≠ none ↔ ∃ x s, e.lists x = some s ∧ a ∈ s.map Prod.fst := by
    constructor
    · intro ha
      obtain ⟨x, hx⟩ := W.own a ha
      cases hs : e.lists x with
      | none => simp [hs] at hx
      | some s => exact ⟨x, s, hs, by rw [hs] at hx; exact hx⟩
    · rintro ⟨x, s, hs, ha⟩
      exact W.alloc (x := x) (by rw [hs]; exact ha)
  constructor
  · rw [← own, ← l3]
    simp only [St.ext]
    cases g a <;> simp
  · rintro ⟨h2, h3⟩
    exact own.2 h3 (hap a ((l3 a).2 h2)).1

/-- After such a program, once all lists are destroyed only the lost nodes remain. -/
theorem C138_forward_list_leaks {ops : List (Option Nat × Op V)} {e : Env V} {outs : List (Option (Out V))} {n : Nat}
    (h : specRunT Env.none ops = some (e, outs, n)) (hd : ∀ x, e.lists x = none) :
    ∃ F st its, (∀ fuel, F ≤ fuel → runT fuel (fun _ => none) ops St.init = .ok (its, outs) st) ∧
      ∃ l : List Nat, l.Nodup ∧ l.length = n ∧ ∀ a, st.mem a ≠ none ↔ a ∈ l := by
  obtain ⟨F, st, its, h1, l, l1, l2, l3⟩ := C138_forward_list h
  refine ⟨F, st, its, h1, l, l1, l2, fun a => ?_⟩
  rw [(l3 a).1]
  simp [hd]

/-- A list of two elements; a push at whose copy an exception is thrown; an insertion at an old iterator
whose allocation fails, and again, successfully; an assignment that fails at the allocation of its third
node and loses two; everything destroyed: three nodes are lost. -/
example : ∃ F st its, (∀ fuel, F ≤ fuel → runT fuel (fun _ => none)
    [(none, .new 0), (none, .pushFront 0 6), (none, .pushFront 0 5), (none, .begin_ 0 0),
     (some 1, .pushFront 0 9), (some 0, .insertAfter 0 0 8 1), (some 2, .insertAfter 0 0 8 1), (some 7, .toList 0),
     (none, .new 1), (none, .pushFront 1 1), (some 4, .assign 1 0 2), (none, .toList 1),
     (some 0, .set 0 1 7), (none, .deref 0 1), (none, .destroy 0), (some 0, .destroy 1)] (St.init : FSt Nat) =
      .ok (its, [some .unit, some .unit, some .unit, some .unit, none, none, some .unit,
        some (.vals [5, 8, 6]), some .unit, some .unit, none, some (.vals [1]), none, some (.val 8),
        some .unit, some .unit]) st) ∧
    ∃ l : List Nat, l.Nodup ∧ l.length = 3 ∧ ∀ a, st.mem a ≠ none ↔ a ∈ l := by
  let ops : List (Option Nat × Op Nat) :=
    [(none, .new 0), (none, .pushFront 0 6), (none, .pushFront 0 5), (none, .begin_ 0 0),
     (some 1, .pushFront 0 9), (some 0, .insertAfter 0 0 8 1), (some 2, .insertAfter 0 0 8 1), (some 7, .toList 0),
     (none, .new 1), (none, .pushFront 1 1), (some 4, .assign 1 0 2), (none, .toList 1),
     (some 0, .set 0 1 7), (none, .deref 0 1), (none, .destroy 0), (some 0, .destroy 1)]
  have h1 : (specRunT Env.none ops).map (fun r => r.2) = some ([some .unit, some .unit, some .unit, some .unit,
      none, none, some .unit, some (.vals [5, 8, 6]), some .unit, some .unit, none,
      some (.vals [1]), none, some (.val 8), some .unit, some .unit], 3) := rfl
  have h2 : ∀ x, (specRunT Env.none ops).map (fun r => r.1.lists x) =
      some none := fun x => match x with
    | 0 => rfl
    | 1 => rfl
    | _+2 => rfl
  obtain ⟨⟨e, r⟩, hr, rfl⟩ := Option.map_eq_some_iff.1 h1
  refine C138_forward_list_leaks hr fun x => ?_
  have := h2 x
  rw [hr] at this
  exact Option.some.inj this

end Cest.FL
