import Verif.Vector.HistRefine
/-
C141: programs with vectors whose exceptions are caught; capacities.
-/
namespace Cest.Vec
open Cest
variable {V : Type} [Inhabited V] [BEq V]

/-- **C141 (vector).** Take any program of operations on any number of vectors, with an exception thrown at any
allocation or element copy of any operation, and caught, as often as the program likes. If the operations
are used within their preconditions and no vector is broken by an exception (`Upset.broken`), nothing in the
program has undefined behaviour, and every observation is the one of the specification `specRunT`: an
operation that throws while it moves the elements to larger storage changes nothing; an assignment or an
erasure that throws leaves a vector of the old size with a part of the new elements; a constructor that
throws leaves no vector.
At the end every vector has the size and the capacity of the specification. The allocated blocks are
those of the vectors and the lost ones, and no block is both. -/
theorem C141_vector {ops : List (Option Nat × Op V)} {e : Env V} {c : Caps} {outs : List (Option (Out V))} {n : Nat}
    (h : specRunT Env.none (fun _ => 0) ops = some (e, c, outs, n)) :
    ∃ st, runT ops St.init = .ok outs st ∧
      (∀ x, e x = none → st.objs x = none) ∧
      (∀ x xs, e x = some xs → ∃ o, st.objs x = some o ∧ o.size = xs.length ∧ o.cap = c x ∧ xs.length ≤ c x) ∧
      ∃ l : List Nat, l.Nodup ∧ l.length = n ∧
        ∀ a, (st.mem a ≠ none ↔ a ∈ l ∨ ∃ x o, st.objs x = some o ∧ o.p = some a) ∧
          ¬ (a ∈ l ∧ ∃ x o, st.objs x = some o ∧ o.p = some a) := by
  obtain ⟨st, h1, σ, ⟨g, s0, rfl, W, hap, l, l1, l2, l3⟩, he, hc⟩ :=
    runT_refines (m := 0) ⟨fun _ => none, left_world (World.init (I := vecI)), rfl, fun _ _ h => by cases h⟩ h
  refine ⟨_, h1, fun x hx => W.dom x (envOf_none he hx), fun x xs hx => ?_, l, l1, by simpa using l2, fun a => ?_⟩
  · obtain ⟨s, hs, rfl⟩ := envOf_some he hx
    exact ⟨_, W_obj W hs, rfl, hc x s hs, by rw [← hc x s hs]; exact W_len W hs⟩
  have own : s0.mem a ≠ none ↔ ∃ x o, s0.objs x = some o ∧ o.p = some a := by
    constructor
    · intro ha
      obtain ⟨x, hx⟩ := W.own a ha
      cases hs : σ x with
      | none => simp [hs] at hx
      | some s =>
        rw [hs] at hx
        exact ⟨x, _, W_obj W hs, by simpa using hx⟩
    · rintro ⟨x, o, ho, ha⟩
      cases hs : σ x with
      | none => rw [W.dom x hs] at ho; cases ho
      | some s =>
        rw [W_obj W hs] at ho
        cases ho
        exact W.alloc (x := x) (by rw [hs]; simpa using ha)
  constructor
  · show (s0.ext g).mem a ≠ none ↔ a ∈ l ∨ ∃ x o, s0.objs x = some o ∧ o.p = some a
    rw [← own, ← l3]
    simp only [St.ext]
    cases g a <;> simp
  · rintro ⟨h2, h3⟩
    exact own.2 h3 (hap a ((l3 a).2 h2)).1

/-- After such a program, once all vectors are destroyed only the lost blocks remain. -/
theorem C141_vector_leaks {ops : List (Option Nat × Op V)} {e : Env V} {c : Caps} {outs : List (Option (Out V))}
    {n : Nat} (h : specRunT Env.none (fun _ => 0) ops = some (e, c, outs, n)) (hd : ∀ x, e x = none) :
    ∃ st, runT ops St.init = .ok outs st ∧
      ∃ l : List Nat, l.Nodup ∧ l.length = n ∧ ∀ a, st.mem a ≠ none ↔ a ∈ l := by
  obtain ⟨st, h1, h2, _, l, l1, l2, l3⟩ := C141_vector h
  refine ⟨st, h1, l, l1, l2, fun a => ?_⟩
  rw [(l3 a).1]
  constructor
  · rintro (h | ⟨x, o, ho, _⟩)
    · exact h
    · rw [h2 x (hd x)] at ho; cases ho
  · exact Or.inl

/-- A vector of three elements has capacity 4. A `reserve` fails at its allocation, another one at a copy
(a block is lost); an erasure fails at its second assignment and leaves 2, 2, 3; an assignment of it
to `{7, 8}` fails at its second element and leaves `{2, 8}`. A construction of five elements
that fails loses a block; after the destruction two blocks are left. -/
example : ∃ st, runT
    [(none, .newList 0 [1, 2, 3]), (some 0, .reserve 0 9), (some 3, .reserve 0 9), (none, .toList 0),
     (some 1, .erase 0 0 1), (none, .toList 0), (none, .newList 1 [7, 8]), (some 4, .assign 1 0),
     (none, .toList 1), (some 1, .newN 2 5), (some 2, .newN 2 1), (some 0, .resize 1 4), (none, .size 1),
     (none, .destroy 0), (none, .destroy 1), (some 5, .destroy 2)] (St.init : VSt Nat) =
      .ok [some .unit, none, none, some (.vals [1, 2, 3]), none, some (.vals [2, 2, 3]), some .unit, none,
        some (.vals [2, 8]), none, some .unit, none, some (.nat 2), some .unit, some .unit, some .unit] st ∧
    ∃ l : List Nat, l.Nodup ∧ l.length = 2 ∧ ∀ a, st.mem a ≠ none ↔ a ∈ l := by
  let ops : List (Option Nat × Op Nat) :=
    [(none, .newList 0 [1, 2, 3]), (some 0, .reserve 0 9), (some 3, .reserve 0 9), (none, .toList 0),
     (some 1, .erase 0 0 1), (none, .toList 0), (none, .newList 1 [7, 8]), (some 4, .assign 1 0),
     (none, .toList 1), (some 1, .newN 2 5), (some 2, .newN 2 1), (some 0, .resize 1 4), (none, .size 1),
     (none, .destroy 0), (none, .destroy 1), (some 5, .destroy 2)]
  have h1 : (specRunT Env.none (fun _ => 0) ops).map (fun r => r.2.2) = some ([some .unit, none, none,
      some (.vals [1, 2, 3]), none, some (.vals [2, 2, 3]), some .unit, none,
      some (.vals [2, 8]), none, some .unit, none, some (.nat 2), some .unit, some .unit, some .unit], 2) := rfl
  have h2 : ∀ x, (specRunT Env.none (fun _ => 0) ops).map (fun r => r.1 x) =
      some none := fun x => match x with
    | 0 => rfl
    | 1 => rfl
    | 2 => rfl
    | _+3 => rfl
  obtain ⟨⟨e, c, r⟩, hr, rfl⟩ := Option.map_eq_some_iff.1 h1
  refine C141_vector_leaks hr fun x => ?_
  have := h2 x
  rw [hr] at this
  exact Option.some.inj this

/-- Capacities: four appended elements need storage for 1, 2 and 4; assignment takes over the larger
capacity, not the size, of the other vector. -/
example : ∃ st o o', runT
    [(none, .newList 0 [1, 2, 3]), (none, .reserve 0 9), (some 1, .clear 0), (none, .new 1),
     (some 0, .assign 1 0), (none, .assign 1 0), (none, .newList 2 [1, 2, 3, 4, 5])] (St.init : VSt Nat) =
      .ok [some .unit, some .unit, some .unit, some .unit, none, some .unit, some .unit] st ∧
    st.objs 1 = some o ∧ o.cap = 9 ∧ st.objs 2 = some o' ∧ o'.cap = 8 := by
  let ops : List (Option Nat × Op Nat) :=
    [(none, .newList 0 [1, 2, 3]), (none, .reserve 0 9), (some 1, .clear 0), (none, .new 1),
     (some 0, .assign 1 0), (none, .assign 1 0), (none, .newList 2 [1, 2, 3, 4, 5])]
  have h1 : (specRunT Env.none (fun _ => 0) ops).map
      (fun r => (r.1 1, r.1 2, r.2.1 1, r.2.1 2, r.2.2.1)) =
      some (some [], some [1, 2, 3, 4, 5], 9, 8,
        [some .unit, some .unit, some .unit, some .unit, none, some .unit, some .unit]) := rfl
  obtain ⟨⟨e, c, r, n⟩, hr, h⟩ := Option.map_eq_some_iff.1 h1
  simp only [Prod.mk.injEq] at h
  obtain ⟨e1, e2, c1, c2, rfl⟩ := h
  obtain ⟨st, h2, _, h3, _⟩ := C141_vector hr
  obtain ⟨o, o1, _, o3, _⟩ := h3 1 _ e1
  obtain ⟨o', o1', _, o3', _⟩ := h3 2 _ e2
  exact ⟨st, o, o', h2, o1, o3.trans c1, o1', o3'.trans c2⟩

end Cest.Vec
