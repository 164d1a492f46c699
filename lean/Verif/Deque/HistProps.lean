import Verif.Deque.HistRefine
/-
C142: programs with deques whose exceptions are caught; chunks and their table.
-/
namespace Cest.Deq
open Cest
variable {V : Type} {K : Nat}

/-- **C142 (deque).** Take any program of operations on any number of deques, with an exception thrown at any
allocation or element copy of any operation, and caught, as often as the program likes. If the operations
are used within their preconditions and no deque is broken by an exception (`Upset.broken`, a copy in a push
that throws), nothing in the program has undefined behaviour, and every observation is the one of the
specification `specRunT`: a push that cannot get storage changes no deque; an assignment that cannot get
storage leaves the elements assigned until then; a constructor that cannot get storage leaves no deque.
At the end every deque has the size, the number of chunks and the room in its table of chunks
of the specification. The allocated chunks are those of the deques and the lost ones, and no chunk is
both. -/
theorem C142_deque (hK : 2 ≤ K) {ops : List (Option Nat × Op V)} {e : Env V} {l : Lays}
    {outs : List (Option (Out V))} {n : Nat}
    (h : specRunT K Env.none (fun _ => ⟨0, 0, 0⟩) ops = some (e, l, outs, n)) :
    ∃ st, runT K ops St.init = .ok outs st ∧
      (∀ x, e x = none → st.objs x = none) ∧
      (∀ x xs, e x = some xs → ∃ o, st.objs x = some o ∧ o.size = xs.length ∧
        o.chunks.Nodup ∧ o.chunks.length = (l x).chunks ∧ o.ccap = (l x).room ∧
        (l x).first + xs.length ≤ (l x).chunks * K) ∧
      ∃ lost : List Nat, lost.Nodup ∧ lost.length = n ∧
        ∀ a, (st.mem a ≠ none ↔ a ∈ lost ∨ ∃ x o, st.objs x = some o ∧ a ∈ o.chunks) ∧
          ¬ (a ∈ lost ∧ ∃ x o, st.objs x = some o ∧ a ∈ o.chunks) := by
  obtain ⟨st, h1, σ, ⟨g, s0, rfl, W, hap, lost, l1, l2, l3⟩, he, hl⟩ :=
    runT_refines hK (m := 0) ⟨fun _ => none, left_world (World.init (I := dqI K V)), rfl, fun _ _ h => by cases h⟩ h
  refine ⟨_, h1, fun x hx => W.dom x (envOf_none he hx), fun x xs hx => ?_, lost, l1, by simpa using l2, fun a => ?_⟩
  · obtain ⟨s, hs, rfl⟩ := envOf_some he hx
    have hc := hl x s hs
    rw [← hc]
    exact ⟨s.obj K, (W_obj W hs : s0.objs x = _), rfl, W_nodup W hs, rfl, rfl, W_le W hs⟩
  have own : s0.mem a ≠ none ↔ ∃ x o, s0.objs x = some o ∧ a ∈ o.chunks := by
    constructor
    · intro ha
      obtain ⟨x, hx⟩ := W.own a ha
      cases hs : σ x with
      | none => simp [hs] at hx
      | some s =>
        rw [hs] at hx
        exact ⟨x, _, W_obj W hs, by simpa [DV.obj] using hx⟩
    · rintro ⟨x, o, ho, ha⟩
      cases hs : σ x with
      | none => rw [W.dom x hs] at ho; cases ho
      | some s =>
        rw [W_obj W hs] at ho
        cases ho
        exact W.alloc (x := x) (by rw [hs]; simpa [DV.obj] using ha)
  constructor
  · show (s0.ext g).mem a ≠ none ↔ a ∈ lost ∨ ∃ x o, s0.objs x = some o ∧ a ∈ o.chunks
    rw [← own, ← l3]
    simp only [St.ext]
    cases g a <;> simp
  · rintro ⟨h2, h3⟩
    exact own.2 h3 (hap a ((l3 a).2 h2)).1

/-- After such a program, once all deques are destroyed only the lost chunks remain. -/
theorem C142_deque_leaks (hK : 2 ≤ K) {ops : List (Option Nat × Op V)} {e : Env V} {l : Lays}
    {outs : List (Option (Out V))} {n : Nat}
    (h : specRunT K Env.none (fun _ => ⟨0, 0, 0⟩) ops = some (e, l, outs, n)) (hd : ∀ x, e x = none) :
    ∃ st, runT K ops St.init = .ok outs st ∧
      ∃ lost : List Nat, lost.Nodup ∧ lost.length = n ∧ ∀ a, st.mem a ≠ none ↔ a ∈ lost := by
  obtain ⟨st, h1, h2, _, l, l1, l2, l3⟩ := C142_deque hK h
  refine ⟨st, h1, l, l1, l2, fun a => ?_⟩
  rw [(l3 a).1]
  constructor
  · rintro (h | ⟨x, o, ho, _⟩)
    · exact h
    · rw [h2 x (hd x)] at ho; cases ho
  · exact Or.inl

/-- Chunks of four elements. A deque of two elements fills the second half of its chunk. A push_back fails
for want of a chunk, another for want of a larger table (the chunk is lost); both leave the deque as it is.
Three push_fronts get by without an allocation until the third, which needs a chunk. An assignment that cannot
get its second chunk leaves the two elements that fitted in the first. A constructor loses the chunk
when its table cannot be allocated; after the destruction of all deques two chunks are left. -/
example : ∃ st, runT 4
    [(none, .newList 0 [1, 2]), (some 0, .pushBack 0 3), (some 1, .pushBack 0 3), (none, .size 0),
     (none, .pushBack 0 3), (none, .toList 0), (some 1, .pushFront 0 9), (none, .pushFront 0 8),
     (some 0, .pushFront 0 7), (none, .get 0 1), (none, .new 1), (some 2, .assign 1 0), (none, .size 1),
     (none, .back 1), (some 1, .newCopy 2 0), (some 3, .set 0 0 5), (some 0, .set 0 0 6), (none, .front 0),
     (none, .destroy 0), (none, .destroy 1)] (St.init : DSt Nat) =
      .ok [some .unit, none, none, some (.nat 2), some .unit, some (.vals [1, 2, 3]), some .unit, some .unit,
        none, some (.val 9), some .unit, none, some (.nat 2), some (.val 9), none, some .unit, none,
        some (.val 5), some .unit, some .unit] st ∧
    ∃ lost : List Nat, lost.Nodup ∧ lost.length = 2 ∧ ∀ a, st.mem a ≠ none ↔ a ∈ lost := by
  let ops : List (Option Nat × Op Nat) :=
    [(none, .newList 0 [1, 2]), (some 0, .pushBack 0 3), (some 1, .pushBack 0 3), (none, .size 0),
     (none, .pushBack 0 3), (none, .toList 0), (some 1, .pushFront 0 9), (none, .pushFront 0 8),
     (some 0, .pushFront 0 7), (none, .get 0 1), (none, .new 1), (some 2, .assign 1 0), (none, .size 1),
     (none, .back 1), (some 1, .newCopy 2 0), (some 3, .set 0 0 5), (some 0, .set 0 0 6), (none, .front 0),
     (none, .destroy 0), (none, .destroy 1)]
  have h1 : (specRunT 4 Env.none (fun _ => ⟨0, 0, 0⟩) ops).map (fun r => r.2.2) = some (
      [some .unit, none, none, some (.nat 2), some .unit, some (.vals [1, 2, 3]), some .unit, some .unit,
        none, some (.val 9), some .unit, none, some (.nat 2), some (.val 9), none, some .unit, none,
        some (.val 5), some .unit, some .unit], 2) := rfl
  have h2 : ∀ x, (specRunT 4 Env.none (fun _ => ⟨0, 0, 0⟩) ops).map (fun r => r.1 x) =
      some none := fun x => match x with
    | 0 => rfl
    | 1 => rfl
    | 2 => rfl
    | _+3 => rfl
  obtain ⟨⟨e, c, r⟩, hr, rfl⟩ := Option.map_eq_some_iff.1 h1
  refine C142_deque_leaks (by omega) hr fun x => ?_
  have := h2 x
  rw [hr] at this
  exact Option.some.inj this

/-- Eleven elements in chunks of four, the first half of the first chunk unused: four chunks, and a
table that has grown from 1 to 2 to 4. -/
example : ∃ st o, runT 4
    [(some 1, .newList 0 [0]), (none, .newList 0 [1, 2, 3, 4, 5, 6, 7, 8, 9, 10, 11]), (some 0, .popBack 0)]
      (St.init : DSt Nat) = .ok [none, some .unit, some .unit] st ∧
    st.objs 0 = some o ∧ o.size = 10 ∧ o.chunks.length = 4 ∧ o.ccap = 4 := by
  let ops : List (Option Nat × Op Nat) :=
    [(some 1, .newList 0 [0]), (none, .newList 0 [1, 2, 3, 4, 5, 6, 7, 8, 9, 10, 11]), (some 0, .popBack 0)]
  have h1 : (specRunT 4 Env.none (fun _ => ⟨0, 0, 0⟩) ops).map (fun r => (r.1 0, r.2.1 0, r.2.2.1)) =
      some (some [1, 2, 3, 4, 5, 6, 7, 8, 9, 10], ⟨2, 4, 4⟩, [none, some .unit, some .unit]) := rfl
  obtain ⟨⟨e, c, r, n⟩, hr, h⟩ := Option.map_eq_some_iff.1 h1
  simp only [Prod.mk.injEq] at h
  obtain ⟨e1, c1, rfl⟩ := h
  obtain ⟨st, h2, _, h3, _⟩ := C142_deque (by omega) hr
  obtain ⟨o, o1, o2, _, o3, o4, _⟩ := h3 0 _ e1
  exact ⟨st, o, h2, o1, o2, by rw [o3, c1], by rw [o4, c1]⟩

end Cest.Deq
