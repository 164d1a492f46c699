import Verif.Str.OomHist
/-
C140: capacities, and programs with strings that run out of storage, catch the exception, and go on.
-/
namespace Cest.Str
open Cest
set_option linter.unusedSectionVars false
variable {V : Type} [DecidableEq V] {t : Traits V}

/-- **C140.** Take any program on any number of strings, with the first allocation of any of its operations
failing and the exception caught, as often as the program likes. If the operations are used within their
preconditions, and the three constructs of C81 and C114 that break (default construction, assignment, and a
later allocation of the construction from a single-pass range) find storage, nothing has undefined behaviour; an
operation that throws changes nothing at all, and it throws exactly if `specRunT` says that it needs new storage;
at the end every string has the characters and the capacity of the specification, and each allocated block is the
buffer of one string, of one character more than its capacity. -/
theorem C140_string (ht : t.Lawful) {ops : List (Option Nat × Op V)} {e : Env V} {c : Nat → Nat}
    {outs : List (Option (Out V))} (h : specRunT t.nul t.lt Env.none (fun _ => 0) ops = some (e, c, outs)) :
    ∃ st, runT t ops St.init = .ok outs st ∧
      (∀ x xs, e x = some xs → toList x st = .ok xs st ∧ capacity x st = .ok (c x) st ∧ xs.length ≤ c x) ∧
      (∀ a b, st.mem a = some b → ∃ x xs, e x = some xs ∧ b.len = c x + 1 ∧
        st.objs x = some ⟨xs.length, c x, some a⟩) := by
  have A0 : CW t (St.init : SSt V) Env.none (fun _ => 0) :=
    ⟨fun _ => none, World.init (I := iface t), rfl, by intro x o h; simp [St.init] at h⟩
  obtain ⟨st, h1, σ, W, rfl, hc⟩ := runT_refines ht A0 h
  have key : ∀ x s, σ x = some s → st.objs x = some ⟨s.val.length, c x, some s.blk⟩ ∧ s.buf.length = c x + 1 := by
    intro x s hs
    obtain ⟨g1, g2, g3⟩ := get_rep W hs
    have h4 := hc x _ g1
    have := g3.two
    simp only [SV.obj] at g1 h4
    exact ⟨by rw [g1, SV.val_length g3, h4], by omega⟩
  refine ⟨st, h1, fun x xs hx => ?_, fun a b hb => ?_⟩
  · obtain ⟨s, hs, rfl⟩ := envOf_some rfl hx
    obtain ⟨g1, g2⟩ := key x s hs
    have := (get_rep W hs).2.2.lt
    have := SV.val_length (get_rep W hs).2.2
    exact ⟨toList_spec W hs, by simp [capacity, g1], by omega⟩
  · obtain ⟨x, hx⟩ := W.own a (by rw [hb]; simp)
    cases hs : σ x with
    | none => simp [hs] at hx
    | some s =>
      rw [hs] at hx
      have : a = s.blk := by simpa [iface] using hx
      subst this
      obtain ⟨g1, g2⟩ := key x s hs
      have e1 := (get_rep W hs).2.1
      rw [hb] at e1
      injection e1 with e1
      exact ⟨x, s.val, by simp [envOf, hs], by rw [e1]; exact g2, g1⟩

/-- A full string of one character: `push_back` fails, then succeeds with the doubled capacity, then needs no
storage; a construction from a range fails at once; a copy fails, then succeeds; `append` and `reserve` fail,
while an assignment that fits does not need storage. -/
example : (specRunT 0 (fun a b : Nat => decide (a < b)) Env.none (fun _ => 0)
    [(none, .new 0), (some 0, .pushBack 0 7), (some 0, .pushBack 0 8), (some 0, .toList 0), (some 1, .pushBack 0 8),
     (none, .toList 0), (some 0, .newInput 1 [1, 2, 3]), (some 2, .newInput 1 [1, 2, 3]), (some 0, .newCopy 2 1),
     (some 1, .newCopy 2 1), (some 0, .append 2 (.ext [4, 5, 6] 0) 3), (some 0, .reserve 2 100), (some 0, .assign 1 2),
     (none, .eq 1 2), (some 0, .append 2 (.str 0 0) 1), (some 0, .toList 2)]).map (fun r => (r.2.2, r.2.1 0, r.2.1 1, r.2.1 2)) =
    some ([some .unit, some .unit, none, some (.vals [7]), some .unit, some (.vals [7, 8]), none, some .unit, none,
      some .unit, none, none, some .unit, some (.bool true), some .unit, some (.vals [1, 2, 3, 7])], 2, 6, 4) := rfl

end Cest.Str
