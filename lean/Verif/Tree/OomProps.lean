import Verif.Tree.MapProps
import Verif.Tree.OomHist
/-
C139: programs with sets and maps that run out of storage, catch the exception, and go on.
-/
namespace Cest.Tree
open Cest

section general
variable {V K : Type} [DecidableEq K] {g : Cfg V K}

theorem oom_run (hg : g.Lawful) {ops : List (Option Nat × Op V K)} {e : Env V} {outs : List (Option (Out V))}
    (h : specRunT g Env.none ops = some (e, outs)) :
    ∃ F st its, (∀ fuel, F ≤ fuel → runT g fuel (fun _ => none) ops St.init = .ok (its, outs) st) ∧
      ∀ a, st.mem a ≠ none ↔ ∃ x s, e.sets x = some s ∧ a ∈ s.map Prod.fst := by
  obtain ⟨F, st, its, h1, A⟩ := runT_refines hg (agree_init g) h
  have W := A.world
  refine ⟨F, st, its, h1, fun a => ⟨fun ha => ?_, ?_⟩⟩
  · obtain ⟨x, hx⟩ := W.own a ha
    cases hs : e.sets x with
    | none => simp [hs] at hx
    | some s => exact ⟨x, s, hs, by rw [hs] at hx; exact hx⟩
  · rintro ⟨x, s, hs, ha⟩
    exact W.alloc (x := x) (by rw [hs]; exact ha)

end general

/-- **C139 (set).** Take any program on any number of sets and iterators, with an allocation failing in any
operation, and the exception caught, as often as the program likes. If the operations are used within their
preconditions and the copies of elements into new nodes do not throw, nothing in the program has undefined
behaviour, and every observation is the one of the specification `specRunT`: an `insert` that runs out of storage
changes nothing (and one of a key that is there does not need any), a copy construction leaves no set, an
assignment leaves the smallest elements of the source that there was storage for; all iterators to elements that
are still there stay valid. At the end the allocated nodes are exactly those of the sets. -/
theorem C139_set {K : Type} [DecidableEq K] {comp : K → K → Bool} (hc : StrictWeak comp)
    {ops : List (Option Nat × Op K K)} {e : Env K} {outs : List (Option (Out K))}
    (h : specRunT (setCfg comp) Env.none ops = some (e, outs)) :
    ∃ F st its, (∀ fuel, F ≤ fuel → runT (setCfg comp) fuel (fun _ => none) ops St.init = .ok (its, outs) st) ∧
      ∀ a, st.mem a ≠ none ↔ ∃ x s, e.sets x = some s ∧ a ∈ s.map Prod.fst :=
  oom_run (setCfg_lawful hc) h

/-- **C139 (map).** The same for maps; `it->second = …` that throws changes nothing. -/
theorem C139_map {K T : Type} [DecidableEq K] {comp eq : K → K → Bool} (hc : StrictWeak comp)
    (he : GoodEq comp eq) {ops : List (Option Nat × Op (K × T) K)} {e : Env (K × T)}
    {outs : List (Option (Out (K × T)))} (h : specRunT (mapCfg comp eq) Env.none ops = some (e, outs)) :
    ∃ F st its, (∀ fuel, F ≤ fuel → runT (mapCfg comp eq) fuel (fun _ => none) ops St.init = .ok (its, outs) st) ∧
      ∀ a, st.mem a ≠ none ↔ ∃ x s, e.sets x = some s ∧ a ∈ s.map Prod.fst :=
  oom_run (map_lawful hc he) h

/-- Two insertions that run out of storage, one of them of a key that is there (which needs none); a copy for whose
third element there is no storage; an assignment for whose second element there is none; an iterator used
afterwards. -/
example : (specRunT (setCfg tensLt) Env.none
    [(none, .new 0), (none, .insert 0 30 0), (some 0, .insert 0 12 1), (none, .insert 0 12 1), (some 0, .insert 0 15 2),
     (some 3, .insert 0 50 3), (none, .toList 0), (some 6, .newCopy 1 0), (none, .new 1), (none, .insert 1 99 4),
     (some 3, .assign 1 0), (none, .toList 1), (some 0, .size 0), (none, .inc 0 2), (none, .deref 0 2),
     (some 0, .destroy 0), (some 0, .destroy 1)]).map Prod.snd =
    some [some .unit, some (.bool true), none, some (.bool true), some (.bool false), some (.bool true),
      some (.vals [12, 30, 50]), none, some .unit, some (.bool true), none, some (.vals [12]), some (.nat 3),
      some .unit, some (.val 30), some .unit, some .unit] := rfl

/-- A map; the assignment to a mapped value throws, then succeeds. -/
example : (specRunT (mapCfg natLt (fun a b => a == b)) Env.none
    [(none, .new 0), (none, .insert 0 (3, 10) 0), (some 0, .write 0 0 (3, 11)), (none, .deref 0 0),
     (some 1, .write 0 0 (3, 11)), (some 0, .insert 0 (3, 12) 1), (some 0, .insert 0 (2, 12) 1),
     (some 0, .newCopy 1 0), (some 4, .newCopy 1 0), (none, .toList 1)]).map Prod.snd =
    some [some .unit, some (.bool true), none, some (.val (3, 10)), some .unit, some (.bool false), none, none,
      some .unit, some (.vals [(3, 11)])] := rfl

end Cest.Tree
