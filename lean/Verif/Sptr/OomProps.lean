import Verif.Sptr.Oom
/-
Properties of shared_ptr when storage runs out (C143).
-/
namespace Cest.Sptr
open Cest
variable {V : Type}

/-- What a machine state must look like for a specification state when the objects in `l` are lost: as in
`Shows`, with the lost objects besides.  They are different from all living objects and groups, and no
shared_ptr points to one of them. -/
structure ShowsLost (st : SSt V) (s : State V) (l : List (Nat × V)) : Prop where
  vars : ∀ x, st.objs x = (s.vars.look x).map (fun h => ⟨h.obj, h.grp⟩)
  objs : ∀ o v, st.mem o = some (.val v) ↔ (s.objs o = some v ∨ (o, v) ∈ l)
  grps : ∀ g n m, st.mem g = some (.ctrl n m) ↔ (s.grps g = some m ∧ n = s.vars.owners g)
  nodup : (l.map (·.1)).Nodup
  apart : ∀ o ∈ l.map (·.1), s.objs o = none ∧ s.grps o = none
  unreachable : ∀ x r o, st.objs x = some r → r.ptr = some o → o ∉ l.map (·.1)

theorem Agree.shows {st : SSt V} {s : State V} {l : List (Nat × V)} (A : Agree st s l) : ShowsLost st s l := by
  obtain ⟨⟨s0, rfl, hI, hA⟩, hn, hf⟩ := A
  have S := hI.shows
  have hap : ∀ o ∈ l.map (·.1), s.objs o = none ∧ s.grps o = none := by
    intro o ho
    have h1 := (hA o (junk_ne.2 ho)).1
    rw [hI.mem] at h1
    simp only [memOf] at h1
    cases h2 : s.objs o with
    | some v => rw [h2] at h1; cases h1
    | none =>
      rw [h2] at h1
      cases h3 : s.grps o with
      | some v => rw [h3] at h1; cases h1
      | none => exact ⟨rfl, rfl⟩
  refine ⟨S.vars, fun o v => ?_, fun g n m => ?_, hn, hap, ?_⟩
  · simp only [St.ext]
    cases h1 : junk l o with
    | some c =>
      have h2 := hap o (junk_ne.1 (by simp [h1]))
      simp only [h2.1, reduceCtorEq, false_or]
      rw [← junk_val hn, h1]
    | none =>
      rw [← junk_val hn, h1]
      simp only [S.objs, reduceCtorEq, or_false]
  · simp only [St.ext]
    cases h1 : junk l g with
    | some c =>
      have h2 := hap g (junk_ne.1 (by simp [h1]))
      simp only [h2.2, reduceCtorEq, false_and, iff_false]
      intro h3
      exact junk_ctrl (h1.trans h3)
    | none => exact S.grps g n m
  · intro x r o h1 h2
    have h3 := S.vars x
    simp only [St.ext] at h1
    rw [h1] at h3
    obtain ⟨h, h4, h5⟩ := Option.map_eq_some_iff.1 h3.symm
    subst h5
    exact (hf x h o h4 h2).2

/-- C143 A program whose `bad_alloc`s are caught, each operation being given the number of its allocations
that succeed: it runs without undefined behaviour and answers as specified.  An operation that runs out of
storage changes no variable and no object, and what it loses is exactly the object that was to be managed
(when the control block cannot be allocated, C85). -/
theorem C143_sptr_programs_catch (ops : List (Option Nat × Op V)) (s : State V) (os : List (Option (Out V)))
    (l : List (Nat × V)) (h : specRunT State.empty ops = some (s, os, l)) (hg : SupportedT State.empty ops) :
    ∃ st, runT ops St.init = .ok os st ∧ ShowsLost st s l := by
  obtain ⟨st, h1, A⟩ := runT_refines Agree.init h hg
  exact ⟨st, h1, A.shows⟩

/-- Does the operation lose its object? -/
def loses : Option Nat × Op V → Nat
  | (some 1, .make _ _) => 1
  | _ => 0

theorem loses_none {s : State V} {t : Option Nat} {op : Op V} (h : t.bind (fun k => upset s k op) = none) :
    loses (t, op) = 0 := by
  cases t with
  | none => rfl
  | some k =>
    match k, op with
    | 0, _ => rfl
    | 1, .make _ _ => simp [upset] at h
    | 1, .new _ | 1, .makeNull _ | 1, .copy _ _ | 1, .alias _ _ _ | 1, .assign _ _ | 1, .destroy _
    | 1, .useCount _ | 1, .get _ | 1, .set _ _ | 1, .toBool _ | 1, .same _ _ => rfl
    | k + 2, _ => rfl

theorem loses_some {s s' : State V} {t : Option Nat} {op : Op V} {l : List (Nat × V)}
    (h : t.bind (fun k => upset s k op) = some (s', l)) : l.length = loses (t, op) := by
  cases t with
  | none => cases h
  | some k =>
    cases op <;> try cases h
    all_goals
      match k, h with
      | 0, h => simp [upset] at h; simp [← h.2, loses]
      | 1, h => simp [upset] at h; try simp [← h.2, loses]
      | k + 2, h => simp [upset] at h

theorem lost_length {ops : List (Option Nat × Op V)} : ∀ {s s' : State V} {os : List (Option (Out V))}
    {l : List (Nat × V)}, specRunT s ops = some (s', os, l) → l.length = (ops.map loses).sum := by
  induction ops with
  | nil => intro s s' os l h; simp only [specRunT, Option.some.injEq, Prod.mk.injEq] at h; simp [← h.2.2]
  | cons p ops ih =>
    obtain ⟨t, op⟩ := p
    intro s s' os l hs
    simp only [specRunT] at hs
    split at hs
    · cases hs
    · split at hs
      · rename_i h2
        obtain ⟨r, h3, h4⟩ := Option.map_eq_some_iff.1 hs
        simp only [Prod.mk.injEq] at h4
        rw [← h4.2.2, ih h3, List.map_cons, List.sum_cons, loses_none h2, Nat.zero_add]
      · rename_i h2
        obtain ⟨r, h3, h4⟩ := Option.map_eq_some_iff.1 hs
        simp only [Prod.mk.injEq] at h4
        rw [← h4.2.2, List.length_append, ih h3, List.map_cons, List.sum_cons, loses_some h2]

/-- C143 (when nothing is left) After a program that has destroyed all its shared_ptrs, what remains in
memory is exactly the lost objects: one for every `shared_ptr(new T)` whose control block could not be
allocated, and nothing if there was none. -/
theorem C143_sptr_leak_exact (ops : List (Option Nat × Op V)) (s : State V) (os : List (Option (Out V)))
    (l : List (Nat × V)) (h : specRunT State.empty ops = some (s, os, l)) (hg : SupportedT State.empty ops)
    (hv : s.vars = []) :
    ∃ st, runT ops St.init = .ok os st ∧ (∀ x, st.objs x = none) ∧
      (∀ a c, st.mem a = some c ↔ ∃ v, c = .val v ∧ (a, v) ∈ l) ∧ (l.map (·.1)).Nodup ∧
      l.length = (ops.map loses).sum := by
  obtain ⟨st, h1, A⟩ := runT_refines Agree.init h hg
  have S := A.shows
  obtain ⟨⟨s0, _, hI, _⟩, _, _⟩ := A
  have hgr : ∀ g, s.grps g = none := by
    intro g
    apply Classical.byContradiction
    intro hne
    have := (hI.S.own g).1 hne
    rw [hv] at this
    simp [Vars.owners] at this
  have hob : ∀ o, s.objs o = none := by
    intro o
    apply Classical.byContradiction
    intro hne
    obtain ⟨g, h2⟩ := hI.S.held o hne
    rw [hgr g] at h2
    cases h2
  refine ⟨st, h1, fun x => by rw [S.vars, hv]; rfl, fun a c => ?_, S.nodup, lost_length h⟩
  cases c with
  | val v =>
    rw [S.objs, hob]
    simp
  | ctrl n m =>
    rw [S.grps, hgr]
    simp

/-- A program that runs out of storage in both ways. -/
def demoT : List (Option Nat × Op Nat) :=
  [(none, .make 0 5), (some 0, .make 1 6), (some 1, .make 1 7), (some 2, .make 1 8), (some 0, .copy 2 0),
   (none, .useCount 2), (some 0, .makeNull 3), (none, .get 1), (none, .same 0 2), (none, .destroy 0),
   (none, .destroy 1), (none, .get 2), (none, .destroy 2)]

example : ∃ s, specRunT State.empty demoT = some (s,
    [some .unit, none, none, some .unit, some .unit, some (.count 2), none, some (.val 8), some (.bool true),
     some .unit, some .unit, some (.val 5), some .unit], [(2, 7)]) ∧ s.vars = [] ∧ SupportedT State.empty demoT ∧
    (demoT.map loses).sum = 1 := by
  refine ⟨_, rfl, rfl, ?_, rfl⟩
  simp [SupportedT, demoT, Supported, specStep, State.empty, Vars.look, upset, Vars.owners, Vars.drop,
    State.collect]

end Cest.Sptr
