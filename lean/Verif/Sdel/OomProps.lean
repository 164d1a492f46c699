import Verif.Sdel.OomLost
/-
Properties of shared_ptr with deleters when storage runs out (C149).
-/
namespace Cest.Sdel
open Cest
variable {V D : Type} {frees : Nat → Bool} {virt : Bool}

/-- Programs the client is entitled to and the library supports. -/
def LegalT (frees : Nat → Bool) (virt : Bool) (ops : List (Option Nat × Op V D)) (s : State V D)
    (os : List (Option (Out V D))) (l : List (Lost V)) : Prop :=
  specRunT frees State.empty ops = some (s, os, l) ∧ SupportedT frees virt State.empty ops

/-- What is known of the lost objects in a machine state: they are different objects, all still there with
their contents, no shared_ptr points to one of them, no control block manages one of them, and none of them
has been given to a deleter. -/
structure Left (st : DSt V D) (l : List (Lost V)) : Prop where
  nodup : (l.map (·.1)).Nodup
  here : ∀ o y c, (o, y, c) ∈ l → st.st.mem o = some (.obj y c)
  unreachable : ∀ o y c, (o, y, c) ∈ l → ∀ x r, st.st.objs x = some r → r.ptr ≠ some o
  unmanaged : ∀ o y c, (o, y, c) ∈ l → ∀ g n u d, st.st.mem g ≠ some (.ctrl n u (some o) d)
  uncalled : ∀ o y c, (o, y, c) ∈ l → ∀ k ∈ st.log, k.ptr ≠ some o

theorem LegalT.inv {ops : List (Option Nat × Op V D)} {s : State V D} {os : List (Option (Out V D))}
    {l : List (Lost V)} (h : LegalT frees virt ops s os l) :
    ∃ st, runT frees virt ops DSt.init = .ok os st ∧ Inv virt st s ∧ LostInv s l ∧
      Prom frees (fun o => o ∈ l.map (·.1)) s ∧ (s.made.map fun c => (c.ty, c.val)).Perm (givenT ops) := by
  obtain ⟨st, h1, h2⟩ := runT_refines Inv.init h.1 h.2
  have h3 := promT_run (virt := virt) Inv.init LostInv.empty prom_empty h.1 h.2
  simp only [List.nil_append, show (State.empty : State V D).made = [] from rfl, List.map_nil, List.append_nil] at h3
  exact ⟨st, h1, h2, h3⟩

theorem LostInv.left {st : DSt V D} {s : State V D} {l : List (Lost V)} (hI : Inv virt st s) (hL : LostInv s l) :
    Left st l := by
  have S := hI.shows
  refine ⟨hL.nd, fun o y c h => (S.objs o y c).2 (hL.here _ h), ?_, ?_, ?_⟩
  · intro o y c h x r hx e
    rw [S.vars] at hx
    obtain ⟨hd, h1, h2⟩ := Option.map_eq_some_iff.1 hx
    subst h2
    exact hL.vars _ h x hd h1 e
  · intro o y c h g n u d hg
    obtain ⟨-, G, h1, -, h2, -⟩ := S.block g n u _ d hg
    exact hL.grps _ h g G h1 h2.symm
  · intro o y c h k hk e
    refine hL.made _ h k ?_ e
    rw [S.log] at hk
    exact hI.S.perm.subset (List.mem_append.2 (.inl hk))

/-- C149 A program whose `bad_alloc`s are caught, each operation being given the number of its allocations
that succeed: it runs without undefined behaviour, answers as specified and ends in the state described, the
deleters having been called in the order described.  An operation that runs out of storage changes no
variable, no object and no group; what it loses is the object that was to be managed, when the control block
cannot be allocated. -/
theorem C149_programs_catch (ops : List (Option Nat × Op V D)) (s : State V D) (os : List (Option (Out V D)))
    (l : List (Lost V)) (h : LegalT frees virt ops s os l) :
    ∃ st, runT frees virt ops DSt.init = .ok os st ∧ Shows st s ∧ Left st l := by
  obtain ⟨st, h1, h2, h3, -, -⟩ := h.inv
  exact ⟨st, h1, h2.shows, h3.left h2⟩

/-- C149 Once no shared_ptr is left, the deleters given to constructors that succeeded have been called, each
exactly once; those given to constructors that ran out of storage have not been called. -/
theorem C149_deleters_called (ops : List (Option Nat × Op V D)) (s : State V D) (os : List (Option (Out V D)))
    (l : List (Lost V)) (st : DSt V D) (h : LegalT frees virt ops s os l)
    (hr : runT frees virt ops DSt.init = .ok os st) (hn : NoVars st) :
    (st.log.map fun c => (c.ty, c.val)).Perm (givenT ops) := by
  obtain ⟨st', h1, h2, -, -, q⟩ := h.inv
  rw [hr] at h1
  cases h1
  have p := h2.S.perm
  rw [(h2.noVars hn).2] at p
  simp only [List.filterMap_nil, List.append_nil] at p
  rw [h2.log]
  exact (p.map _).trans q

/-- At any time, no object is given to deleters twice, and only deleters given to constructors that succeeded
are called. -/
theorem C149_never_twice (ops : List (Option Nat × Op V D)) (s : State V D) (os : List (Option (Out V D)))
    (l : List (Lost V)) (st : DSt V D) (h : LegalT frees virt ops s os l)
    (hr : runT frees virt ops DSt.init = .ok os st) :
    (st.log.filterMap (·.ptr)).Nodup ∧ (st.log.map fun c => (c.ty, c.val)).Subperm (givenT ops) := by
  obtain ⟨st', h1, h2, -, pr, q⟩ := h.inv
  rw [hr] at h1
  cases h1
  have p := h2.S.perm
  rw [h2.log]
  constructor
  · have := (p.filterMap (·.ptr)).nodup_iff.2 pr.nd
    rw [List.filterMap_append] at this
    exact (List.nodup_append.1 this).1
  · refine List.Subperm.trans ?_ ((p.map _).trans q).subperm
    rw [List.map_append]
    exact (List.sublist_append_left _ _).subperm

/-- Does the operation lose its object? -/
def loses : Option Nat × Op V D → Nat
  | (some 1, .make _ _ _) => 1
  | (some 1, .makeDel _ _ (some _) _ _) => 1
  | _ => 0

theorem loses_none {s : State V D} {t : Option Nat} {op : Op V D} (h : t.bind (fun k => upset s k op) = none) :
    loses (t, op) = 0 := by
  cases t with
  | none => rfl
  | some k =>
    match k with
    | 0 => rfl
    | k + 2 => rfl
    | 1 =>
      cases op with
      | make x y c => simp [upset] at h
      | makeDel x y c k d =>
        cases c with
        | none => rfl
        | some c => simp [upset] at h
      | _ => rfl

theorem loses_some {s s' : State V D} {k : Nat} {op : Op V D} {l : List (Lost V)}
    (h : upset s k op = some (s', l)) : l.length = loses (some k, op) := by
  cases op with
  | make x y c =>
    match k, h with
    | 0, h => cases h; rfl
    | 1, h => cases h; rfl
    | k + 2, h => cases h
  | makeDel x y c kk d =>
    cases c with
    | none =>
      match k, h with
      | 0, h => cases h; rfl
      | k + 1, h => cases h
    | some c =>
      match k, h with
      | 0, h => cases h; rfl
      | 1, h => cases h; rfl
      | k + 2, h => cases h
  | _ => cases h

theorem lost_length {ops : List (Option Nat × Op V D)} : ∀ {s s' : State V D} {os : List (Option (Out V D))}
    {l : List (Lost V)}, specRunT frees s ops = some (s', os, l) → l.length = (ops.map loses).sum := by
  induction ops with
  | nil => intro s s' os l h; simp only [specRunT, Option.some.injEq, Prod.mk.injEq] at h; simp [← h.2.2]
  | cons p ops ih =>
    obtain ⟨t, op⟩ := p
    intro s s' os l hs
    simp only [specRunT] at hs
    split at hs
    · cases hs
    · split at hs
      · rename_i h2
        obtain ⟨r, h3, h4⟩ := Option.map_eq_some_iff.1 hs
        simp only [Prod.mk.injEq] at h4
        rw [← h4.2.2, ih h3, List.map_cons, List.sum_cons, loses_none h2, Nat.zero_add]
      · rename_i h2
        obtain ⟨r, h3, h4⟩ := Option.map_eq_some_iff.1 hs
        simp only [Prod.mk.injEq] at h4
        cases t with
        | none => cases h2
        | some k => rw [← h4.2.2, List.length_append, ih h3, List.map_cons, List.sum_cons, loses_some h2]

/-- C149 Once no shared_ptr is left, no control block is left, and every object left is either lost or was
handed to a deleter that does not delete, never both; all the lost ones are left.  One object is lost for
every constructor whose control block could not be allocated for an object that had been created. -/
theorem C149_leak_exact (ops : List (Option Nat × Op V D)) (s : State V D) (os : List (Option (Out V D)))
    (l : List (Lost V)) (st : DSt V D) (h : LegalT frees virt ops s os l)
    (hr : runT frees virt ops DSt.init = .ok os st) (hn : NoVars st) :
    (∀ a c, st.st.mem a = some c → ∃ y v, c = .obj y v ∧
      ((a, y, v) ∈ l ↔ ¬ ∃ k ∈ st.log, k.ptr = some a ∧ frees k.ty = false)) ∧
    (∀ a y v, (a, y, v) ∈ l → st.st.mem a = some (.obj y v)) ∧ (l.map (·.1)).Nodup ∧
    l.length = (ops.map loses).sum := by
  obtain ⟨st', h1, h2, hL, pr, -⟩ := h.inv
  rw [hr] at h1
  cases h1
  have hg := (h2.noVars hn).2
  have hs := h2.shows
  have hE := hL.left h2
  refine ⟨?_, hE.here, hE.nodup, lost_length h.1⟩
  intro a c hc
  cases c with
  | ctrl n u m d =>
    have := (hs.grps a).1 ⟨n, u, m, d, hc⟩
    rw [hg] at this
    exact absurd rfl this
  | obj y v =>
    refine ⟨y, v, rfl, ?_, ?_⟩
    · rintro hm ⟨k, hk, e, -⟩
      exact hE.uncalled a y v hm k hk e
    · intro hno
      have ho := (hs.objs a y v).1 hc
      rcases pr.src a (by rw [ho]; simp) with ⟨g, G, h3, -⟩ | h3 | h3
      · rw [hg] at h3; cases h3
      · rw [← h2.log] at h3; exact absurd h3 hno
      · obtain ⟨⟨a', y', v'⟩, hp, rfl⟩ := List.mem_map.1 h3
        have := hL.here _ hp
        rw [ho] at this
        cases this
        exact hp

/-- A program that runs out of storage in all ways: deleter 7 deletes, deleter 8 does not. -/
def demoT : List (Option Nat × Op Nat Nat) :=
  [(none, .makeDel 0 0 (some (.one 5)) 7 40), (some 0, .makeDel 1 0 (some (.one 6)) 7 41),
   (some 1, .makeDel 1 0 (some (.one 6)) 7 42), (some 2, .makeDel 1 0 (some (.one 8)) 8 43),
   (some 0, .copy 2 0), (some 1, .make 3 0 (.arr [1, 2])), (some 0, .makeDel 3 0 none 7 44),
   (some 1, .makeDel 3 0 none 7 45), (none, .useCount 2), (some 0, .destroy 0), (none, .get 2), (none, .destroy 1),
   (none, .destroy 2), (some 0, .destroy 3)]

theorem demoT_legal : ∃ s, LegalT (fun k => k == 7) false demoT s
    [some .unit, none, none, some .unit, some .unit, none, none, some .unit, some (.count 2), some .unit,
     some (.val 5), some .unit, some .unit, some .unit] [(2, 0, .one 6), (5, 0, .arr [1, 2])] ∧
    s.vars = [] ∧ s.log = [⟨8, 43, some 3⟩, ⟨7, 40, some 0⟩, ⟨7, 45, none⟩] := by
  refine ⟨_, ⟨rfl, ?_⟩, rfl, rfl⟩
  simp [demoT, SupportedT, Supported, specStep, State.empty, AL.look, State.collect, owners, AL.drop,
    Group.destroys, upset, State.orphan]

example : givenT demoT = [(7, 40), (8, 43), (7, 45)] ∧ (demoT.map loses).sum = 2 := ⟨rfl, rfl⟩

-- the hypotheses of the theorems about programs that have destroyed everything are met
example : ∃ s os l st, LegalT (fun k => k == 7) false demoT s os l ∧
    runT (fun k => k == 7) false demoT DSt.init = .ok os st ∧ NoVars st := by
  obtain ⟨s, hl, hv, -⟩ := demoT_legal
  obtain ⟨st, h1, h2, -⟩ := hl.inv
  exact ⟨s, _, _, st, hl, h1, fun x => by rw [h2.ob, hv]; rfl⟩

end Cest.Sdel
