import Verif.Sdel.Oom
/-
Lemmas for C149: the objects that a program loses, and the deleters it has given.
-/
namespace Cest.Sdel
open Cest
variable {V D : Type} {frees : Nat → Bool} {virt : Bool}

/-- Lost objects are still there, and nobody knows them. -/
structure LostInv (s : State V D) (l : List (Lost V)) : Prop where
  nd : (l.map (·.1)).Nodup
  here : ∀ p ∈ l, s.objs p.1 = some p.2
  vars : ∀ p ∈ l, ∀ x h, s.vars.look x = some h → h.obj ≠ some p.1
  grps : ∀ p ∈ l, ∀ g G, s.grps.look g = some G → G.obj ≠ some p.1
  made : ∀ p ∈ l, ∀ c ∈ s.made, c.ptr ≠ some p.1
  old : ∀ x h o, s.vars.look x = some h → h.obj = some o → o < s.next

theorem LostInv.empty : LostInv (State.empty : State V D) [] := by
  constructor <;> simp [State.empty, AL.look]

theorem LostInv.lt {s : State V D} {l : List (Lost V)} (hL : LostInv s l) (hS : SInv virt s) :
    ∀ p ∈ l, p.1 < s.next := by
  intro p hp
  apply Classical.byContradiction
  intro h
  have h1 := (hS.fresh p.1 (by omega)).1
  rw [hL.here p hp] at h1
  cases h1

theorem lost_grow {s : State V D} {l : List (Lost V)} (hS : SInv virt s) (hL : LostInv s l) (x y : Nat) (c : Content V)
    (d : Option (Nat × D)) : LostInv (addObj s x y c d) l := by
  have hlt := hL.lt hS
  refine ⟨hL.nd, ?_, ?_, ?_, ?_, ?_⟩
  · intro p hp
    have := hlt p hp
    simp only [addObj]
    rw [if_neg (by omega)]
    exact hL.here p hp
  · intro p hp x' h hx
    have := hlt p hp
    simp only [addObj, AL.look] at hx
    split at hx
    · cases hx; simp only [ne_eq, Option.some.injEq]; omega
    · exact hL.vars p hp x' h hx
  · intro p hp g G hg
    have := hlt p hp
    simp only [addObj, AL.look] at hg
    split at hg
    · cases hg; simp only [ne_eq, Option.some.injEq]; omega
    · exact hL.grps p hp g G hg
  · intro p hp c' hc
    have := hlt p hp
    simp only [addObj, List.mem_append] at hc
    rcases hc with hc | hc
    · cases d with
      | none => simp at hc
      | some d =>
        simp at hc
        rw [hc]
        simp only [ne_eq, Option.some.injEq]; omega
    · exact hL.made p hp c' hc
  · intro x' h o hx ho
    simp only [addObj, AL.look] at hx ⊢
    split at hx
    · cases hx; simp at ho; omega
    · have := hL.old x' h o hx ho; omega

theorem lost_step {s s' : State V D} {op : Op V D} {o : Out V D} {l : List (Lost V)} (hS : SInv virt s)
    (hL : LostInv s l) (hs : specStep frees s op = some (s', o)) : LostInv s' l := by
  cases op with
  | make x y c =>
    simp only [specStep] at hs
    split at hs
    · cases hs
    · simp at hs
      obtain ⟨rfl, rfl⟩ := hs
      exact lost_grow hS hL _ _ _ none
    · cases hs
  | makeDel x y c k d =>
    cases c with
    | some c =>
      simp only [specStep] at hs
      split at hs <;> simp at hs
      obtain ⟨rfl, rfl⟩ := hs
      exact lost_grow hS hL x y c (some (k, d))
    | none =>
      simp only [specStep] at hs
      split at hs <;> simp at hs
      obtain ⟨rfl, rfl⟩ := hs
      refine ⟨hL.nd, hL.here, ?_, ?_, ?_, ?_⟩
      · intro p hp x' h hx
        simp only [AL.look] at hx
        split at hx
        · cases hx; simp
        · exact hL.vars p hp x' h hx
      · intro p hp g G hg
        simp only [AL.look] at hg
        split at hg
        · cases hg; simp
        · exact hL.grps p hp g G hg
      · intro p hp c' hc
        simp only [List.mem_cons] at hc
        rcases hc with hc | hc
        · rw [hc]; simp
        · exact hL.made p hp c' hc
      · intro x' h o hx ho
        simp only [AL.look] at hx ⊢
        split at hx
        · cases hx; simp at ho
        · have := hL.old x' h o hx ho; omega
  | copy x z =>
    simp only [specStep] at hs
    split at hs <;> simp at hs
    obtain ⟨rfl, rfl⟩ := hs
    next h _ hz =>
    refine ⟨hL.nd, hL.here, ?_, hL.grps, hL.made, ?_⟩
    · intro p hp x' h' hx
      simp only [AL.look] at hx
      split at hx
      · cases hx; exact hL.vars p hp z _ hz
      · exact hL.vars p hp x' h' hx
    · intro x' h' o hx ho
      simp only [AL.look] at hx ⊢
      split at hx
      · cases hx; exact hL.old z _ o hz ho
      · exact hL.old x' h' o hx ho
  | destroy x =>
    simp only [specStep] at hs
    split at hs <;> simp at hs
    obtain ⟨rfl, rfl⟩ := hs
    next h hx =>
    have hv : ∀ p ∈ l, ∀ y h, (s.vars.drop x).look y = some h → h.obj ≠ some p.1 := by
      intro p hp y h' hy
      rw [look_drop hS.ndv] at hy
      split at hy
      · cases hy
      · exact hL.vars p hp y h' hy
    have hw : ∀ y h o, (s.vars.drop x).look y = some h → h.obj = some o → o < s.next := by
      intro y h' o hy ho
      rw [look_drop hS.ndv] at hy
      split at hy
      · cases hy
      · exact hL.old y h' o hy ho
    unfold State.collect
    split
    · split
      · exact ⟨hL.nd, hL.here, hv, hL.grps, hL.made, hw⟩
      · next G hG =>
        refine ⟨hL.nd, ?_, hv, ?_, hL.made, hw⟩
        · intro p hp
          simp only at hG ⊢
          rw [if_neg (fun hc => hL.grps p hp _ G hG hc.2)]
          exact hL.here p hp
        · intro p hp g G' hg
          simp only at hg
          rw [look_drop hS.ndg] at hg
          split at hg
          · cases hg
          · exact hL.grps p hp g G' hg
    · exact ⟨hL.nd, hL.here, hv, hL.grps, hL.made, hw⟩
  | useCount x =>
    simp only [specStep] at hs
    split at hs <;> simp at hs
    obtain ⟨rfl, rfl⟩ := hs
    exact hL
  | getDel x k =>
    simp only [specStep] at hs
    split at hs
    · cases hs
    · split at hs
      · simp at hs; obtain ⟨rfl, rfl⟩ := hs; exact hL
      · simp at hs; obtain ⟨rfl, rfl⟩ := hs; exact hL
      · cases hs
  | get x =>
    simp only [specStep] at hs
    split at hs
    · split at hs <;> simp at hs
      obtain ⟨rfl, rfl⟩ := hs
      exact hL
    · cases hs
  | idx x i =>
    simp only [specStep] at hs
    split at hs
    · split at hs
      · split at hs
        · split at hs <;> simp at hs
          obtain ⟨rfl, rfl⟩ := hs
          exact hL
        · cases hs
      · cases hs
    · cases hs
  | idxSet x i v =>
    simp only [specStep] at hs
    split at hs
    · next o _ hx =>
      split at hs
      · split at hs
        · simp at hs
          obtain ⟨rfl, rfl⟩ := hs
          refine ⟨hL.nd, ?_, hL.vars, hL.grps, hL.made, hL.old⟩
          intro p hp
          simp only
          rw [if_neg (fun e => hL.vars p hp x _ hx (by rw [e]))]
          exact hL.here p hp
        · cases hs
      · cases hs
    · cases hs

theorem lost_orphan {s : State V D} {l : List (Lost V)} (hS : SInv virt s) (hL : LostInv s l)
    (hP : Prom frees (fun o => o ∈ l.map (·.1)) s) (y : Nat) (c : Content V) :
    LostInv (s.orphan y c) (l ++ [(s.next, y, c)]) ∧
    Prom frees (fun o => o ∈ (l ++ [(s.next, y, c)]).map (·.1)) (s.orphan y c) := by
  have hlt := hL.lt hS
  have f0 := hS.fresh s.next (Nat.le_refl _)
  have two : ∀ {P : Lost V → Prop}, (∀ p ∈ l, P p) → P (s.next, y, c) → ∀ p ∈ l ++ [(s.next, y, c)], P p := by
    intro P h1 h2 p hp
    simp only [List.mem_append, List.mem_singleton] at hp
    rcases hp with hp | rfl
    · exact h1 p hp
    · exact h2
  refine ⟨⟨?_, two ?_ ?_, two hL.vars ?_, two hL.grps ?_, two hL.made ?_, ?_⟩, ⟨?_, hP.nd, ?_⟩⟩
  · simp only [List.map_append, List.map_cons, List.map_nil]
    rw [List.nodup_append]
    refine ⟨hL.nd, by simp, ?_⟩
    intro a ha b hb
    obtain ⟨p, hp, rfl⟩ := List.mem_map.1 ha
    simp only [List.mem_singleton] at hb
    have := hlt p hp
    omega
  · intro p hp
    have := hlt p hp
    simp only [State.orphan]
    rw [if_neg (by omega)]
    exact hL.here p hp
  · simp only [State.orphan, if_true]
  · intro x h hx e
    exact absurd (hL.old x h _ hx e) (Nat.lt_irrefl _)
  · intro g G h1 h2
    obtain ⟨c, h3, _⟩ := hS.man g G _ h1 h2
    rw [f0.1] at h3
    cases h3
  · intro c hc e
    exact absurd (hP.lt s.next (List.mem_filterMap.2 ⟨c, hc, e⟩)) (Nat.lt_irrefl _)
  · intro x h o hx ho
    have := hL.old x h o hx ho
    simp only [State.orphan]
    omega
  · intro p hp
    have := hP.lt p hp
    simp only [State.orphan]
    omega
  · intro o ho
    simp only [State.orphan] at ho ⊢
    by_cases e : o = s.next
    · exact .inr (.inr (by simp [e]))
    · rw [if_neg e] at ho
      rcases hP.src o ho with h | h | h
      · exact .inl h
      · exact .inr (.inl h)
      · exact .inr (.inr (by
          simp only [List.map_append, List.mem_append]
          exact .inl h))

theorem upset_lost {s s'' : State V D} {l l1 : List (Lost V)} {k : Nat} {op : Op V D} (hS : SInv virt s)
    (hL : LostInv s l) (hP : Prom frees (fun o => o ∈ l.map (·.1)) s) (hu : upset s k op = some (s'', l1)) :
    LostInv s'' (l ++ l1) ∧ Prom frees (fun o => o ∈ (l ++ l1).map (·.1)) s'' ∧ s''.made = s.made := by
  have zero : some (s, ([] : List (Lost V))) = some (s'', l1) →
      LostInv s'' (l ++ l1) ∧ Prom frees (fun o => o ∈ (l ++ l1).map (·.1)) s'' ∧ s''.made = s.made := by
    intro h
    cases h
    rw [List.append_nil]
    exact ⟨hL, hP, rfl⟩
  have one : ∀ y c, some (s.orphan y c, [((s.next, y, c) : Lost V)]) = some (s'', l1) →
      LostInv s'' (l ++ l1) ∧ Prom frees (fun o => o ∈ (l ++ l1).map (·.1)) s'' ∧ s''.made = s.made := by
    intro y c h
    cases h
    obtain ⟨h1, h2⟩ := lost_orphan hS hL hP y c
    exact ⟨h1, h2, rfl⟩
  cases op with
  | make x y c =>
    match k, hu with
    | 0, hu => exact zero hu
    | 1, hu => exact one y c hu
    | k + 2, hu => cases hu
  | makeDel x y c kk d =>
    cases c with
    | some c =>
      match k, hu with
      | 0, hu => exact zero hu
      | 1, hu => exact one y c hu
      | k + 2, hu => cases hu
    | none =>
      match k, hu with
      | 0, hu => exact zero hu
      | k + 1, hu => cases hu
  | _ => cases hu

/-- The deleters given to constructors that did not run out of storage. -/
def givenT : List (Option Nat × Op V D) → List (Nat × D)
  | [] => []
  | (none, .makeDel _ _ _ k d) :: ops => (k, d) :: givenT ops
  | (some (_ + 2), .makeDel _ _ _ k d) :: ops => (k, d) :: givenT ops
  | (some 1, .makeDel _ _ none k d) :: ops => (k, d) :: givenT ops
  | _ :: ops => givenT ops

theorem givenT_ok {s : State V D} {t : Option Nat} {op : Op V D} {ops : List (Option Nat × Op V D)}
    (h : t.bind (fun k => upset s k op) = none) : givenT ((t, op) :: ops) = given [op] ++ givenT ops := by
  cases op with
  | makeDel x y c k d =>
    cases t with
    | none => rfl
    | some n =>
      cases c with
      | none =>
        match n, h with
        | 0, h => simp [upset] at h
        | 1, _ => rfl
        | n + 2, _ => rfl
      | some c =>
        match n, h with
        | 0, h => simp [upset] at h
        | 1, h => simp [upset] at h
        | n + 2, _ => rfl
  | _ => cases t <;> simp [givenT, given]

theorem givenT_fail {s s'' : State V D} {k : Nat} {l : List (Lost V)} {op : Op V D} {ops : List (Option Nat × Op V D)}
    (h : upset s k op = some (s'', l)) : givenT ((some k, op) :: ops) = givenT ops := by
  cases op with
  | makeDel x y c kk d =>
    cases c with
    | none =>
      match k, h with
      | 0, _ => rfl
      | k + 1, h => cases h
    | some c =>
      match k, h with
      | 0, _ => rfl
      | 1, _ => rfl
      | k + 2, h => cases h
  | _ => simp [givenT]

theorem promT_run {ops : List (Option Nat × Op V D)} : ∀ {st : DSt V D} {s s' : State V D}
    {os : List (Option (Out V D))} {l0 l : List (Lost V)}, Inv virt st s → LostInv s l0 →
    Prom frees (fun o => o ∈ l0.map (·.1)) s →
    specRunT frees s ops = some (s', os, l) → SupportedT frees virt s ops →
    LostInv s' (l0 ++ l) ∧ Prom frees (fun o => o ∈ (l0 ++ l).map (·.1)) s' ∧
    (s'.made.map fun c => (c.ty, c.val)).Perm (givenT ops ++ s.made.map fun c => (c.ty, c.val)) := by
  induction ops with
  | nil =>
    intro st s s' os l0 l hI hL hP hs _
    simp only [specRunT, Option.some.injEq, Prod.mk.injEq] at hs
    obtain ⟨rfl, rfl, rfl⟩ := hs
    rw [List.append_nil]
    exact ⟨hL, hP, by simp [givenT]⟩
  | cons p ops ih =>
    obtain ⟨t, op⟩ := p
    intro st s s' os l0 l hI hL hP hs hg
    simp only [specRunT] at hs
    simp only [SupportedT] at hg
    split at hs
    · cases hs
    · next s1 o h1 =>
      rw [h1] at hg
      split at hs
      · next h2 =>
        simp only [h2] at hg
        obtain ⟨r, h3, h4⟩ := Option.map_eq_some_iff.1 hs
        simp only [Prod.mk.injEq] at h4
        obtain ⟨h4, h5, h6⟩ := h4
        subst h4 h6
        obtain ⟨st1, r1, i1⟩ := step_refines hI h1 hg.1
        obtain ⟨p1, q1⟩ := prom_step hI hP h1
        obtain ⟨L2, p2, q2⟩ := ih i1 (lost_step hI.S hL h1) p1 (show _ = some (r.1, r.2.1, r.2.2) from h3) hg.2
        refine ⟨L2, p2, q2.trans ?_⟩
        rw [givenT_ok h2, List.append_assoc]
        exact ((q1.append_left _).trans (List.perm_append_comm_assoc _ _ _))
      · next s2 l1 h2 =>
        simp only [h2] at hg
        obtain ⟨r, h3, h4⟩ := Option.map_eq_some_iff.1 hs
        simp only [Prod.mk.injEq] at h4
        obtain ⟨h4, h5, h6⟩ := h4
        subst h4 h6
        cases t with
        | none => cases h2
        | some k =>
          obtain ⟨st2, r2, i2⟩ := runOp_upset (frees := frees) hI h2
          obtain ⟨L1, p1, e1⟩ := upset_lost hI.S hL hP h2
          obtain ⟨L2, p2, q2⟩ := ih i2 L1 p1 (show _ = some (r.1, r.2.1, r.2.2) from h3) hg.2
          rw [← List.append_assoc, givenT_fail h2, ← e1]
          exact ⟨L2, p2, q2⟩

end Cest.Sdel
