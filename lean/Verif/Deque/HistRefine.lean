import Verif.Deque.HistThrow
/-
Lemmas for C142: steps and programs.
-/
namespace Cest.Deq
open Cest
variable {V : Type}

/-- What a step with countdown `k` does, when it throws and when not. -/
def StepT (K : Nat) (st : DSt V) (e' : Env V) (l' : Lays) (op : Op V) (o : Out V) (k : Nat) : Upset V → Prop
  | .none => ∃ st' σ' t, runOp K op { st with thr := some k } = .ok o { st' with thr := t } ∧
      DW K st' σ' ∧ envOf σ' = e' ∧ LaysOf σ' l'
  | .caught e'' l'' n => ∃ ex t σ', runOp K op { st with thr := some k } = .throw ex t ∧
      Left K t σ' n ∧ envOf σ' = e'' ∧ LaysOf σ' l''
  | .broken => True

section
variable {K : Nat} {st : DSt V} {σ : Nat → Option (DV V)} {e e' : Env V} {l l' : Lays} {op : Op V} {o : Out V} {k : Nat}

/-- An operation with few enough throwing operations ends normally. -/
theorem calm_step (hK : 2 ≤ K) (W : DW K st σ) (he : envOf σ = e) (hl : LaysOf σ l)
    (hs : specStep e op = some (e', o)) (hla : layAfter K e l op = some l')
    {b : Nat} (hb : b ≤ k) (hcost : CostAt (runOp K op) st b) : StepT K st e' l' op o k .none := by
  obtain ⟨st', σ', h1, W', h2, h3⟩ := step_ok hK W he hl hs hla
  obtain ⟨_, d, hd, h4⟩ := hcost.ok h1
  refine ⟨st', σ', some (k - d), ?_, W', h2, h3⟩
  have := h4 (k - d)
  rwa [Nat.sub_add_cancel (by omega)] at this

/-- A throwing operation as a statement. -/
theorem throw_stmt {α β : Type} {m : DM V α} {f : α → DM V β} {s t : DSt V} {ex : Exc} (h : m s = .throw ex t) :
    (m >>= f) s = .throw ex t := by simp only [M.bind_apply, h]

/-- `locate` does not throw. -/
theorem locate_thr (W : DW K st σ) {y i : Nat} {p : Nat × Nat} (h : locate K y i st = .ok p st) (t : Option Nat) :
    locate K y i { st with thr := t } = .ok p { st with thr := t } := by
  cases t with
  | none => rw [set_thr W.thr]; exact h
  | some k => exact cost_zero (locate_cost i st W.thr) h k

/-- `push_back` as a statement. -/
theorem pushBack_step (hK : 2 ≤ K) (W : DW K st σ) (he : envOf σ = e) (hl : LaysOf σ l) {x : Nat} {s : DV V} {v : V}
    (hx : σ x = some s) {r : Ref V} (hr : ∀ st' : DSt V, (∀ a b, st.mem a = some b → st'.mem a = some b) → r.read st' = .ok v st')
    (hop : ∀ t : Option Nat, runOp K op { st with thr := t } =
      (do pushBack K x r; return .unit : DM V (Out V)) { st with thr := t })
    (hla : ((l x).pushB K s.xs.length).map (l.set x) = some l') :
    StepT K st (e.set x (some (s.xs ++ [v]))) l' op .unit k (pushing e l ((l x).allocs ((l x).backFull K s.xs.length)) k) := by
  have h1 := pushBack_at hK W hx hr k
  unfold pushing
  rw [← hl x s hx] at hla ⊢
  change StepT K st _ l' op .unit k (match push (backAllocs K s) k with
    | .ok _ => .none | .caught m => .caught e l m | .broken => .broken)
  cases hp : push (backAllocs K s) k with
  | caught m =>
    rw [hp] at h1
    obtain ⟨t, h2, L⟩ := h1
    exact ⟨_, t, σ, by rw [hop]; exact throw_stmt h2, L, he, hl⟩
  | broken => trivial
  | ok k' =>
    rw [hp] at h1
    obtain ⟨L, hL, rfl⟩ := Option.map_eq_some_iff.1 hla
    obtain ⟨st', h2, W', h3, h4⟩ := h1 L hL
    exact ⟨st', _, some k', by rw [hop]; simp only [M.bind_apply, h4]; rfl, W',
      by rw [envOf_upd, he]; simp [pushB_xs], hl.upd x h3⟩

/-- `push_front` as a statement. -/
theorem pushFront_step (hK : 2 ≤ K) (W : DW K st σ) (he : envOf σ = e) (hl : LaysOf σ l) {x : Nat} {s : DV V} {v : V}
    (hx : σ x = some s) {r : Ref V} (hr : ∀ st' : DSt V, (∀ a b, st.mem a = some b → st'.mem a = some b) → r.read st' = .ok v st')
    (hop : ∀ t : Option Nat, runOp K op { st with thr := t } =
      (do pushFront K x r; return .unit : DM V (Out V)) { st with thr := t }) :
    StepT K st (e.set x (some (v :: s.xs))) (l.set x ((l x).pushF K)) op .unit k
      (pushing e l ((l x).allocs ((l x).first == 0)) k) := by
  have h1 := pushFront_at hK W hx hr k
  unfold pushing
  rw [← hl x s hx]
  change StepT K st _ _ op .unit k (match push (frontAllocs s) k with
    | .ok _ => .none | .caught m => .caught e l m | .broken => .broken)
  cases hp : push (frontAllocs s) k with
  | caught m =>
    rw [hp] at h1
    obtain ⟨t, h2, L⟩ := h1
    exact ⟨_, t, σ, by rw [hop]; exact throw_stmt h2, L, he, hl⟩
  | broken => trivial
  | ok k' =>
    rw [hp] at h1
    obtain ⟨st', h2, W', h4⟩ := h1
    exact ⟨st', _, some k', by rw [hop]; simp only [M.bind_apply, h4]; rfl, W',
      by rw [envOf_upd, he]; simp [pushF_xs], hl.upd x (pushF_lay (W_ne W hx) _ _)⟩

/-- The delegating constructors. -/
theorem building_step (hK : 2 ≤ K) (W : DW K st σ) (he : envOf σ = e) (hl : LaysOf σ l) {x : Nat} {vs : List V}
    (hx : σ x = none) {m : DM V Unit}
    (hop : ∀ t : Option Nat, runOp K op { st with thr := t } =
      (do (do ctor K x; M.onThrow m (dtor K x)); return .unit : DM V (Out V)) { st with thr := t })
    (hm : ∀ st1 k, DW K st1 (upd σ x (some ⟨[st.next], 1, K / 2, []⟩)) →
      SeqT K st1 (upd σ x (some ⟨[st.next], 1, K / 2, []⟩)) x ⟨[st.next], 1, K / 2, []⟩ vs m k
        (pushes K (Lay.init K) 0 vs.length k))
    (hla : ((Lay.init K).pushBs K 0 vs.length).map (l.set x) = some l') :
    StepT K st (e.set x (some vs)) l' op .unit k (building K e l vs.length k) := by
  unfold building
  by_cases hk : k < 2
  · rw [if_pos hk]
    obtain ⟨t, h1, L⟩ := ctor_throw W hx hk
    exact ⟨_, t, σ, by rw [hop]; exact throw_stmt (throw_stmt h1), L, he, hl⟩
  · rw [if_neg hk]
    obtain ⟨st1, h1, W1, h2⟩ := ctor_arm hK W hx
    have h3 := h2 (k - 2)
    rw [Nat.sub_add_cancel (by omega)] at h3
    have h4 := hm st1 (k - 2) W1
    cases hq : pushes K (Lay.init K) 0 vs.length (k - 2) with
    | ok =>
      rw [hq] at h4
      obtain ⟨st2, s2, t, g1, g2, g3, g4⟩ := h4
      obtain ⟨L, hL, rfl⟩ := Option.map_eq_some_iff.1 hla
      have g4' : (Lay.init K).pushBs K 0 vs.length = some (layOf s2) := g4
      rw [hL] at g4'
      refine ⟨st2, _, t, ?_, by rwa [upd_upd] at g2, ?_, hl.upd x (Option.some.inj g4').symm⟩
      · rw [hop]
        simp only [M.bind_apply, h3, M.onThrow, g1]
        rfl
      · rw [envOf_upd, he, Option.map_some, g3]; rfl
    | caught n l1 lost =>
      rw [hq] at h4
      obtain ⟨ex, t, s2, g1, g2, g3, i, g4, g5⟩ := h4
      obtain ⟨t', h5, L⟩ := left_dtor hK g2 (upd_same _ _ _)
      rw [upd_upd, upd_upd, upd_eq_self hx] at L
      refine ⟨ex, t', σ, ?_, L, he, hl⟩
      rw [hop]
      simp only [M.bind_apply, h3, M.onThrow, g1, h5]
    | broken => trivial

theorem step_throws (hK : 2 ≤ K) (W : DW K st σ) (he : envOf σ = e) (hl : LaysOf σ l)
    (hs : specStep e op = some (e', o)) (hla : layAfter K e l op = some l')
    (k : Nat) : StepT K st e' l' op o k (upset K e l k op) := by
  have hs0 := hs
  have hla0 := hla
  have hK0 : 0 < K := by omega
  cases op with
  | popBack x => exact calm_step hK W he hl hs hla (Nat.zero_le _) (popBack_cost st W.thr).ret
  | popFront x => exact calm_step hK W he hl hs hla (Nat.zero_le _) (popFront_cost st W.thr).ret
  | clear x => exact calm_step hK W he hl hs hla (Nat.zero_le _) (clear_cost st W.thr).ret
  | destroy x => exact calm_step hK W he hl hs hla (Nat.zero_le _) (dtor_cost st W.thr).ret
  | size x => exact calm_step hK W he hl hs hla (Nat.zero_le _) (size_cost st W.thr).ret
  | empty x => exact calm_step hK W he hl hs hla (Nat.zero_le _) (empty_cost st W.thr).ret
  | get x i => exact calm_step hK W he hl hs hla (Nat.zero_le _) (get_cost i st W.thr).ret
  | front x => exact calm_step hK W he hl hs hla (Nat.zero_le _) (front_cost st W.thr).ret
  | back x => exact calm_step hK W he hl hs hla (Nat.zero_le _) (back_cost st W.thr).ret
  | toList x =>
    exact calm_step hK W he hl hs hla (Nat.zero_le _) (CostLe.bind (b₁ := 0) (b₂ := 0) size_cost (fun _ =>
      CostLe.bind (b₁ := 0) (b₂ := 0) (toList_cost _) (fun _ => CostLe.pure _)) st W.thr)
  | new x =>
    simp only [specStep] at hs
    split at hs <;> simp at hs
    rename_i hx; obtain ⟨rfl, rfl⟩ := hs
    simp only [layAfter, Option.some.injEq] at hla
    subst hla
    simp only [upset]
    refine building_step hK W he hl (envOf_none he hx) (vs := []) (m := pure ()) (fun t => ?_) (fun st1 k W1 => ?_) rfl
    · simp only [runOp, M.bind_apply, M.onThrow, M.pure_apply]
      cases ctor K x { st with thr := t } <;> rfl
    · exact ⟨st1, _, some k, rfl, by rw [upd_upd]; exact W1, rfl, rfl⟩
  | newList x vs =>
    simp only [specStep] at hs
    split at hs <;> simp at hs
    rename_i hx; obtain ⟨rfl, rfl⟩ := hs
    exact building_step hK W he hl (envOf_none he hx) (vs := vs) (m := pushAll K x vs) (fun t => rfl)
      (fun st1 k W1 => pushAll_throw hK vs W1 (upd_same _ _ _) k) hla
  | newCopy x y =>
    simp only [specStep] at hs
    split at hs <;> simp at hs
    rename_i ys hx hy; obtain ⟨rfl, rfl⟩ := hs
    obtain ⟨sy, hy', rfl⟩ := envOf_some he hy
    have hx' := envOf_none he hx
    have hxy : x ≠ y := by rintro rfl; rw [hx'] at hy'; cases hy'
    simp only [layAfter, hy, Option.getD_some] at hla
    simp only [upset, hy, Option.getD_some]
    have hy1 : (upd σ x (some (⟨[st.next], 1, K / 2, []⟩ : DV V))) y = some sy := by simp [Ne.symm hxy, hy']
    refine building_step hK W he hl hx' (vs := sy.xs) (m := do let n ← size y; pushFrom K x y 0 n) (fun t => rfl)
      (fun st1 k W1 => ?_) hla
    have := pushFrom_throw hK sy.xs.length (i := 0) W1 (upd_same _ _ _) hy1 hxy (by omega) k
    rw [List.drop_zero] at this
    have hsz := cost_zero (size_cost (x := y) st1 W1.thr) (size_spec W1 hy1) k
    have e1 : (do let n ← size y; pushFrom K x y 0 n : DM V Unit) { st1 with thr := some k } =
        pushFrom K x y 0 sy.xs.length { st1 with thr := some k } := by
      simp only [M.bind_apply, hsz]
    have e2 : (layOf (⟨[st.next], 1, K / 2, []⟩ : DV V)) = Lay.init K := init_lay _
    rw [e2] at this
    change SeqT K st1 _ x _ sy.xs (pushFrom K x y 0 sy.xs.length) k (pushes K (Lay.init K) 0 sy.xs.length k) at this
    cases hq : pushes K (Lay.init K) 0 sy.xs.length k with
    | ok => rw [hq] at this; simp only [SeqT] at this ⊢; rw [e1]; exact this
    | caught n l1 m => rw [hq] at this; simp only [SeqT] at this ⊢; rw [e1]; exact this
    | broken => trivial
  | assign x y =>
    simp only [specStep] at hs
    split at hs <;> simp at hs
    rename_i xs ys hx hy; obtain ⟨rfl, rfl⟩ := hs
    obtain ⟨s, hx', rfl⟩ := envOf_some he hx
    obtain ⟨sy, hy', rfl⟩ := envOf_some he hy
    simp only [layAfter] at hla
    split at hla
    · cases hla
    rename_i hxy
    obtain ⟨L, hL, rfl⟩ := Option.map_eq_some_iff.1 hla
    rw [hy, Option.getD_some, ← hl x s hx', ← clear_lay] at hL
    simp only [upset, hy, Option.getD_some]
    rw [← hl x s hx', ← clear_lay]
    obtain ⟨st1, h1, W1⟩ := clear_spec hK W hx'
    have hy1 : (upd σ x (some (s.cleared K))) y = some sy := by simp [Ne.symm hxy, hy']
    have h2 := cost_zero (clear_cost st W.thr) h1 k
    have hsz := cost_zero (size_cost (x := y) st1 W1.thr) (size_spec W1 hy1) k
    have key := pushFrom_throw hK sy.xs.length (i := 0) W1 (upd_same _ _ _) hy1 hxy (by omega) k
    rw [List.drop_zero] at key
    have e1 : Deq.assign K x y { st with thr := some k } = pushFrom K x y 0 sy.xs.length { st1 with thr := some k } := by
      simp only [Deq.assign, M.bind_apply, h2, hsz]
    change SeqT K st1 _ x _ sy.xs _ k (pushes K (layOf (s.cleared K)) 0 sy.xs.length k) at key
    cases hq : pushes K (layOf (s.cleared K)) 0 sy.xs.length k with
    | ok =>
      rw [hq] at key
      obtain ⟨st2, s2, t, g1, g2, g3, g4⟩ := key
      have g4' : (layOf (s.cleared K)).pushBs K 0 sy.xs.length = some (layOf s2) := g4
      rw [hL] at g4'
      refine ⟨st2, _, t, ?_, by rwa [upd_upd] at g2, ?_, hl.upd x (Option.some.inj g4').symm⟩
      · simp only [runOp, M.bind_apply, e1, g1]; rfl
      · rw [envOf_upd, he, Option.map_some, g3]; rfl
    | caught n l1 m =>
      rw [hq] at key
      obtain ⟨ex, t, s2, g1, g2, g3, i, g4, g5⟩ := key
      refine ⟨ex, t, _, throw_stmt (by rw [e1]; exact g1), by rwa [upd_upd] at g2, ?_, hl.upd x g3⟩
      have : n = i := by simpa [DV.cleared] using g4
      subst this
      rw [envOf_upd, he, Option.map_some, g5]; rfl
    | broken => trivial
  | pushBack x v =>
    simp only [specStep] at hs
    split at hs <;> simp at hs
    rename_i xs hx; obtain ⟨rfl, rfl⟩ := hs
    obtain ⟨s, hx', rfl⟩ := envOf_some he hx
    simp only [layAfter, hx, Option.getD_some] at hla
    simp only [upset, hx, Option.getD_some]
    exact pushBack_step hK W he hl hx' (r := .ext v) (fun _ _ => rfl) (fun _ => rfl) hla
  | pushFront x v =>
    simp only [specStep] at hs
    split at hs <;> simp at hs
    rename_i xs hx; obtain ⟨rfl, rfl⟩ := hs
    obtain ⟨s, hx', rfl⟩ := envOf_some he hx
    simp only [layAfter, Option.some.injEq] at hla
    subst hla
    simp only [upset]
    exact pushFront_step hK W he hl hx' (r := .ext v) (fun _ _ => rfl) (fun _ => rfl)
  | pushBackFrom x y i =>
    simp only [specStep] at hs
    split at hs <;> try simp at hs
    rename_i xs ys hx hy
    split at hs <;> simp at hs
    rename_i v hv
    obtain ⟨rfl, rfl⟩ := hs
    obtain ⟨s, hx', rfl⟩ := envOf_some he hx
    obtain ⟨sy, hy', rfl⟩ := envOf_some he hy
    simp only [layAfter, hx, Option.getD_some] at hla
    simp only [upset, hx, Option.getD_some]
    obtain ⟨a, hlo, hr⟩ := cell_read hK0 W hy' hv
    exact pushBack_step hK W he hl hx' hr (fun t => by simp only [runOp, M.bind_apply, locate_thr W hlo]) hla
  | pushFrontFrom x y i =>
    simp only [specStep] at hs
    split at hs <;> try simp at hs
    rename_i xs ys hx hy
    split at hs <;> simp at hs
    rename_i v hv
    obtain ⟨rfl, rfl⟩ := hs
    obtain ⟨s, hx', rfl⟩ := envOf_some he hx
    obtain ⟨sy, hy', rfl⟩ := envOf_some he hy
    simp only [layAfter, Option.some.injEq] at hla
    subst hla
    simp only [upset]
    obtain ⟨a, hlo, hr⟩ := cell_read hK0 W hy' hv
    exact pushFront_step hK W he hl hx' hr (fun t => by simp only [runOp, M.bind_apply, locate_thr W hlo])
  | set x i v =>
    simp only [specStep] at hs
    split at hs <;> simp at hs
    rename_i xs hx
    obtain ⟨s, hx', rfl⟩ := envOf_some he hx
    simp only [upset]
    by_cases hk : k = 0
    · rw [if_pos hk]
      subst hk
      exact ⟨_, st, σ, throw_stmt (set_throw hK W hx' hs.1), left_world W, he, hl⟩
    · rw [if_neg hk]
      exact calm_step hK W he hl hs0 hla0 (by omega) (set_cost i v st W.thr).ret

end

/-! ### Programs -/

/-- Agreement with the specification apart from `n` lost chunks. -/
def AgreeT (K : Nat) (t : DSt V) (e : Env V) (l : Lays) (n : Nat) : Prop :=
  ∃ σ, Left K t σ n ∧ envOf σ = e ∧ LaysOf σ l

theorem runT_refines {K : Nat} (hK : 2 ≤ K) {ops : List (Option Nat × Op V)} : ∀ {st : DSt V} {e e' : Env V} {c c' : Lays}
    {os : List (Option (Out V))} {n m : Nat}, AgreeT K st e c m → specRunT K e c ops = some (e', c', os, n) →
    ∃ st', runT K ops st = .ok os st' ∧ AgreeT K st' e' c' (n + m) := by
  induction ops with
  | nil =>
    intro st e e' c c' os n m A h
    simp only [specRunT, Option.some.injEq, Prod.mk.injEq] at h
    obtain ⟨rfl, rfl, rfl, rfl⟩ := h
    exact ⟨st, rfl, by simpa using A⟩
  | cons a ops ih =>
    obtain ⟨t, op⟩ := a
    intro st e e' c c' os n m ⟨σ, ⟨g, s0, hst, W, L⟩, he, hc⟩ h
    subst hst
    simp only [specRunT] at h
    cases hs : specStep e op with
    | none => rw [hs] at h; cases h
    | some r =>
      obtain ⟨e1, o⟩ := r
      cases hla : layAfter K e c op with
      | none => rw [hs, hla] at h; cases h
      | some l1 =>
      rw [hs, hla] at h
      simp only at h
      -- the operation succeeds
      have good : ∀ s1 σ1, (∃ t', runOp K op { s0 with thr := t } = .ok o { s1 with thr := t' }) → DW K s1 σ1 →
          envOf σ1 = e1 → LaysOf σ1 l1 →
          ((specRunT K e1 l1 ops).map fun r => (r.1, r.2.1, some o :: r.2.2.1, r.2.2.2)) =
            some (e', c', os, n) →
          ∃ st', runT K ((t, op) :: ops) (s0.ext g) = .ok os st' ∧ AgreeT K st' e' c' (n + m) := by
        intro s1 σ1 ⟨t', h1⟩ W1 he1 hc1 h2
        obtain ⟨⟨e2, c2, os2, n2⟩, h3, h4⟩ := Option.map_eq_some_iff.1 h2
        simp only [Prod.mk.injEq] at h4
        obtain ⟨rfl, rfl, rfl, rfl⟩ := h4
        obtain ⟨h5, h6⟩ := (runOp_loc K op).ok (L.thr t).1 h1
        obtain ⟨st', h7, A7⟩ := ih (st := s1.ext g) (m := m)
          ⟨σ1, ⟨g, s1, rfl, W1, ⟨h6, L.2⟩⟩, he1, hc1⟩ h3
        refine ⟨st', ?_, A7⟩
        unfold runT
        simp only [St.ext] at h5 h7 ⊢
        simp only [h5, M.bind_apply]
        rw [W1.thr] at h7
        simp only [h7]
        rfl
      cases t with
      | none =>
        obtain ⟨s1, σ1, h1, W1, he1, hc1⟩ := step_ok hK W he hc hs hla
        refine good s1 σ1 ⟨none, ?_⟩ W1 he1 hc1 h
        rw [set_thr W.thr, set_thr W1.thr]
        exact h1
      | some k =>
        have hk := step_throws hK W he hc hs hla k
        simp only at h
        cases ht : upset K e c k op with
        | none =>
          rw [ht] at h hk
          obtain ⟨s1, σ1, t', h1, W1, he1, hc1⟩ := hk
          exact good s1 σ1 ⟨t', h1⟩ W1 he1 hc1 h
        | broken => rw [ht] at h; cases h
        | caught e1' c1' n1 =>
          rw [ht] at h hk
          obtain ⟨ex, t1, σ1, h1, ⟨g1, s1, rfl, W1, L1⟩, he1, hc1⟩ := hk
          simp only at h
          obtain ⟨⟨e2, c2, os2, n2⟩, h3, h4⟩ := Option.map_eq_some_iff.1 h
          simp only [Prod.mk.injEq] at h4
          obtain ⟨rfl, rfl, rfl, rfl⟩ := h4
          obtain ⟨h5, h6⟩ := (runOp_loc K op).thrown (L.thr (some k)).1 h1
          have LL : Lost (plus g g1) s1 (m + n1) := Lost.plus ⟨h6, L.2⟩ L1
          obtain ⟨st', h7, A7⟩ := ih (st := s1.ext (plus g g1)) (m := m + n1)
            ⟨σ1, ⟨_, s1, rfl, W1, LL⟩, he1, hc1⟩ h3
          refine ⟨st', ?_, by rw [show n1 + n2 + m = n2 + (m + n1) by omega]; exact A7⟩
          unfold runT
          rw [ext_ext] at h5
          simp only [St.ext] at h5 h7 ⊢
          simp only [h5, M.bind_apply]
          rw [W1.thr] at h7
          simp only [h7]
          rfl

end Cest.Deq
