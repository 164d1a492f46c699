import Verif.Vector.HistStep
/-
Lemmas for C141: steps and programs.
-/
namespace Cest.Vec
open Cest
variable {V : Type} [Inhabited V] [BEq V]

/-- What a step with countdown `k` does, when it throws and when not. -/
def StepT (st : VSt V) (e e' : Env V) (c : Caps) (op : Op V) (o : Out V) (k : Nat) : Upset V → Prop
  | .none => ∃ st' σ' t, runOp op { st with thr := some k } = .ok o { st' with thr := t } ∧
      VW st' σ' ∧ envOf σ' = e' ∧ CapsOf σ' (capsAfter e c op)
  | .caught e'' c'' n => ∃ ex t σ', runOp op { st with thr := some k } = .throw ex t ∧
      Left t σ' n ∧ envOf σ' = e'' ∧ CapsOf σ' c''
  | .broken => True

section
variable {st : VSt V} {σ : Nat → Option (AV V)} {e e' : Env V} {c : Caps} {op : Op V} {o : Out V} {k : Nat}

/-- An operation with few enough throwing operations ends normally. -/
theorem calm_step (W : VW st σ) (he : envOf σ = e) (hc : CapsOf σ c) (hs : specStep e op = some (e', o))
    {b : Nat} (hb : b ≤ k) (hcost : CostAt (runOp op) st b) : StepT st e e' c op o k .none := by
  obtain ⟨st', σ', h1, W', h2, h3⟩ := step_ok W he hc hs
  obtain ⟨_, d, hd, h4⟩ := hcost.ok h1
  refine ⟨st', σ', some (k - d), ?_, W', h2, h3⟩
  have := h4 (k - d)
  rwa [Nat.sub_add_cancel (by omega)] at this

omit [Inhabited V] [BEq V] in
/-- A throwing operation as a statement. -/
theorem throw_stmt {α β : Type} {m : VM V α} {f : α → VM V β} {s t : VSt V} {ex : Exc} (h : m s = .throw ex t) :
    (m >>= f) s = .throw ex t := by simp only [M.bind_apply, h]

/-- Growing and then going on. -/
theorem reserve_step (he : envOf σ = e) (hc : CapsOf σ c) {x n : Nat} {s : AV V}
    (hx : σ x = some s) {u : Nat → Upset V}
    (hthrow : s.cap < n → k ≤ s.xs.length → ∃ ex t, runOp op { st with thr := some k } = .throw ex t ∧
      Left t σ (if k = 0 then 0 else 1))
    (hgrow : s.cap < n → ∀ k', k = k' + (s.xs.length + 1) → StepT st e e' c op o k (u k'))
    (hidle : n ≤ s.cap → StepT st e e' c op o k (u k)) :
    StepT st e e' c op o k (reserveUpset e c s.xs.length (c x) n k u) := by
  have hcx := hc x s hx
  unfold reserveUpset
  rw [← hcx]
  by_cases h1 : s.cap < n
  · rw [if_pos h1]
    by_cases h2 : k = 0
    · rw [if_pos h2]
      obtain ⟨ex, t, h3, h4⟩ := hthrow h1 (by omega)
      rw [if_pos h2] at h4
      exact ⟨ex, t, σ, h3, h4, he, hc⟩
    · rw [if_neg h2]
      by_cases h3 : k ≤ s.xs.length
      · rw [if_pos h3]
        obtain ⟨ex, t, h4, h5⟩ := hthrow h1 h3
        rw [if_neg h2] at h5
        exact ⟨ex, t, σ, h4, h5, he, hc⟩
      · rw [if_neg h3]
        exact hgrow h1 _ (by omega)
  · rw [if_neg h1]
    exact hidle (by omega)

/-- The same for `push_back`. -/
theorem push_step (W : VW st σ) (he : envOf σ = e) (hc : CapsOf σ c) {x : Nat} {s : AV V} {r : Ref V}
    (hx : σ x = some s) (hs : specStep e op = some (e', o))
    (hop : ∀ t : Option Nat, runOp op { st with thr := t } =
      (do pushBack x r; return .unit : VM V (Out V)) { st with thr := t }) :
    StepT st e e' c op o k
      (reserveUpset e c s.xs.length (c x) (s.xs.length + 1) k fun k => if k = 0 then .broken else .none) := by
  have hl := W_len W hx
  have hop' : runOp op st = (do pushBack x r; return .unit : VM V (Out V)) st := by
    have := hop st.thr; exact this
  have hcost : CostAt (runOp op) st (growCost s + 1) := by
    have h1 := (pushBack_cost (r := r) (W_obj W hx) W.thr).mono (b' := growCost s + 1) (by
      unfold growCost
      split <;> split <;> (try split) <;> simp_all <;> omega)
    have h2 : CostAt (do pushBack x r; return .unit : VM V (Out V)) st (growCost s + 1) := h1.ret
    obtain ⟨h3, d, hd, h4⟩ := h2
    exact ⟨by rw [hop']; exact h3, d, hd, fun k => by rw [hop, hop']; exact h4 k⟩
  refine reserve_step he hc hx (fun h1 h2 => ?_) (fun h1 k' hk => ?_) (fun h1 => ?_)
  · obtain ⟨ex, t, h3, h4⟩ := pushBack_throw W hx (by omega) h2 r
    exact ⟨ex, t, by rw [hop]; exact throw_stmt h3, h4⟩
  · by_cases h2 : k' = 0
    · rw [if_pos h2]; trivial
    · rw [if_neg h2]
      refine calm_step W he hc hs (b := growCost s + 1) ?_ hcost
      unfold growCost; rw [if_pos (by omega)]; omega
  · by_cases h2 : k = 0
    · rw [if_pos h2]; trivial
    · rw [if_neg h2]
      refine calm_step W he hc hs (b := growCost s + 1) ?_ hcost
      unfold growCost; rw [if_neg (by omega)]; omega

theorem step_throws (W : VW st σ) (he : envOf σ = e) (hc : CapsOf σ c) (hs : specStep e op = some (e', o))
    (k : Nat) : StepT st e e' c op o k (upset e c k op) := by
  have hs0 := hs
  cases op with
  | new x => exact calm_step W he hc hs (Nat.zero_le _) (CostLe.newObj _ _ st W.thr : CostAt (ctor x) st 0).ret
  | newMove x y => exact calm_step W he hc hs (Nat.zero_le _) (moveCtor_cost x y st W.thr).ret
  | moveAssign x y =>
    exact calm_step W he hc hs (Nat.zero_le _) (swap_cost x y st W.thr : CostAt (Vec.moveAssign x y) st 0).ret
  | swap x y => exact calm_step W he hc hs (Nat.zero_le _) (swap_cost x y st W.thr).ret
  | popBack x => exact calm_step W he hc hs (Nat.zero_le _) (popBack_cost x st W.thr).ret
  | clear x => exact calm_step W he hc hs (Nat.zero_le _) (clear_cost x st W.thr).ret
  | destroy x => exact calm_step W he hc hs (Nat.zero_le _) (dtor_cost x st W.thr).ret
  | size x => exact calm_step W he hc hs (Nat.zero_le _) (size_cost x st W.thr).ret
  | empty x => exact calm_step W he hc hs (Nat.zero_le _) (empty_cost x st W.thr).ret
  | get x i => exact calm_step W he hc hs (Nat.zero_le _) (get_cost x i st W.thr).ret
  | at_ x i =>
    refine calm_step W he hc hs (Nat.zero_le _) ?_
    refine CostLe.tryCatch (b₁ := 0) (b₂ := 0) (fun s hs => (at_cost x i s hs).ret) (fun ex => ?_) st W.thr
    cases ex <;> first | exact CostLe.pure _ | exact CostLe.throw _
  | front x => exact calm_step W he hc hs (Nat.zero_le _) (front_cost x st W.thr).ret
  | back x => exact calm_step W he hc hs (Nat.zero_le _) (back_cost x st W.thr).ret
  | toList x => exact calm_step W he hc hs (Nat.zero_le _) (toList_cost x st W.thr).ret
  | eq x y => exact calm_step W he hc hs (Nat.zero_le _) (eq_cost x y st W.thr).ret
  | newN x n =>
    simp only [specStep] at hs
    split at hs <;> simp at hs
    rename_i hx
    have hx' := envOf_none he hx
    simp only [upset]
    by_cases hn : n = 0
    · rw [if_pos hn]
      subst hn
      refine calm_step W he hc hs0 (Nat.zero_le _) ?_
      have : CostAt (ctorN x 0 : VM V Unit) st 0 := by
        have hno := W.dom x hx'
        have key : ∀ t : Option Nat, (ctorN x 0 : VM V Unit) { st with thr := t } =
            .ok () { st with objs := upd st.objs x (some ⟨0, 0, none⟩), thr := t } := by
          intro t
          unfold ctorN ctor reserve
          simp only [M.bind_apply]
          rw [newObj_none (by exact hno)]
          simp [M.onThrow, getObj, setObj, forN, upd_upd]
        refine ⟨?_, 0, Nat.le_refl _, fun k => ?_⟩
        · have := key st.thr
          show Res.Calm (ctorN x 0 { st with thr := st.thr })
          rw [this]; exact W.thr
        · have := key st.thr
          show _ = Res.arm (some k) (ctorN x 0 { st with thr := st.thr })
          rw [key, this]; rfl
      exact this.ret
    · rw [if_neg hn]
      have key : ∀ hk : k ≤ n, ∃ ex t, runOp (.newN x n) { st with thr := some k } = .throw ex t ∧
          Left t σ (if k = 0 then 0 else 1) := by
        intro hk
        obtain ⟨ex, t, h1, h2⟩ := ctorN_throw W hx' hn hk
        exact ⟨ex, t, throw_stmt h1, h2⟩
      by_cases k0 : k = 0
      · rw [if_pos k0]
        obtain ⟨ex, t, h1, h2⟩ := key (by omega)
        rw [if_pos k0] at h2
        exact ⟨ex, t, σ, h1, h2, he, hc⟩
      · rw [if_neg k0]
        by_cases k1 : k ≤ n
        · rw [if_pos k1]
          obtain ⟨ex, t, h1, h2⟩ := key k1
          rw [if_neg k0] at h2
          exact ⟨ex, t, σ, h1, h2, he, hc⟩
        · rw [if_neg k1]
          obtain ⟨st', s', h1, _⟩ := ctorN_spec (n := n) W hx'
          exact calm_step W he hc hs0 (by omega) (ctorN_cost W hx' h1).ret
  | newList x vs =>
    simp only [specStep] at hs
    split at hs <;> simp at hs
    rename_i hx
    have hx' := envOf_none he hx
    obtain ⟨st1, h1, W1⟩ := ctor_spec W hx'
    obtain ⟨st', σ', g1, g2, g3, g4⟩ := step_ok W he hc hs0
    have hno := W.dom x hx'
    have est1 : st1 = { st with objs := upd st.objs x (some ⟨0, 0, none⟩) } := by
      unfold ctor at h1
      rw [newObj_none hno] at h1
      simp only [Res.ok.injEq, true_and] at h1
      exact h1.symm
    have harm : ∀ t : Option Nat, (ctor x : VM V Unit) { st with thr := t } = .ok () { st1 with thr := t } := by
      intro t
      unfold ctor
      rw [newObj_none (by exact hno), est1]
    have key := pushAll_throw (x := x) vs W1 (upd_same _ _ _) k
    simp only [List.length_nil, upd_upd] at key
    simp only [upset]
    cases ha : appendLost 0 0 vs.length k with
    | some n =>
      rw [ha] at key
      obtain ⟨ex, t, t', h2, h3, L⟩ := key
      rw [upd_eq_self hx'] at L
      refine ⟨ex, t', σ, throw_stmt ?_, L, he, hc⟩
      unfold ctorList
      simp only [M.bind_apply, harm, M.onThrow, h2, h3]
    | none =>
      rw [ha] at key
      obtain ⟨s2, t, h2, h3⟩ := key
      have e1 : runOp (.newList x vs) st = .ok .unit s2 := by
        simp only [runOp, ctorList, M.bind_apply, h1, M.onThrow, h2]; rfl
      rw [e1] at g1
      cases g1
      refine ⟨st', σ', t, ?_, g2, g3, g4⟩
      simp only [runOp, ctorList, M.bind_apply, harm, M.onThrow, h3]; rfl
  | newCopy x y =>
    simp only [specStep] at hs
    split at hs <;> simp at hs
    rename_i ys hx hy
    obtain ⟨s, hy', rfl⟩ := envOf_some he hy
    have hx' := envOf_none he hx
    have hl := W_len W hy'
    simp only [upset, hy]
    rw [← hc y s hy']
    by_cases h0 : s.cap = 0
    · rw [if_pos h0]
      refine calm_step W he hc hs0 (Nat.zero_le _) ?_
      have hno := W.dom x hx'
      have hyx : y ≠ x := by intro hh; subst hh; simp [hx'] at hy'
      have hoy := W_obj W hy'
      have hxs : s.xs.length = 0 := by omega
      rw [h0, hxs] at hoy
      have key : ∀ t : Option Nat, (copyCtor x y : VM V Unit) { st with thr := t } =
          .ok () { st with objs := upd st.objs x (some ⟨0, 0, none⟩), thr := t } := by
        intro t
        unfold copyCtor ctor reserve
        simp only [M.bind_apply]
        rw [newObj_none (by exact hno)]
        simp [M.onThrow, getObj, setObj, forN, upd_upd, hyx, hoy]
      have : CostAt (copyCtor x y : VM V Unit) st 0 := by
        refine ⟨?_, 0, Nat.le_refl _, fun k => ?_⟩
        · have := key st.thr
          show Res.Calm (copyCtor x y { st with thr := st.thr })
          rw [this]; exact W.thr
        · have := key st.thr
          show _ = Res.arm (some k) (copyCtor x y { st with thr := st.thr })
          rw [key, this]; rfl
      exact this.ret
    · rw [if_neg h0]
      by_cases k0 : k = 0
      · rw [if_pos k0]
        subst k0
        exact ⟨_, _, σ, throw_stmt (copyCtor_bad_alloc W hx' hy' h0), left_world W, he, hc⟩
      · rw [if_neg k0]
        by_cases k1 : k ≤ s.xs.length
        · rw [if_pos k1]; trivial
        · rw [if_neg k1]
          obtain ⟨st', h1, _⟩ := copyCtor_spec W hx' hy'
          exact calm_step W he hc hs0 (by omega) (copyCtor_cost W hx' hy' h1).ret
  | assign x y =>
    simp only [specStep] at hs
    split at hs <;> simp at hs
    rename_i xs ys hx hy
    obtain ⟨s, hx', rfl⟩ := envOf_some he hx
    obtain ⟨sy, hy', rfl⟩ := envOf_some he hy
    simp only [upset, hx, hy]
    have hcx := hc x s hx'
    have hcy := hc y sy hy'
    rw [← hcy]
    have hcost : CostAt (runOp (.assign x y)) st _ := (copyAssign_cost' W hx' hy').ret
    refine reserve_step he hc hx' (fun h1 h2 => ?_) (fun h1 k' hk => ?_) (fun h1 => ?_)
    · obtain ⟨ex, t, h3, h4⟩ := reserve_throw W hx' h1 h2
      refine ⟨ex, t, throw_stmt ?_, h4⟩
      unfold copyAssign
      simp only [M.bind_apply]
      rw [getObj_some (by exact W_obj W hy')]
      simp only [h3]
    · by_cases h2 : sy.xs.length ≤ k'
      · rw [if_pos h2]
        rw [if_pos h1] at hcost
        exact calm_step W he hc hs0 (by omega) hcost
      · rw [if_neg h2]
        by_cases h3 : k' ≤ s.xs.length
        · rw [if_pos h3]
          obtain ⟨st1, W1, h4⟩ := copyAssign_reserved W hx' hy' h1
          have hyx : y ≠ x := by intro hh; subst hh; rw [hx'] at hy'; cases hy'; omega
          obtain ⟨t, h5, L⟩ := copyAssign_throw W1 (upd_same _ _ _) (y := y) (sy := sy) (by simp [hyx, hy'])
            (Nat.le_refl _) (by omega) h3
          rw [upd_upd] at L
          refine ⟨.elem, t, _, throw_stmt ?_, L, by rw [envOf_upd, he]; rfl, hc.upd x ?_⟩
          · rw [hk, h4, h5]
          · show sy.cap = _; omega
        · rw [if_neg h3]; trivial
    · by_cases h2 : sy.xs.length ≤ k
      · rw [if_pos h2]
        rw [if_neg (by omega)] at hcost
        exact calm_step W he hc hs0 (by omega) hcost
      · rw [if_neg h2]
        by_cases h3 : k ≤ s.xs.length
        · rw [if_pos h3]
          obtain ⟨t, h5, L⟩ := copyAssign_throw W hx' hy' h1 (by omega) h3
          refine ⟨_, t, _, throw_stmt h5, L, by rw [envOf_upd, he]; rfl, hc.upd x ?_⟩
          show s.cap = _; omega
        · rw [if_neg h3]; trivial
  | pushBack x v =>
    simp only [specStep] at hs
    split at hs <;> simp at hs
    rename_i xs hx
    obtain ⟨s, hx', rfl⟩ := envOf_some he hx
    simp only [upset, hx]
    exact push_step W he hc hx' hs0 (fun _ => rfl)
  | pushBackFrom x y i =>
    simp only [specStep] at hs
    split at hs <;> try simp at hs
    rename_i xs ys hx hy
    obtain ⟨s, hx', rfl⟩ := envOf_some he hx
    obtain ⟨sy, hy', rfl⟩ := envOf_some he hy
    simp only [upset, hx]
    refine push_step (r := .cell sy.p i) W he hc hx' hs0 (fun t => ?_)
    simp only [runOp, M.bind_apply]
    rw [getObj_some (by exact W_obj W hy')]
  | resize x n =>
    simp only [specStep] at hs
    split at hs <;> simp at hs
    rename_i xs hx
    obtain ⟨s, hx', rfl⟩ := envOf_some he hx
    simp only [upset, hx]
    by_cases hn : n ≤ s.xs.length
    · rw [if_pos hn]
      have := resize_cost (n := n) W hx'
      rw [if_pos hn] at this
      exact calm_step W he hc hs0 (Nat.zero_le _) this.ret
    · rw [if_neg hn]
      have hcost : CostAt (runOp (.resize x n)) st _ := (resize_cost' W hx' (Nat.not_le.mp hn)).ret
      refine reserve_step he hc hx' (fun h1 h2 => ?_) (fun h1 k' hk => ?_) (fun h1 => ?_)
      · obtain ⟨ex, t, h3, h4⟩ := reserve_throw W hx' h1 h2
        refine ⟨ex, t, throw_stmt ?_, h4⟩
        unfold resize
        simp only [M.bind_apply]
        rw [getObj_some (by exact W_obj W hx')]
        simp only []
        rw [if_pos (by omega)]
        simp only [M.bind_apply, h3]
      · by_cases h2 : k' = 0
        · rw [if_pos h2]
          obtain ⟨st1, W1, h4⟩ := resize_reserved W hx' h1
          have h5 := resize_throw W1 (upd_same _ _ _) (Nat.not_le.mp hn) (Nat.le_refl _)
          refine ⟨.elem, st1, _, throw_stmt ?_, left_world W1, ?_, hc.upd x ?_⟩
          · rw [hk, h4, h2]; exact h5
          · rw [envOf_upd, he]
            funext z; simp only [Env.set]; split
            · subst_vars; simp [hx]
            · rfl
          · show n = _; rw [← hc x s hx']; omega
        · rw [if_neg h2]
          by_cases h3 : k' < n - s.xs.length
          · rw [if_pos h3]; trivial
          · rw [if_neg h3]
            rw [if_pos h1] at hcost
            exact calm_step W he hc hs0 (by omega) hcost
      · by_cases h2 : k = 0
        · rw [if_pos h2]
          have h5 := resize_throw W hx' (Nat.not_le.mp hn) h1
          refine ⟨.elem, st, σ, throw_stmt ?_, left_world W, he, ?_⟩
          · rw [h2]; exact h5
          · have := hc.upd x (s := s) (n := max (c x) n) (by rw [hc x s hx']; have := hc x s hx'; omega)
            rwa [upd_eq_self hx'] at this
        · rw [if_neg h2]
          by_cases h3 : k < n - s.xs.length
          · rw [if_pos h3]; trivial
          · rw [if_neg h3]
            rw [if_neg (by omega)] at hcost
            exact calm_step W he hc hs0 (by omega) hcost
  | reserve x n =>
    simp only [specStep] at hs
    split at hs <;> simp at hs
    rename_i xs hx
    obtain ⟨s, hx', rfl⟩ := envOf_some he hx
    simp only [upset, hx]
    have hcost : CostAt (runOp (.reserve x n)) st _ := (reserve_cost (W_obj W hx') W.thr).ret
    refine reserve_step he hc hx' (fun h1 h2 => ?_) (fun h1 k' hk => ?_) (fun h1 => ?_)
    · obtain ⟨ex, t, h3, h4⟩ := reserve_throw W hx' h1 h2
      exact ⟨ex, t, throw_stmt h3, h4⟩
    · rw [if_pos (by exact h1)] at hcost
      exact calm_step W he hc hs0 (by simp only []; omega) hcost
    · rw [if_neg (by exact Nat.not_lt.mpr h1)] at hcost
      exact calm_step W he hc hs0 (by omega) hcost
  | erase x i j =>
    simp only [specStep] at hs
    split at hs <;> simp at hs
    rename_i xs hx
    obtain ⟨s, hx', rfl⟩ := envOf_some he hx
    simp only [upset, hx]
    by_cases hk : k < s.xs.length - j
    · rw [if_pos hk]
      obtain ⟨t, h1, L⟩ := erase_throw W hx' hs.1.1 hk
      exact ⟨_, t, _, throw_stmt h1, L, by rw [envOf_upd, he]; rfl, hc.keep hx' rfl⟩
    · rw [if_neg hk]
      exact calm_step W he hc hs0 (by simp only []; omega) (erase_cost (W_obj W hx') W.thr).ret
  | set x i v =>
    simp only [specStep] at hs
    split at hs <;> simp at hs
    rename_i xs hx
    obtain ⟨s, hx', rfl⟩ := envOf_some he hx
    simp only [upset]
    by_cases hk : k = 0
    · rw [if_pos hk]
      subst hk
      exact ⟨_, st, σ, throw_stmt (set_throw W hx' hs.1 v), left_world W, he, hc⟩
    · rw [if_neg hk]
      exact calm_step W he hc hs0 (by omega) (set_cost x i v st W.thr).ret

end

/-! ### Programs -/

/-- Agreement with the specification apart from `n` lost blocks. -/
def AgreeT (t : VSt V) (e : Env V) (c : Caps) (n : Nat) : Prop :=
  ∃ σ, Left t σ n ∧ envOf σ = e ∧ CapsOf σ c

theorem runT_refines {ops : List (Option Nat × Op V)} : ∀ {st : VSt V} {e e' : Env V} {c c' : Caps}
    {os : List (Option (Out V))} {n m : Nat}, AgreeT st e c m → specRunT e c ops = some (e', c', os, n) →
    ∃ st', runT ops st = .ok os st' ∧ AgreeT st' e' c' (n + m) := by
  induction ops with
  | nil =>
    intro st e e' c c' os n m A h
    simp only [specRunT, Option.some.injEq, Prod.mk.injEq] at h
    obtain ⟨rfl, rfl, rfl, rfl⟩ := h
    exact ⟨st, rfl, by simpa using A⟩
  | cons a ops ih =>
    obtain ⟨t, op⟩ := a
    intro st e e' c c' os n m ⟨σ, ⟨g, s0, hst, W, L⟩, he, hc⟩ h
    subst hst
    simp only [specRunT] at h
    cases hs : specStep e op with
    | none => rw [hs] at h; cases h
    | some r =>
      obtain ⟨e1, o⟩ := r
      rw [hs] at h
      simp only at h
      -- the operation succeeds
      have good : ∀ s1 σ1, (∃ t', runOp op { s0 with thr := t } = .ok o { s1 with thr := t' }) → VW s1 σ1 →
          envOf σ1 = e1 → CapsOf σ1 (capsAfter e c op) →
          ((specRunT e1 (capsAfter e c op) ops).map fun r => (r.1, r.2.1, some o :: r.2.2.1, r.2.2.2)) =
            some (e', c', os, n) →
          ∃ st', runT ((t, op) :: ops) (s0.ext g) = .ok os st' ∧ AgreeT st' e' c' (n + m) := by
        intro s1 σ1 ⟨t', h1⟩ W1 he1 hc1 h2
        obtain ⟨⟨e2, c2, os2, n2⟩, h3, h4⟩ := Option.map_eq_some_iff.1 h2
        simp only [Prod.mk.injEq] at h4
        obtain ⟨rfl, rfl, rfl, rfl⟩ := h4
        obtain ⟨h5, h6⟩ := (runOp_loc op).ok (L.thr t).1 h1
        obtain ⟨st', h7, A7⟩ := ih (st := s1.ext g) (m := m)
          ⟨σ1, ⟨g, s1, rfl, W1, ⟨h6, L.2⟩⟩, he1, hc1⟩ h3
        refine ⟨st', ?_, A7⟩
        unfold runT
        simp only [St.ext] at h5 h7 ⊢
        simp only [h5, M.bind_apply]
        rw [W1.thr] at h7
        simp only [h7]
        rfl
      cases t with
      | none =>
        obtain ⟨s1, σ1, h1, W1, he1, hc1⟩ := step_ok W he hc hs
        refine good s1 σ1 ⟨none, ?_⟩ W1 he1 hc1 h
        rw [st_thr W.thr, st_thr W1.thr]
        exact h1
      | some k =>
        have hk := step_throws W he hc hs k
        simp only at h
        cases ht : upset e c k op with
        | none =>
          rw [ht] at h hk
          obtain ⟨s1, σ1, t', h1, W1, he1, hc1⟩ := hk
          exact good s1 σ1 ⟨t', h1⟩ W1 he1 hc1 h
        | broken => rw [ht] at h; cases h
        | caught e1' c1' n1 =>
          rw [ht] at h hk
          obtain ⟨ex, t1, σ1, h1, ⟨g1, s1, rfl, W1, L1⟩, he1, hc1⟩ := hk
          simp only at h
          obtain ⟨⟨e2, c2, os2, n2⟩, h3, h4⟩ := Option.map_eq_some_iff.1 h
          simp only [Prod.mk.injEq] at h4
          obtain ⟨rfl, rfl, rfl, rfl⟩ := h4
          obtain ⟨h5, h6⟩ := (runOp_loc op).thrown (L.thr (some k)).1 h1
          have LL : Lost (plus g g1) s1 (m + n1) := Lost.plus ⟨h6, L.2⟩ L1
          obtain ⟨st', h7, A7⟩ := ih (st := s1.ext (plus g g1)) (m := m + n1)
            ⟨σ1, ⟨_, s1, rfl, W1, LL⟩, he1, hc1⟩ h3
          refine ⟨st', ?_, by rw [show n1 + n2 + m = n2 + (m + n1) by omega]; exact A7⟩
          unfold runT
          rw [ext_ext] at h5
          simp only [St.ext] at h5 h7 ⊢
          simp only [h5, M.bind_apply]
          rw [W1.thr] at h7
          simp only [h7]
          rfl

end Cest.Vec
