import Verif.Vector.Hist
/-
Lemmas for C141: what one vector operation does when the `k`-th allocation or element copy throws.
-/
namespace Cest.Vec
open Cest
variable {V α : Type}

/-- The number of throwing operations is known from where the last one throws. -/
theorem cost_exact {m : VM V α} {s s' : VSt V} {a : α} {b : Nat} (h : CostAt m s b) (hm : m s = .ok a s')
    (hb : 0 < b → ∃ ex t, m { s with thr := some (b - 1) } = .throw ex t) (k : Nat) :
    m { s with thr := some (k + b) } = .ok a { s' with thr := some k } := by
  obtain ⟨_, c, hc, h2⟩ := h.ok hm
  by_cases hcb : c = b
  · subst hcb; exact h2 k
  · obtain ⟨ex, t, h3⟩ := hb (by omega)
    have := h2 (b - 1 - c)
    rw [show b - 1 - c + c = b - 1 by omega, h3] at this
    cases this

/-! ### Garbage -/

/-- A single leaked block. -/
def one (a : Nat) (b : Blk V) : Nat → Option (Blk V) := fun c => if c = a then some b else none

theorem lost_one {st : VSt V} {a : Nat} {b : Blk V} (h1 : st.mem a = none) (h2 : a < st.next) :
    Lost (one a b) st 1 := by
  refine ⟨fun c hc => ?_, [a], by simp, rfl, fun c => ?_⟩
  · simp only [one] at hc
    split at hc
    · rename_i h; subst h; exact ⟨h1, h2⟩
    · exact absurd rfl hc
  · simp only [one, List.mem_singleton]
    split <;> simp_all

theorem ext_one {st : VSt V} {a : Nat} {b : Blk V} :
    st.ext (one a b) = { st with mem := upd st.mem a (some b) } := by
  simp only [St.ext, one]
  congr 1
  funext c
  simp only [upd]
  split <;> simp_all

/-- What an operation that throws leaves behind. -/
def Left (t : VSt V) (σ : Nat → Option (AV V)) (n : Nat) : Prop :=
  ∃ h s0, t = s0.ext h ∧ VW s0 σ ∧ Lost h s0 n

theorem left_world {st : VSt V} {σ : Nat → Option (AV V)} (W : VW st σ) : Left st σ 0 :=
  ⟨noGarbage, st, rfl, W, lost_none st⟩

/-- A fresh block is leaked. -/
theorem left_fresh {st : VSt V} {σ : Nat → Option (AV V)} (W : VW st σ) (b : Blk V) :
    Left { st with mem := upd st.mem st.next (some b), next := st.next + 1 } σ 1 := by
  refine ⟨one st.next b, { st with next := st.next + 1 }, by rw [ext_one], ?_, lost_one ?_ ?_⟩
  · exact ⟨W.dom, W.rep, W.disj, W.own, fun a ha => W.fresh a (by have : st.next + 1 ≤ a := ha; omega), W.thr⟩
  · exact W.fresh _ (Nat.le_refl _)
  · exact Nat.lt_succ_self _

/-- A variable disappears without its destructor: its storage is leaked. -/
theorem left_drop {st : VSt V} {σ : Nat → Option (AV V)} (W : VW st σ) {x : Nat} {s : AV V} (h : σ x = some s)
    (o : Obj) : ∃ t, delObj x { st with objs := upd st.objs x (some o) } = .ok () t ∧
      Left t (upd σ x none) (if s.cap = 0 then 0 else 1) := by
  refine ⟨_, delObj_some (by exact upd_same _ _ _), ?_⟩
  simp only [upd_upd]
  obtain ⟨xs, c, p⟩ := s
  cases p with
  | none =>
    obtain ⟨rfl, rfl⟩ := W_null W h
    refine ⟨noGarbage, { st with objs := upd st.objs x none }, rfl, W.stepDel x rfl ?_ ?_ ?_ W.thr, lost_none _⟩
    · intros; rfl
    · intro a ha; simp [h] at ha
    · exact W.fresh
  | some a =>
    obtain ⟨hm, hc⟩ := W_mem W h
    have hlt := W_lt W h
    rw [if_neg hc]
    refine ⟨one a (arr c xs), { st with objs := upd st.objs x none, mem := upd st.mem a none }, ?_,
      W.stepDel x rfl ?_ ?_ ?_ W.thr, lost_one (by exact upd_same _ _ _) (by exact hlt)⟩
    · rw [ext_one]
      simp only [upd_upd]
      rw [upd_eq_self hm]
    · intro b hb; simp [h] at hb; simp [hb]
    · intro b hb; simp [h] at hb; simp [hb]
    · intro b hb; simp at hb ⊢; intro _; exact W.fresh b hb

theorem left_drop' {st : VSt V} {σ : Nat → Option (AV V)} (W : VW st σ) {x : Nat} {s : AV V} (h : σ x = some s) :
    ∃ t, delObj x st = .ok () t ∧ Left t (upd σ x none) (if s.cap = 0 then 0 else 1) := by
  have := left_drop W h ⟨s.xs.length, s.cap, s.p⟩
  rwa [upd_eq_self (W_obj W h)] at this

/-- The same with garbage around. -/
theorem left_drop_ext {t : VSt V} {σ : Nat → Option (AV V)} {n : Nat} (L : Left t σ n) {x : Nat} {s : AV V}
    (h : σ x = some s) : ∃ t', delObj x t = .ok () t' ∧
      Left t' (upd σ x none) (n + (if s.cap = 0 then 0 else 1)) := by
  obtain ⟨g, s0, rfl, W, L⟩ := L
  obtain ⟨t', h1, g', s1, rfl, W', L'⟩ := left_drop' W h
  obtain ⟨h2, h3⟩ := (Local.delObj x).ok L.1 h1
  refine ⟨_, h2, plus g g', s1, ext_ext _ _ _, W', ?_⟩
  exact Lost.plus ⟨h3, L.2⟩ L'

/-! ### reserve -/

section
variable {st : VSt V} {σ : Nat → Option (AV V)} {x : Nat} {s : AV V}

theorem reserve_idle (W : VW st σ) (h : σ x = some s) {n : Nat} (hn : n ≤ s.cap) (t : Option Nat) :
    reserve x n { st with thr := t } = .ok () { st with thr := t } := by
  unfold reserve
  simp only [M.bind_apply]
  rw [getObj_some (by exact W_obj W h)]
  simp only []
  rw [if_neg (by omega)]
  rfl

theorem reserve_bad_alloc (W : VW st σ) (h : σ x = some s) {n : Nat} (hn : s.cap < n) :
    reserve x n { st with thr := some 0 } = .throw .badAlloc st := by
  unfold reserve
  simp only [M.bind_apply]
  rw [getObj_some (by exact W_obj W h)]
  simp only []
  rw [if_pos hn]
  simp only [M.bind_apply, allocArr, allocC, tick]
  simp only [st_thr W.thr]

theorem reserve_leak (W : VW st σ) (hs : σ x = some s) {n k : Nat} (hn : s.cap < n) (hk : k < s.xs.length) :
    reserve x n { st with thr := some (k+1) } =
      .throw .elem { st with mem := upd st.mem st.next (some (arr n (s.xs.take k))),
                             next := st.next + 1 } := by
  obtain ⟨xs, c, p⟩ := s
  have ho := W_obj W hs
  have hl := W_len W hs
  simp only [] at ho hl hk hn ⊢
  cases p with
  | none => have := (W_null W hs).2; simp [this] at hk
  | some a =>
    obtain ⟨hm, hc⟩ := W_mem W hs
    have hlt := W_lt W hs
    have hne : a ≠ st.next := by omega
    have ht := copyLoop_throw (O := Obj)
      (s := { st with mem := upd st.mem st.next (some (arr n [])), next := st.next + 1, thr := some k })
      (a := a) (q := st.next) (c := c) (n := n) (i := 0) (m := xs.length) (xs := xs) (ys := [])
      (k := k) hne (by simp [hne, hm]) hl (by simp) rfl (by omega) (by omega) (by omega) rfl
    simp only [List.nil_append, List.drop_zero, upd_upd] at ht
    unfold reserve
    simp only [M.bind_apply]
    rw [getObj_some (by exact ho)]
    simp only []
    rw [if_pos hn]
    simp only [M.bind_apply, allocArr, allocC, tick]
    have e : (⟨n, fun _ => none⟩ : Blk V) = arr n [] := by
      refine Blk.ext' (by rfl) ?_; intro i; simp
    rw [e, ht]
    have := W.thr
    cases st; simp_all

/-- `reserve` that throws: nothing changes, but new storage may be lost. -/
theorem reserve_throw (W : VW st σ) (h : σ x = some s) {n k : Nat} (hn : s.cap < n) (hk : k ≤ s.xs.length) :
    ∃ ex t, reserve x n { st with thr := some k } = .throw ex t ∧ Left t σ (if k = 0 then 0 else 1) := by
  cases k with
  | zero => exact ⟨_, _, reserve_bad_alloc W h hn, left_world W⟩
  | succ k => exact ⟨_, _, reserve_leak W h hn hk, left_fresh W _⟩

theorem reserve_arm (W : VW st σ) (h : σ x = some s) {n : Nat} (hn : s.cap < n) :
    ∃ st', reserve x n st = .ok () st' ∧ VW st' (upd σ x (some (s.reserve n st.next))) ∧
      ∀ k, reserve x n { st with thr := some (k + (s.xs.length + 1)) } = .ok () { st' with thr := some k } := by
  obtain ⟨st', h1, W'⟩ := reserve_spec (n := n) W h
  refine ⟨st', h1, W', cost_exact ((reserve_cost (W_obj W h) W.thr).mono ?_) h1 fun _ => ?_⟩
  · simp only [hn, if_true]; omega
  · obtain ⟨ex, t, h2, _⟩ := reserve_throw W h hn (Nat.le_refl _)
    exact ⟨ex, t, h2⟩

/-! ### push_back -/

/-- The operations that may throw in the growth step. -/
def growCost (s : AV V) : Nat := if s.cap = s.xs.length then s.xs.length + 1 else 0

theorem grow_throw (W : VW st σ) (h : σ x = some s) (hf : s.cap = s.xs.length) {k : Nat} (hk : k ≤ s.xs.length) :
    ∃ ex t, grow x { st with thr := some k } = .throw ex t ∧ Left t σ (if k = 0 then 0 else 1) := by
  unfold grow
  simp only [M.bind_apply]
  rw [getObj_some (by exact W_obj W h)]
  simp only []
  by_cases h0 : 0 = s.cap
  · rw [if_pos h0]
    exact reserve_throw W h (by omega) hk
  · rw [if_neg h0, if_pos hf]
    exact reserve_throw W h (by omega) hk

theorem grow_arm (W : VW st σ) (h : σ x = some s) (v : V) :
    ∃ st1 c a, grow x st = .ok () st1 ∧ VW st1 (upd σ x (some ⟨s.xs, c, some a⟩)) ∧ s.xs.length < c ∧
      s.push v st.next = ⟨s.xs ++ [v], c, some a⟩ ∧
      ∀ k, grow x { st with thr := some (k + growCost s) } = .ok () { st1 with thr := some k } := by
  obtain ⟨st1, c, a, h1, W1, hl, _, hp⟩ := grow_spec v W h
  refine ⟨st1, c, a, h1, W1, hl, hp, cost_exact ((grow_cost (W_obj W h) W.thr).mono ?_) h1 fun hb => ?_⟩
  · have := W_len W h
    unfold growCost
    split <;> split <;> (try split) <;> simp_all <;> omega
  · unfold growCost at hb ⊢
    split at hb
    · rename_i hf
      rw [if_pos hf]
      obtain ⟨ex, t, h2, _⟩ := grow_throw W h hf (Nat.le_refl _)
      exact ⟨ex, t, h2⟩
    · omega

/-- `push_back` that throws in the growth step. -/
theorem pushBack_throw (W : VW st σ) (h : σ x = some s) (hf : s.cap = s.xs.length) {k : Nat}
    (hk : k ≤ s.xs.length) (r : Ref V) :
    ∃ ex t, pushBack x r { st with thr := some k } = .throw ex t ∧ Left t σ (if k = 0 then 0 else 1) := by
  obtain ⟨ex, t, h1, h2⟩ := grow_throw W h hf hk
  refine ⟨ex, t, ?_, h2⟩
  unfold pushBack
  simp only [M.bind_apply, h1]

/-- `push_back` whose element copy throws: the size counts an element that is not there. -/
theorem pushBack_elem (W : VW st σ) (h : σ x = some s) (v : V) :
    ∃ st1 c a o, pushBack x (.ext v) { st with thr := some (growCost s) } =
        .throw .elem { st1 with objs := upd st1.objs x (some o) } ∧
      VW st1 (upd σ x (some ⟨s.xs, c, some a⟩)) := by
  obtain ⟨st1, c, a, h1, W1, hl, hp, hk⟩ := grow_arm W h v
  have hx1 : (upd σ x (some ⟨s.xs, c, some a⟩)) x = some ⟨s.xs, c, some a⟩ := upd_same _ _ _
  have ho1 := W_obj W1 hx1
  obtain ⟨hm, hc⟩ := W_mem W1 hx1
  refine ⟨st1, c, a, ⟨s.xs.length + 1, c, some a⟩, ?_, W1⟩
  have h0 := hk 0
  rw [Nat.zero_add] at h0
  unfold pushBack
  simp only [M.bind_apply, h0]
  rw [getObj_some (by exact ho1)]
  simp only []
  rw [setObj_some (by exact ho1)]
  simp only [Ref.read, M.pure_apply]
  rw [constructAt_throw (by exact hm) rfl hl (by rfl)]
  simp only
  congr 2
  exact W1.thr.symm

theorem pushBack_arm (W : VW st σ) (h : σ x = some s) (v : V) :
    ∃ st', pushBack x (.ext v) st = .ok () st' ∧ VW st' (upd σ x (some (s.push v st.next))) ∧
      ∀ k, pushBack x (.ext v) { st with thr := some (k + (growCost s + 1)) } = .ok () { st' with thr := some k } := by
  obtain ⟨st', h1, W'⟩ := pushBack_ext (v := v) W h
  refine ⟨st', h1, W', cost_exact ((pushBack_cost (W_obj W h) W.thr).mono ?_) h1 fun _ => ?_⟩
  · have := W_len W h
    unfold growCost
    split <;> split <;> (try split) <;> simp_all <;> omega
  · obtain ⟨_, _, _, _, h2, _⟩ := pushBack_elem W h v
    exact ⟨_, _, h2⟩

/-! ### The initializer-list constructor -/

theorem pushAll_throw (vs : List V) : ∀ {st : VSt V} {σ : Nat → Option (AV V)} {s : AV V}, VW st σ → σ x = some s →
    ∀ k, match appendLost s.cap s.xs.length vs.length k with
    | some n => ∃ ex t t', pushAll x vs { st with thr := some k } = .throw ex t ∧
        delObj x t = .ok () t' ∧ Left t' (upd σ x none) n
    | none => ∃ st' t, pushAll x vs st = .ok () st' ∧
        pushAll x vs { st with thr := some k } = .ok () { st' with thr := t } := by
  induction vs with
  | nil => intro st σ s W h k; exact ⟨st, some k, rfl, rfl⟩
  | cons v vs ih =>
    intro st σ s W h k
    have hl := W_len W h
    -- the element is appended
    have good : ∀ k', k = k' + (growCost s + 1) →
        match appendLost (pushCap s.cap s.xs.length) (s.xs.length + 1) vs.length k' with
        | some n => ∃ ex t t', pushAll x (v :: vs) { st with thr := some k } = .throw ex t ∧
            delObj x t = .ok () t' ∧ Left t' (upd σ x none) n
        | none => ∃ st' t, pushAll x (v :: vs) st = .ok () st' ∧
            pushAll x (v :: vs) { st with thr := some k } = .ok () { st' with thr := t } := by
      intro k' hk
      subst hk
      obtain ⟨st1, h1, W1, h2⟩ := pushBack_arm W h v
      have := ih W1 (upd_same _ _ _) k'
      simp only [AV.push, List.length_append, List.length_singleton, upd_upd] at this
      unfold pushCap
      simp only [pushAll, M.bind_apply, h1, h2]
      exact this
    -- the growth step throws
    have grows : s.cap = s.xs.length → ∀ k', k = k' → k' ≤ s.xs.length →
        ∃ ex t t', pushAll x (v :: vs) { st with thr := some k } = .throw ex t ∧
          delObj x t = .ok () t' ∧
          Left t' (upd σ x none) ((if k = 0 then 0 else 1) + (if s.cap = 0 then 0 else 1)) := by
      intro hf k' hk hk'
      subst hk
      obtain ⟨ex, t, h1, L⟩ := pushBack_throw W h hf hk' (.ext v)
      obtain ⟨t', h2, L'⟩ := left_drop_ext L h
      exact ⟨ex, t, t', by simp only [pushAll, M.bind_apply, h1], h2, L'⟩
    -- the copy throws
    have copies : k = growCost s → ∃ ex t t', pushAll x (v :: vs) { st with thr := some k } = .throw ex t ∧
          delObj x t = .ok () t' ∧ Left t' (upd σ x none) 1 := by
      intro hk
      subst hk
      obtain ⟨st1, c, a, o, h1, W1⟩ := pushBack_elem W h v
      have hc := (W_mem W1 (upd_same _ _ _)).2
      obtain ⟨t', h2, L⟩ := left_drop W1 (upd_same _ _ _) o
      rw [if_neg hc, upd_upd] at L
      exact ⟨_, _, t', by simp only [pushAll, M.bind_apply, h1]; rfl, h2, L⟩
    have e : appendLost s.cap s.xs.length (v :: vs).length k =
        if s.cap = 0 then
          if k = 0 then some 0 else if k = 1 then some 1 else appendLost 1 (s.xs.length + 1) vs.length (k - 2)
        else if s.cap = s.xs.length then
          if k = 0 then some 1
          else if k ≤ s.xs.length then some 2
          else if k = s.xs.length + 1 then some 1
          else appendLost (s.cap * 2) (s.xs.length + 1) vs.length (k - (s.xs.length + 2))
        else if k = 0 then some 1
        else appendLost s.cap (s.xs.length + 1) vs.length (k - 1) := rfl
    rw [e]
    by_cases h0 : s.cap = 0
    · have hx0 : s.xs.length = 0 := by omega
      rw [if_pos h0]
      have hg : growCost s = 1 := by simp [growCost, h0, hx0]
      by_cases k0 : k = 0
      · rw [if_pos k0]
        have := grows (by omega) k rfl (by omega)
        rwa [if_pos k0, if_pos h0] at this
      · rw [if_neg k0]
        by_cases k1 : k = 1
        · rw [if_pos k1]; exact copies (by omega)
        · rw [if_neg k1]
          have := good (k - 2) (by omega)
          simp only [pushCap, h0, if_true] at this
          exact this
    · rw [if_neg h0]
      by_cases hf : s.cap = s.xs.length
      · rw [if_pos hf]
        have hg : growCost s = s.xs.length + 1 := by simp [growCost, hf]
        by_cases k0 : k = 0
        · rw [if_pos k0]
          have := grows hf k rfl (by omega)
          rwa [if_pos k0, if_neg h0] at this
        · rw [if_neg k0]
          by_cases k1 : k ≤ s.xs.length
          · rw [if_pos k1]
            have := grows hf k rfl k1
            rwa [if_neg k0, if_neg h0] at this
          · rw [if_neg k1]
            by_cases k2 : k = s.xs.length + 1
            · rw [if_pos k2]; exact copies (by omega)
            · rw [if_neg k2]
              have := good (k - (s.xs.length + 2)) (by omega)
              have ep : pushCap s.cap s.xs.length = s.cap * 2 := by
                unfold pushCap; rw [if_neg h0, if_pos hf]
              rwa [ep] at this
      · rw [if_neg hf]
        have hg : growCost s = 0 := by simp [growCost, hf]
        by_cases k0 : k = 0
        · rw [if_pos k0]; exact copies (by omega)
        · rw [if_neg k0]
          have := good (k - 1) (by omega)
          have ep : pushCap s.cap s.xs.length = s.cap := by
            unfold pushCap; rw [if_neg h0, if_neg hf]
          rwa [ep] at this

end
end Cest.Vec
