import Verif.Str.Cost
import Verif.Str.OomRun
/-
Lemmas for C140: which operations of cest::basic_string allocate, and the capacity they leave.
-/
namespace Cest.Str
open Cest
set_option linter.unusedSectionVars false
variable {V : Type} [DecidableEq V] {t : Traits V}

theorem bind_inv {S α β : Type} {m : M S α} {f : α → M S β} {s s' : S} {b : β} (h : (m >>= f) s = .ok b s') :
    ∃ a s1, m s = .ok a s1 ∧ f a s1 = .ok b s' := by
  simp only [M.bind_apply] at h
  split at h <;> try (cases h; done)
  exact ⟨_, _, by assumption, h⟩

/-- From `s` to `s'` only the string `x` changed its data members, its capacity is `n`, and there were `k`
allocations. -/
structure Eff (x n k : Nat) (s s' : SSt V) : Prop where
  next : s'.next = s.next + k
  cap : ∀ o, s'.objs x = some o → o.cap = n
  others : ∀ y, y ≠ x → s'.objs y = s.objs y

theorem newObj_inv {x : Nat} {o : Obj} {s s' : SSt V} {u : Unit} (h : newObj x o s = .ok u s') :
    s'.objs = upd s.objs x (some o) ∧ s'.next = s.next := by
  unfold newObj at h; split at h <;> cases h; exact ⟨rfl, rfl⟩

theorem ctor_eff {x : Nat} {s s' : SSt V} {u : Unit} (h : ctor t x s = .ok u s') : Eff x 1 1 s s' := by
  have h : (do
      newObj x ⟨0, 0, none⟩
      let a ← allocInit t 2
      setObj x ⟨0, 1, some a⟩
      putc (some a) 0 t.nul : SM V Unit) s = .ok u s' := by
    simp only [ctor, M.noexcept] at h
    split at h
    · cases h
    · exact h
  obtain ⟨_, s1, h1, h⟩ := bind_inv h
  obtain ⟨q, s2, h2, h⟩ := bind_inv h
  obtain ⟨_, s3, h3, h⟩ := bind_inv h
  obtain ⟨a1, b1⟩ := newObj_inv h1
  obtain ⟨a2, b2⟩ := allocInit_next h2
  obtain ⟨a3, b3⟩ := setObj_inv h3
  obtain ⟨a4, b4⟩ := putc_quiet _ _ _ _ _ _ h
  have e : s'.objs = upd s.objs x (some ⟨0, 1, some q⟩) := by rw [a4, a3, a2, a1, upd_upd]
  exact ⟨by omega, by intro o ho; rw [e] at ho; simp at ho; rw [← ho], fun y hy => by simp [e, hy]⟩

theorem ctorPC_eff {x n : Nat} {p : Ptr V} {s s' : SSt V} {u : Unit} (h : ctorPC t x p n s = .ok u s') :
    Eff x (n + 1) 1 s s' := by
  obtain ⟨_, s1, h1, h⟩ := bind_inv h
  obtain ⟨q, s2, h2, h⟩ := bind_inv (onThrow_inv h)
  obtain ⟨_, s3, h3, h⟩ := bind_inv h
  obtain ⟨_, s4, h4, h⟩ := bind_inv h
  obtain ⟨_, s5, h5, h⟩ := bind_inv h
  obtain ⟨a1, b1⟩ := newObj_inv h1
  obtain ⟨a2, b2⟩ := allocInit_next h2
  obtain ⟨a3, b3⟩ := setObj_inv h3
  obtain ⟨a4, b4⟩ := copyChars_quiet _ _ _ _ _ _ _ h4
  obtain ⟨a5, b5⟩ := setObj_inv h5
  obtain ⟨a6, b6⟩ := putc_quiet _ _ _ _ _ _ h
  have e : s'.objs = upd s.objs x (some ⟨n, n + 1, some q⟩) := by
    rw [a6, a5, a4, a3, a2, a1, upd_upd, upd_upd]
  exact ⟨by omega, by intro o ho; rw [e] at ho; simp at ho; rw [← ho], fun y hy => by simp [e, hy]⟩

theorem reserve_eff {x n : Nat} {o : Obj} {s s' : SSt V} {u : Unit} (ho : s.objs x = some o)
    (h : reserve t x n s = .ok u s') :
    ∃ q, s'.objs = upd s.objs x (some ⟨o.size, if o.cap < n then n else o.cap, q⟩) ∧
      s'.next = s.next + if o.cap < n then 1 else 0 := by
  simp only [reserve, M.bind_apply, getObj_some ho] at h
  by_cases hn : o.cap < n
  · rw [if_pos hn] at h
    obtain ⟨q, s1, h1, h⟩ := bind_inv h
    obtain ⟨_, s2, h2, h⟩ := bind_inv h
    obtain ⟨_, s3, h3, h⟩ := bind_inv h
    obtain ⟨a1, b1⟩ := allocInit_next h1
    obtain ⟨a2, b2⟩ := copyChars_quiet _ _ _ _ _ _ _ h2
    obtain ⟨a3, b3⟩ := freeChars_quiet _ _ _ _ _ h3
    obtain ⟨a4, b4⟩ := setObj_inv h
    refine ⟨some q, by rw [a4, a3, a2, a1, if_pos hn], by rw [if_pos hn]; omega⟩
  · rw [if_neg hn] at h
    simp at h
    subst h
    exact ⟨o.p, by rw [if_neg hn]; exact (upd_eq_self ho).symm, by rw [if_neg hn]; rfl⟩

theorem pushBack_eff {x : Nat} {o : Obj} {r : Ptr V} {s s' : SSt V} {u : Unit} (ho : s.objs x = some o)
    (hc : 1 ≤ o.cap) (h : pushBack t x r s = .ok u s') :
    Eff x (if o.cap < o.size + 1 then 2 * o.cap else o.cap) (if o.cap < o.size + 1 then 1 else 0) s s' := by
  obtain ⟨⟨q, h1⟩, h2⟩ := pushBack_inv ho hc h
  refine ⟨h2, fun o' ho' => ?_, fun y hy => ?_⟩
  · rw [h1] at ho'; cases ho'; simp only [Nat.mul_comm]
  · simp only [pushBack, M.bind_apply, getObj_some ho] at h
    have tail : ∀ s1 : SSt V, (do
        let o ← getObj x
        let c ← r.rd 0
        putc o.p o.size c
        setObj x { o with size := o.size + 1 }
        putc o.p (o.size + 1) t.nul : SM V Unit) s1 = .ok u s' → s'.objs y = s1.objs y := by
      intro s1 h
      obtain ⟨o1, s2, h1, h⟩ := bind_inv h
      obtain ⟨_, s3, h3, h⟩ := bind_inv h
      obtain ⟨_, s4, h4, h⟩ := bind_inv h
      obtain ⟨_, s5, h5, h⟩ := bind_inv h
      rw [(putc_quiet _ _ _ _ _ _ h).1, (setObj_inv h5).1]
      simp only [upd, hy, if_false]
      rw [(putc_quiet _ _ _ _ _ _ h4).1, (rd_quiet _ _ _ _ _ h3).1, (Cest.getObj_inv h1).1]
    by_cases hg : o.cap < o.size + 1
    · rw [if_pos hg] at h
      simp only [M.bind_apply] at h
      split at h <;> try (cases h; done)
      rename_i u1 s1 h1
      obtain ⟨q, e1, -⟩ := reserve_eff ho h1
      rw [tail s1 (by simpa only [M.bind_apply] using h), e1]
      simp [hy]
    · rw [if_neg hg] at h
      exact tail s (by simpa only [M.bind_apply] using h)

theorem append_eff {x n : Nat} {o : Obj} {p : Ptr V} {s s' : SSt V} {u : Unit} (ho : s.objs x = some o)
    (h : append t x p n s = .ok u s') :
    Eff x (if o.cap < o.size + n then o.size + n else o.cap) (if o.cap < o.size + n then 1 else 0) s s' := by
  simp only [append, M.bind_apply, getObj_some ho] at h
  have tail : ∀ (s1 : SSt V) (o1 : Obj), s1.objs x = some o1 → (do
      let o1 ← getObj x
      setObj x { o1 with size := n + o.size }
      putc o1.p (n + o.size) t.nul : SM V Unit) s1 = .ok u s' →
      s'.objs = upd s1.objs x (some { o1 with size := n + o.size }) ∧ s'.next = s1.next := by
    intro s1 o1 h1 h
    obtain ⟨o2, s2, h2, h⟩ := bind_inv h
    obtain ⟨_, s3, h3, h⟩ := bind_inv h
    obtain ⟨rfl, e2⟩ := Cest.getObj_inv h2
    rw [h1] at e2; cases e2
    obtain ⟨a3, b3⟩ := setObj_inv h3
    obtain ⟨a4, b4⟩ := putc_quiet _ _ _ _ _ _ h
    exact ⟨by rw [a4, a3], by omega⟩
  by_cases hg : o.cap < o.size + n
  · rw [if_neg (by omega)] at h
    rw [if_pos hg, if_pos hg]
    simp only [M.bind_apply] at h
    split at h <;> try (cases h; done)
    rename_i q s1 h1
    split at h <;> try (cases h; done)
    rename_i u2 s2 h2
    split at h <;> try (cases h; done)
    rename_i u3 s3 h3
    split at h <;> try (cases h; done)
    rename_i u4 s4 h4
    split at h <;> try (cases h; done)
    rename_i u5 s5 h5
    obtain ⟨a1, b1⟩ := allocInit_next h1
    obtain ⟨a2, b2⟩ := copyChars_quiet _ _ _ _ _ _ _ h2
    obtain ⟨a3, b3⟩ := copyChars_quiet _ _ _ _ _ _ _ h3
    obtain ⟨a4, b4⟩ := freeChars_quiet _ _ _ _ _ h4
    obtain ⟨a5, b5⟩ := setObj_inv h5
    obtain ⟨a6, b6⟩ := tail s5 ⟨n + o.size, n + o.size, some q⟩ (by rw [a5]; simp)
      (by simpa only [M.bind_apply] using h)
    have e : s'.objs = upd s.objs x (some ⟨n + o.size, n + o.size, some q⟩) := by
      rw [a6, a5, a4, a3, a2, a1, upd_upd]
    exact ⟨by omega, by intro o' ho'; rw [e] at ho'; simp at ho'; rw [← ho']; simp; omega,
      fun y hy => by simp [e, hy]⟩
  · rw [if_pos (by omega)] at h
    rw [if_neg hg, if_neg hg]
    obtain ⟨s1, e1, n1, h1⟩ : ∃ s1 : SSt V, s1.objs = s.objs ∧ s1.next = s.next ∧ (do
        let o1 ← getObj x
        setObj x { o1 with size := n + o.size }
        putc o1.p (n + o.size) t.nul : SM V Unit) s1 = .ok u s' := by
      by_cases hn : n ≠ 0
      · rw [if_pos hn] at h
        obtain ⟨_, s1, h1, h⟩ := bind_inv h
        obtain ⟨a1, b1⟩ := copyChars_quiet _ _ _ _ _ _ _ h1
        exact ⟨s1, a1, b1, by simpa only [M.bind_apply] using h⟩
      · rw [if_neg hn] at h
        exact ⟨s, rfl, rfl, by simpa only [M.bind_apply] using h⟩
    obtain ⟨a2, b2⟩ := tail s1 o (by rw [e1, ho]) h1
    have e : s'.objs = upd s.objs x (some { o with size := n + o.size }) := by rw [a2, e1]
    exact ⟨by omega, by intro o' ho'; rw [e] at ho'; simp at ho'; rw [← ho'], fun y hy => by simp [e, hy]⟩

theorem assignC_eff {x m : Nat} {o : Obj} {p : Ptr V} {s s' : SSt V} {u : Unit} (ho : s.objs x = some o)
    (hl : length t p s = .ok m s) (h : assignC t x p s = .ok u s') :
    Eff x (if o.cap < m + 1 then m + 1 else o.cap) (if o.cap < m + 1 then 1 else 0) s s' := by
  simp only [assignC, M.bind_apply, hl, getObj_some ho] at h
  have tail : ∀ (s1 : SSt V) (o1 : Obj), s1.objs x = some o1 → (do
      let o1 ← getObj x
      copyChars t o1.p 0 p (m + 1)
      setObj x { o1 with size := m } : SM V Unit) s1 = .ok u s' →
      s'.objs = upd s1.objs x (some { o1 with size := m }) ∧ s'.next = s1.next := by
    intro s1 o1 h1 h
    obtain ⟨o2, s2, h2, h⟩ := bind_inv h
    obtain ⟨_, s3, h3, h⟩ := bind_inv h
    obtain ⟨rfl, e2⟩ := Cest.getObj_inv h2
    rw [h1] at e2; cases e2
    obtain ⟨a3, b3⟩ := copyChars_quiet _ _ _ _ _ _ _ h3
    obtain ⟨a4, b4⟩ := setObj_inv h
    exact ⟨by rw [a4, a3], by omega⟩
  by_cases hg : o.cap < m + 1
  · rw [if_pos hg] at h
    rw [if_pos hg, if_pos hg]
    simp only [M.bind_apply] at h
    split at h <;> try (cases h; done)
    rename_i u1 s1 h1
    split at h <;> try (cases h; done)
    rename_i u2 s2 h2
    split at h <;> try (cases h; done)
    rename_i q s3 h3
    split at h <;> try (cases h; done)
    rename_i u4 s4 h4
    obtain ⟨a1, b1⟩ := freeChars_quiet _ _ _ _ _ h1
    obtain ⟨a2, b2⟩ := setObj_inv h2
    obtain ⟨a3, b3⟩ := allocInit_next h3
    obtain ⟨a4, b4⟩ := setObj_inv h4
    obtain ⟨a5, b5⟩ := tail s4 ⟨o.size, m + 1, some q⟩ (by rw [a4]; simp) (by simpa only [M.bind_apply] using h)
    have e : s'.objs = upd s.objs x (some ⟨m, m + 1, some q⟩) := by
      rw [a5, a4, a3, a2, a1, upd_upd, upd_upd]
    exact ⟨by omega, by intro o' ho'; rw [e] at ho'; simp at ho'; rw [← ho'], fun y hy => by simp [e, hy]⟩
  · rw [if_neg hg] at h
    rw [if_neg hg, if_neg hg]
    obtain ⟨a1, b1⟩ := tail s o ho (by simpa only [M.bind_apply] using h)
    exact ⟨by omega, by intro o' ho'; rw [a1] at ho'; simp at ho'; rw [← ho'], fun y hy => by simp [a1, hy]⟩

/-- The second loop of the input-iterator constructor: the capacity doubles (up to the constant 2) with each
allocation, and the last one was needed. -/
theorem inputLoop2_eff {x : Nat} (cs : List V) : ∀ {len cap z : Nat} {p : Option Nat} {len' : Nat} {s s' : SSt V},
    s.objs x = some ⟨z, cap, p⟩ → len ≤ cap → inputLoop2 t x cs len cap s = .ok len' s' →
    ∃ j cap' q, len' = len + cs.length ∧ s'.objs = upd s.objs x (some ⟨z, cap', q⟩) ∧ s'.next = s.next + j ∧
      cap' + 2 = (cap + 2) * 2 ^ j ∧ len' ≤ cap' ∧ (j ≠ 0 → (cap + 2) * 2 ^ (j - 1) < len' + 2) := by
  induction cs with
  | nil =>
    intro len cap z p len' s s' ho hc h
    simp [inputLoop2] at h
    obtain ⟨rfl, rfl⟩ := h
    exact ⟨0, cap, p, by simp, (upd_eq_self ho).symm, rfl, by simp, by simpa using hc, by simp⟩
  | cons c cs ih =>
    intro len cap z p len' s s' ho hc h
    have step : ∀ {cap1 : Nat} {p1 : Option Nat} {s1 : SSt V}, s1.objs x = some ⟨z, cap1, p1⟩ → len + 1 ≤ cap1 → (do
        let o ← getObj x
        putc o.p len c
        inputLoop2 t x cs (len + 1) cap1 : SM V Nat) s1 = .ok len' s' →
        ∃ j cap' q, len' = len + 1 + cs.length ∧ s'.objs = upd s1.objs x (some ⟨z, cap', q⟩) ∧ s'.next = s1.next + j ∧
          cap' + 2 = (cap1 + 2) * 2 ^ j ∧ len' ≤ cap' ∧ (j ≠ 0 → (cap1 + 2) * 2 ^ (j - 1) < len' + 2) := by
      intro cap1 p1 s1 h1 hc1 h
      obtain ⟨o2, s2, h2, h⟩ := bind_inv h
      obtain ⟨_, s3, h3, hz⟩ := bind_inv h
      obtain ⟨rfl, e2⟩ := Cest.getObj_inv h2
      obtain ⟨a3, b3⟩ := putc_quiet _ _ _ _ _ _ h3
      obtain ⟨j, cap', q, r1, r2, r3, r4, r5, r6⟩ := ih (by rw [a3, h1]) hc1 hz
      exact ⟨j, cap', q, r1, by rw [r2, a3], by omega, r4, r5, r6⟩
    simp only [inputLoop2] at h
    by_cases hg : len = cap
    · rw [if_pos hg] at h
      obtain ⟨q, s1, h1, h⟩ := bind_inv h
      obtain ⟨o, s2, h2, h⟩ := bind_inv h
      obtain ⟨_, s3, h3, h⟩ := bind_inv h
      obtain ⟨_, s4, h4, h⟩ := bind_inv h
      obtain ⟨_, s5, h5, hz⟩ := bind_inv h
      obtain ⟨a1, b1⟩ := allocInit_next h1
      obtain ⟨rfl, e2⟩ := Cest.getObj_inv h2
      rw [a1, ho] at e2; cases e2
      obtain ⟨a3, b3⟩ := copyChars_quiet _ _ _ _ _ _ _ h3
      obtain ⟨a4, b4⟩ := freeChars_quiet _ _ _ _ _ h4
      obtain ⟨a5, b5⟩ := setObj_inv h5
      obtain ⟨j, cap', q', r1, r2, r3, r4, r5, r6⟩ := step (cap1 := (len + 1) * 2) (p1 := some q) (s1 := s5)
        (by rw [a5]; simp only [upd_same]) (by omega) (by simpa using hz)
      refine ⟨j + 1, cap', q', by simp; omega, by rw [r2, a5, a4, a3, a1, upd_upd], by omega, ?_, r5, fun _ => ?_⟩
      · rw [r4, Nat.pow_succ, ← hg, Nat.mul_comm (2 ^ j) 2, ← Nat.mul_assoc]; congr 1; omega
      · simp only [Nat.add_sub_cancel]
        by_cases hj : j = 0
        · subst hj; simp; omega
        · have := r6 hj
          obtain ⟨i, rfl⟩ : ∃ i, j = i + 1 := ⟨j - 1, by omega⟩
          simp only [Nat.add_sub_cancel] at this
          rw [Nat.pow_succ, Nat.mul_comm (2 ^ i) 2, ← Nat.mul_assoc, ← hg]
          have e : (len + 2) * 2 = (len + 1) * 2 + 2 := by omega
          rw [e]; exact this
    · rw [if_neg hg] at h
      obtain ⟨_, s1, h1, h⟩ := bind_inv h
      simp at h1
      obtain ⟨rfl, rfl⟩ := h1
      obtain ⟨j, cap', q', r1, r2, r3, r4, r5, r6⟩ := step (s1 := s) ho (by omega) h
      exact ⟨j, cap', q', by simp; omega, r2, r3, r4, r5, r6⟩

theorem ctorInput_eff {x : Nat} {cs : List V} (hcs : cs ≠ []) {s s' : SSt V} {u : Unit}
    (h : ctorInput t x cs s = .ok u s') : Eff x (inputCap cs.length) (Nat.log2 (cs.length + 1)) s s' := by
  obtain ⟨_, s1, h1, h⟩ := bind_inv h
  obtain ⟨a1, b1⟩ := newObj_inv h1
  have ho : s1.objs x = some ⟨0, 0, none⟩ := by rw [a1]; simp
  obtain ⟨o, s2, h2, hz⟩ := bind_inv (onThrow_inv h)
  obtain ⟨rfl, e2⟩ := Cest.getObj_inv h2
  rw [ho] at e2; cases e2
  obtain ⟨r, s3, h3, hy⟩ := bind_inv hz
  have e3 : r = (cs, 0) ∧ s3 = s2 := by
    cases cs with
    | nil => exact absurd rfl hcs
    | cons c cs => simp [inputLoop1] at h3; exact ⟨h3.1.symm, h3.2.symm⟩
  obtain ⟨rfl, rfl⟩ := e3
  obtain ⟨len, s4, h4, hx⟩ := bind_inv hy
  obtain ⟨j, cap, q, r1, r2, r3, r4, r5, r6⟩ := inputLoop2_eff cs ho (Nat.le_refl 0) h4
  obtain ⟨o5, s5, h5, hw⟩ := bind_inv hx
  obtain ⟨_, s6, h6, hv⟩ := bind_inv hw
  obtain ⟨rfl, e5⟩ := Cest.getObj_inv h5
  rw [r2] at e5; simp at e5; subst e5
  obtain ⟨a6, b6⟩ := setObj_inv h6
  obtain ⟨a7, b7⟩ := putc_quiet _ _ _ _ _ _ hv
  have hlen : 0 < cs.length := List.length_pos_iff.2 hcs
  have hj : j ≠ 0 := by
    rintro rfl
    simp at r4; omega
  have hlog : Nat.log2 (cs.length + 1) = j := by
    rw [Nat.log2_eq_iff (by omega)]
    have := r6 hj
    obtain ⟨i, rfl⟩ : ∃ i, j = i + 1 := ⟨j - 1, by omega⟩
    simp only [Nat.add_sub_cancel, Nat.pow_succ] at this r4 ⊢
    omega
  have hcap : cap = inputCap cs.length := by
    rw [inputCap, hlog, Nat.pow_succ]; omega
  have e : s'.objs = upd s.objs x (some ⟨len, cap, q⟩) := by
    rw [a7, a6, r2, a1, upd_upd, upd_upd]
  exact ⟨by rw [hlog]; omega, by intro o' ho'; rw [e] at ho'; simp at ho'; rw [← ho']; exact hcap,
    fun y hy => by simp [e, hy]⟩

end Cest.Str
