import Verif.Str.Growth
/-
C133: how often a growing string reallocates.  `st.next` is the number of allocations made so far.
-/
namespace Cest.Str
open Cest
variable {V : Type} [DecidableEq V] {t : Traits V} {st : SSt V} {e : Env V}

/-- `for (CharT c : vs) x.push_back(c);` -/
def pushEach (t : Traits V) (x : Nat) : List V → SM V Unit
  | [] => pure ()
  | v :: vs => do pushBack t x (.ext [v] 0); pushEach t x vs

/-- `for (CharT c : vs) x.append(&c, 1);` -/
def appendEach (t : Traits V) (x : Nat) : List V → SM V Unit
  | [] => pure ()
  | v :: vs => do append t x (.ext [v] 0) 1; appendEach t x vs

/-- The full claim of C133: adding characters one at a time, by push_back or by append, reallocates only
logarithmically often. -/
def C133_full_statement (t : Traits V) : Prop :=
  ∀ (st : SSt V) (e : Env V) (x : Nat) (xs vs : List V), Reach t st e → e x = some xs →
    (∃ st', pushEach t x vs st = .ok () st' ∧
      st'.next ≤ st.next + (Nat.log2 (xs.length + vs.length) + 1)) ∧
    (∃ st', appendEach t x vs st = .ok () st' ∧
      st'.next ≤ st.next + (Nat.log2 (xs.length + vs.length) + 1))

theorem pushEach_world {x : Nat} {vs : List V} {st : SSt V} {σ : Nat → Option (SV V)} {s : SV V}
    (W : SW t st σ) (hs : σ x = some s) :
    ∃ st' σ' s' k, pushEach t x vs st = .ok () st' ∧ SW t st' σ' ∧ σ' x = some s' ∧
      s'.val = s.val ++ vs ∧ s'.buf.length - 1 = (s.buf.length - 1) * 2 ^ k ∧ st'.next = st.next + k ∧
      (k = 0 ∨ (s.buf.length - 1) * 2 ^ (k - 1) < s.n + vs.length) := by
  induction vs generalizing st σ s with
  | nil => exact ⟨st, σ, s, 0, rfl, W, hs, by simp, by simp, rfl, Or.inl rfl⟩
  | cons v vs ih =>
    obtain ⟨h1, h2, h3⟩ := get_rep W hs
    have htwo := h3.two
    have hlt := h3.lt
    obtain ⟨st1, s1, r1, W1, v1⟩ := pushBack_spec (t := t) W hs (r := .ext [v] 0) (c := v)
      (Sees.ext st [v] 0) (by intro h; cases h)
    obtain ⟨⟨q, a1⟩, b1⟩ := pushBack_inv (o := s.obj) h1 (by simp [SV.obj]; omega) r1
    obtain ⟨g1, g2, g3⟩ := get_rep W1 (upd_same _ _ _)
    rw [g1] at a1
    simp only [SV.obj, Option.some.injEq, Obj.mk.injEq] at a1 b1
    obtain ⟨an, ac, -⟩ := a1
    obtain ⟨st2, σ2, s2, k, r2, W2, hs2, v2, c2, n2, l2⟩ := ih W1 (upd_same _ _ _)
    have hv2 : s2.val = s.val ++ v :: vs := by rw [v2, v1]; simp
    have hr : pushEach t x (v :: vs) st = .ok () st2 := by simp [pushEach, r1, r2]
    by_cases hg : s.buf.length - 1 < s.n + 1
    · simp only [hg, ↓reduceIte] at ac b1
      rw [ac] at c2 l2
      refine ⟨st2, σ2, s2, k + 1, hr, W2, hs2, hv2, ?_, by omega, Or.inr ?_⟩
      · rw [c2, Nat.pow_succ, Nat.mul_assoc, Nat.mul_comm 2]
      · cases k with
        | zero => simp; omega
        | succ k =>
          simp at l2 ⊢
          rw [Nat.pow_succ, Nat.mul_comm (2^k) 2, ← Nat.mul_assoc]; omega
    · simp only [hg, ↓reduceIte] at ac b1
      rw [ac] at c2 l2
      refine ⟨st2, σ2, s2, k, hr, W2, hs2, hv2, c2, by omega, ?_⟩
      rcases l2 with h | h
      · exact Or.inl h
      · right; simp; omega

/-- **C133 (push_back).** Appending characters one at a time with push_back makes `k` allocations, where
the capacity has doubled `k` times and half of it was too small: at most `log2(size) + 1` of them. -/
theorem C133_push_back_amortised_partial (ht : t.Lawful) (h : Reach t st e) {x c : Nat} {xs : List V}
    (hx : e x = some xs) (hc : capacity x st = .ok c st) (vs : List V) :
    ∃ st' k, pushEach t x vs st = .ok () st' ∧ toList x st' = .ok (xs ++ vs) st' ∧
      capacity x st' = .ok (c * 2 ^ k) st' ∧ st'.next = st.next + k ∧
      (k = 0 ∨ c * 2 ^ (k - 1) < xs.length + vs.length) ∧
      k ≤ Nat.log2 (xs.length + vs.length) + 1 := by
  obtain ⟨σ, W, rfl⟩ := h.world ht
  obtain ⟨s, hs, rfl⟩ := envOf_some rfl hx
  obtain ⟨h1, h2, h3⟩ := get_rep W hs
  have htwo := h3.two
  have hl := SV.val_length h3
  obtain ⟨st', σ', s', k, r, W', hs', hv, hcap, hn, hk⟩ := pushEach_world (vs := vs) W hs
  simp [capacity, h1, SV.obj] at hc
  rw [hc] at hcap hk
  refine ⟨st', k, r, by rw [toList_spec W' hs', hv], ?_, hn, by rw [hl]; exact hk, ?_⟩
  · simp [capacity, (get_rep W' hs').1, SV.obj, hcap]
  · rcases hk with h | h
    · omega
    · have hc1 : 1 ≤ c := by omega
      have hp : 2 ^ (k - 1) ≤ s.val.length + vs.length := by
        have := Nat.le_mul_of_pos_left (2 ^ (k-1)) (show 0 < c by omega)
        rw [hl]; omega
      have hne : s.val.length + vs.length ≠ 0 := by
        have : 0 < 2 ^ (k-1) := Nat.two_pow_pos _
        omega
      have := (Nat.le_log2 hne).2 hp
      omega

/-- **C133 (append).** Appending to a full string one character at a time with append makes one
allocation for every character: the new buffer has exactly the needed size. -/
theorem C133_append_reallocates (ht : t.Lawful) (h : Reach t st e) {x : Nat} {xs : List V}
    (hx : e x = some xs) (hc : capacity x st = .ok xs.length st) (vs : List V) :
    ∃ st', appendEach t x vs st = .ok () st' ∧ toList x st' = .ok (xs ++ vs) st' ∧
      capacity x st' = .ok (xs.length + vs.length) st' ∧ st'.next = st.next + vs.length := by
  obtain ⟨σ, W, rfl⟩ := h.world ht
  obtain ⟨s, hs, rfl⟩ := envOf_some rfl hx
  clear h hx
  induction vs generalizing st σ s with
  | nil => exact ⟨st, rfl, by simp [toList_spec W hs], by simpa using hc, rfl⟩
  | cons v vs ih =>
    obtain ⟨h1, h2, h3⟩ := get_rep W hs
    have htwo := h3.two
    have hl := SV.val_length h3
    simp [capacity, h1, SV.obj] at hc
    obtain ⟨st1, s1, r1, W1, v1, _⟩ := append_spec' (t := t) W hs (p := .ext [v] 0) (v := [v]) (n := 1)
      (Sees.ext st [v] 0) (by simp) (by intro off h; cases h)
    obtain ⟨⟨q, a1⟩, b1⟩ := append_inv (o := s.obj) h1 (by simp [SV.obj]; omega) r1
    have v1' : s1.val.length = s.val.length + 1 := by rw [v1]; simp
    obtain ⟨st2, r2, t2, c2, n2⟩ := ih (σ := upd σ x (some s1)) W1 (s := s1) (upd_same _ _ _)
      (by simp only [capacity, M.bind_apply, getObj_some a1, M.pure_apply, SV.obj]; rw [v1', hl]; congr 1; omega)
    refine ⟨st2, by simp [appendEach, r1, r2], ?_, ?_, ?_⟩
    · rw [t2, v1]; simp
    · rw [c2, v1']; congr 1; simp; omega
    · rw [n2, b1]; simp; omega

/-- **C133 is false** for append: eight characters appended to a full string of two make eight
allocations. -/
theorem C133_string_growth_refuted (b : Bool) : ¬ C133_full_statement (natTraits b) := by
  intro hall
  obtain ⟨st, e, hr, hx, hc⟩ := reach_full b
  obtain ⟨-, st', h1, h2⟩ := hall st e 0 [5, 6] [1, 2, 3, 4, 5, 6, 7, 8] hr hx
  obtain ⟨st2, h3, _, _, h4⟩ := C133_append_reallocates (natTraits_lawful b) hr hx hc [1, 2, 3, 4, 5, 6, 7, 8]
  rw [h1] at h3; cases h3
  have : Nat.log2 (([5, 6] : List Nat).length + ([1, 2, 3, 4, 5, 6, 7, 8] : List Nat).length) = 3 := by decide
  rw [this] at h2
  simp at h4
  omega

/-- Eight characters pushed back onto the same string double its capacity at most four times. -/
example : ∃ (st st' : SSt Nat) (k : Nat), capacity 0 st = .ok 2 st ∧
    pushEach (natTraits true) 0 [1, 2, 3, 4, 5, 6, 7, 8] st = .ok () st' ∧
    toList 0 st' = .ok [5, 6, 1, 2, 3, 4, 5, 6, 7, 8] st' ∧ st'.next = st.next + k ∧ k ≤ 4 := by
  obtain ⟨st, e, hr, hx, hc⟩ := reach_full true
  obtain ⟨st', k, h1, h2, _, h3, _, h4⟩ := C133_push_back_amortised_partial (natTraits_lawful true) hr hx hc
    [1, 2, 3, 4, 5, 6, 7, 8]
  exact ⟨st, st', k, hc, h1, h2, h3, h4⟩

end Cest.Str
