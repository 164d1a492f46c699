import Verif.Core.Mem
/-
Garbage: storage that no variable refers to.  Code that ends without undefined behaviour does the same
when garbage is added to the state, and leaves it alone.  Used for programs that leak on an exception.
-/
namespace Cest
variable {O C α β : Type}

/-- The state with garbage `h` added. -/
def St.ext (h : Nat → Option C) (s : St O C) : St O C :=
  { s with mem := fun a => match h a with | some c => some c | none => s.mem a }

/-- `h` is outside the storage of `s`, and will not be handed out by an allocation. -/
def Apart (h : Nat → Option C) (s : St O C) : Prop := ∀ a, h a ≠ none → s.mem a = none ∧ a < s.next

/-- The outcome with garbage added. -/
def Res.ext (h : Nat → Option C) : Res (St O C) α → Res (St O C) α
  | .ok a s => .ok a (s.ext h)
  | .throw e s => .throw e (s.ext h)
  | .ub u => .ub u
  | .timeout => .timeout

/-- The outcome keeps `h` apart. -/
def Res.apart (h : Nat → Option C) : Res (St O C) α → Prop
  | .ok _ s => Apart h s
  | .throw _ s => Apart h s
  | .ub _ => True
  | .timeout => True

/-- `m` does not notice garbage, unless its behaviour is undefined anyway. -/
def Local (m : M (St O C) α) : Prop := ∀ s h, Apart h s →
  (∃ u, m s = .ub u) ∨ (m (s.ext h) = (m s).ext h ∧ (m s).apart h)

/-- `m` contains no operation that may throw: the countdown does not matter and is not changed. -/
def Quiet (m : M (St O C) α) : Prop := ∀ s t, s.thr = none →
  match m s with
  | .ok a s' => s'.thr = none ∧ m { s with thr := t } = .ok a { s' with thr := t }
  | .throw _ _ => False
  | .ub u => m { s with thr := t } = .ub u
  | .timeout => m { s with thr := t } = .timeout

/-! ### Local -/

theorem Local.pure (a : α) : Local (Pure.pure a : M (St O C) α) := fun _ _ hd => Or.inr ⟨rfl, hd⟩
theorem Local.ub (u : UB) : Local (M.ub u : M (St O C) α) := fun _ _ _ => Or.inl ⟨u, rfl⟩
theorem Local.timeout : Local (M.timeout : M (St O C) α) := fun _ _ _ => Or.inr ⟨rfl, trivial⟩
theorem Local.bind {m : M (St O C) α} {f : α → M (St O C) β} (hm : Local m) (hf : ∀ a, Local (f a)) :
    Local (m >>= f) := by
  intro s h hd
  simp only [M.bind_apply]
  rcases hm s h hd with ⟨u, hu⟩ | ⟨h1, h2⟩
  · exact Or.inl ⟨u, by rw [hu]⟩
  · cases hr : m s with
    | ok a s' =>
      rw [hr] at h1 h2
      rw [h1]
      exact hf a s' h h2
    | throw e s' => rw [hr] at h1 h2; rw [h1]; exact Or.inr ⟨rfl, h2⟩
    | ub u => exact Or.inl ⟨u, rfl⟩
    | timeout => rw [hr] at h1 h2; rw [h1]; exact Or.inr ⟨rfl, h2⟩
theorem Local.ite {p : Prop} [Decidable p] {m n : M (St O C) α} (h1 : Local m) (h2 : Local n) :
    Local (if p then m else n) := by split <;> assumption
theorem Local.onThrow {m : M (St O C) α} {c : M (St O C) Unit} (hm : Local m) (hc : Local c) :
    Local (M.onThrow m c) := by
  intro s h hd
  simp only [M.onThrow]
  rcases hm s h hd with ⟨u, hu⟩ | ⟨h1, h2⟩
  · exact Or.inl ⟨u, by rw [hu]⟩
  · cases hr : m s with
    | ok a s' => rw [hr] at h1 h2; rw [h1]; exact Or.inr ⟨rfl, h2⟩
    | throw e s' =>
      rw [hr] at h1 h2; rw [h1]
      simp only [Res.ext]
      rcases hc s' h h2 with ⟨u, hu⟩ | ⟨h3, h4⟩
      · exact Or.inl ⟨u, by rw [hu]⟩
      · cases hr' : c s' with
        | ok a s'' => rw [hr'] at h3 h4; rw [h3]; exact Or.inr ⟨rfl, h4⟩
        | throw e' s'' => exact Or.inl ⟨_, rfl⟩
        | ub u => exact Or.inl ⟨u, rfl⟩
        | timeout => rw [hr'] at h3 h4; rw [h3]; exact Or.inr ⟨rfl, trivial⟩
    | ub u => exact Or.inl ⟨u, rfl⟩
    | timeout => rw [hr] at h1 h2; rw [h1]; exact Or.inr ⟨rfl, h2⟩
theorem Local.getObj (x : Nat) : Local (getObj x : M (St O C) O) := by
  intro s h hd
  cases ho : s.objs x with
  | none => exact Or.inl ⟨.noObject, by simp only [Cest.getObj, ho]⟩
  | some o => exact Or.inr ⟨by simp [Cest.getObj, St.ext, ho, Res.ext], by simpa [Cest.getObj, ho, Res.apart]⟩
theorem Local.setObj (x : Nat) (o : O) : Local (setObj x o : M (St O C) Unit) := by
  intro s h hd
  cases ho : s.objs x with
  | none => exact Or.inl ⟨.noObject, by simp only [Cest.setObj, ho]⟩
  | some o => exact Or.inr ⟨by simp [Cest.setObj, St.ext, ho, Res.ext], by simpa [Cest.setObj, ho, Res.apart, Apart] using hd⟩
theorem Local.newObj (x : Nat) (o : O) : Local (newObj x o : M (St O C) Unit) := by
  intro s h hd
  cases ho : s.objs x with
  | some o => exact Or.inl ⟨.objectExists, by simp only [Cest.newObj, ho]⟩
  | none => exact Or.inr ⟨by simp [Cest.newObj, St.ext, ho, Res.ext], by simpa [Cest.newObj, ho, Res.apart, Apart] using hd⟩
theorem Local.delObj (x : Nat) : Local (delObj x : M (St O C) Unit) := by
  intro s h hd
  cases ho : s.objs x with
  | none => exact Or.inl ⟨.noObject, by simp only [Cest.delObj, ho]⟩
  | some o => exact Or.inr ⟨by simp [Cest.delObj, St.ext, ho, Res.ext], by simpa [Cest.delObj, ho, Res.apart, Apart] using hd⟩
theorem Local.tick (e : Exc) : Local (tick e : M (St O C) Unit) := by
  intro s h hd
  right
  cases ht : s.thr with
  | none => exact ⟨by simp [Cest.tick, St.ext, ht, Res.ext], by simpa [Cest.tick, ht, Res.apart] using hd⟩
  | some k =>
    cases k with
    | zero => exact ⟨by simp [Cest.tick, St.ext, ht, Res.ext], by simpa [Cest.tick, ht, Res.apart, Apart] using hd⟩
    | succ k => exact ⟨by simp [Cest.tick, St.ext, ht, Res.ext], by simpa [Cest.tick, ht, Res.apart, Apart] using hd⟩

theorem Apart.none {h : Nat → Option C} {s : St O C} (hd : Apart h s) {a : Nat} {c : C} (hc : s.mem a = some c) :
    h a = Option.none := by
  cases hh : h a with
  | none => rfl
  | some d => rw [(hd a (by simp [hh])).1] at hc; cases hc
theorem Apart.next {h : Nat → Option C} {s : St O C} (hd : Apart h s) : h s.next = Option.none := by
  cases hh : h s.next with
  | none => rfl
  | some d => exact absurd (hd s.next (by simp [hh])).2 (Nat.lt_irrefl _)

theorem ext_upd {h : Nat → Option C} {m : Nat → Option C} {a : Nat} {c : Option C} (ha : h a = none) :
    (fun b => match h b with | some c => some c | none => upd m a c b) =
      upd (fun b => match h b with | some c => some c | none => m b) a c := by
  funext b
  by_cases hb : b = a
  · subst hb; simp [ha]
  · simp [hb]

theorem Local.getC (a : Nat) : Local (getC a : M (St O C) C) := by
  intro s h hd
  cases ho : s.mem a with
  | none => exact Or.inl ⟨.dangling, by simp only [Cest.getC, ho]⟩
  | some c =>
    have hn := hd.none ho
    exact Or.inr ⟨by simp [Cest.getC, St.ext, ho, hn, Res.ext], by simpa [Cest.getC, ho, Res.apart] using hd⟩
theorem Local.setC (a : Nat) (c : C) : Local (setC a c : M (St O C) Unit) := by
  intro s h hd
  cases ho : s.mem a with
  | none => exact Or.inl ⟨.dangling, by simp only [Cest.setC, ho]⟩
  | some c' =>
    have hn := hd.none ho
    refine Or.inr ⟨?_, ?_⟩
    · simp only [Cest.setC, St.ext, ho, hn, Res.ext]
      rw [ext_upd hn]
    · simp only [Cest.setC, ho, Res.apart]
      intro b hb
      have : b ≠ a := by rintro rfl; exact hb hn
      simpa [this] using hd b hb
theorem Local.freeC (a : Nat) : Local (freeC a : M (St O C) Unit) := by
  intro s h hd
  cases ho : s.mem a with
  | none => exact Or.inl ⟨.badFree, by simp only [Cest.freeC, ho]⟩
  | some c' =>
    have hn := hd.none ho
    refine Or.inr ⟨?_, ?_⟩
    · simp only [Cest.freeC, St.ext, ho, hn, Res.ext]
      rw [ext_upd hn]
    · simp only [Cest.freeC, ho, Res.apart]
      intro b hb
      have : b ≠ a := by rintro rfl; exact hb hn
      simpa [this] using hd b hb
theorem Local.allocC (c : C) : Local (allocC c : M (St O C) Nat) := by
  intro s h hd
  simp only [Cest.allocC]
  rcases Local.tick .badAlloc s h hd with ⟨u, hu⟩ | ⟨h1, h2⟩
  · exact Or.inl ⟨u, by rw [hu]⟩
  · right
    cases hr : (Cest.tick .badAlloc : M (St O C) Unit) s with
    | ok a s' =>
      rw [hr] at h1 h2
      rw [h1]
      have hn := Apart.next h2
      refine ⟨?_, ?_⟩
      · simp only [Res.ext, St.ext]
        rw [ext_upd hn]
      · intro b hb
        have hb' := h2 b hb
        have : b ≠ s'.next := by rintro rfl; exact hb hn
        simp only [upd_apply, this, if_false]
        exact ⟨hb'.1, Nat.lt_succ_of_lt hb'.2⟩
    | throw e s' => rw [hr] at h1 h2; rw [h1]; exact ⟨rfl, h2⟩
    | ub u =>
      cases ht : s.thr with
      | none => simp [Cest.tick, ht] at hr
      | some k => cases k <;> simp [Cest.tick, ht] at hr
    | timeout => rw [h1, hr]; exact ⟨rfl, trivial⟩

/-! ### Quiet -/

theorem Quiet.pure (a : α) : Quiet (Pure.pure a : M (St O C) α) := fun _ _ ht => ⟨ht, rfl⟩
theorem Quiet.ub (u : UB) : Quiet (M.ub u : M (St O C) α) := fun _ _ _ => rfl
theorem Quiet.timeout : Quiet (M.timeout : M (St O C) α) := fun _ _ _ => rfl
theorem Quiet.bind {m : M (St O C) α} {f : α → M (St O C) β} (hm : Quiet m) (hf : ∀ a, Quiet (f a)) :
    Quiet (m >>= f) := by
  intro s t ht
  simp only [M.bind_apply]
  have h1 := hm s t ht
  cases hr : m s with
  | ok a s' =>
    rw [hr] at h1
    simp only [h1.2]
    exact hf a s' t h1.1
  | throw e s' => rw [hr] at h1; exact h1.elim
  | ub u => rw [hr] at h1; simp only [h1]
  | timeout => rw [hr] at h1; simp only [h1]
theorem Quiet.ite {p : Prop} [Decidable p] {m n : M (St O C) α} (h1 : Quiet m) (h2 : Quiet n) :
    Quiet (if p then m else n) := by split <;> assumption
theorem Quiet.getObj (x : Nat) : Quiet (getObj x : M (St O C) O) := by
  intro s t ht
  cases ho : s.objs x <;> simp [Cest.getObj, ho, ht]
theorem Quiet.setObj (x : Nat) (o : O) : Quiet (setObj x o : M (St O C) Unit) := by
  intro s t ht
  cases ho : s.objs x <;> simp [Cest.setObj, ho, ht]
theorem Quiet.newObj (x : Nat) (o : O) : Quiet (newObj x o : M (St O C) Unit) := by
  intro s t ht
  cases ho : s.objs x <;> simp [Cest.newObj, ho, ht]
theorem Quiet.delObj (x : Nat) : Quiet (delObj x : M (St O C) Unit) := by
  intro s t ht
  cases ho : s.objs x <;> simp [Cest.delObj, ho, ht]
theorem Quiet.getC (x : Nat) : Quiet (getC x : M (St O C) C) := by
  intro s t ht
  cases ho : s.mem x <;> simp [Cest.getC, ho, ht]
theorem Quiet.setC (x : Nat) (c : C) : Quiet (setC x c : M (St O C) Unit) := by
  intro s t ht
  cases ho : s.mem x <;> simp [Cest.setC, ho, ht]
theorem Quiet.freeC (x : Nat) : Quiet (freeC x : M (St O C) Unit) := by
  intro s t ht
  cases ho : s.mem x <;> simp [Cest.freeC, ho, ht]

theorem Quiet.ok {m : M (St O C) α} (hm : Quiet m) {s s' : St O C} {a : α} (ht : s.thr = none) (h : m s = .ok a s')
    (t : Option Nat) : s'.thr = none ∧ m { s with thr := t } = .ok a { s' with thr := t } := by
  have := hm s t ht
  rwa [h] at this

theorem Local.ok {m : M (St O C) α} (hm : Local m) {s s' : St O C} {a : α} {h : Nat → Option C} (hd : Apart h s)
    (hr : m s = .ok a s') : m (s.ext h) = .ok a (s'.ext h) ∧ Apart h s' := by
  rcases hm s h hd with ⟨u, hu⟩ | ⟨h1, h2⟩
  · rw [hr] at hu; cases hu
  · rw [hr] at h1 h2; exact ⟨h1, h2⟩
theorem Local.thrown {m : M (St O C) α} (hm : Local m) {s s' : St O C} {e : Exc} {h : Nat → Option C}
    (hd : Apart h s) (hr : m s = .throw e s') : m (s.ext h) = .throw e (s'.ext h) ∧ Apart h s' := by
  rcases hm s h hd with ⟨u, hu⟩ | ⟨h1, h2⟩
  · rw [hr] at hu; cases hu
  · rw [hr] at h1 h2; exact ⟨h1, h2⟩

/-- Garbage added twice. -/
def plus (h h' : Nat → Option C) : Nat → Option C := fun a => match h a with | some c => some c | none => h' a

theorem ext_ext (h h' : Nat → Option C) (s : St O C) : (s.ext h').ext h = s.ext (plus h h') := by
  simp only [St.ext, plus]
  congr 1
  funext a
  cases h a <;> rfl

theorem Apart.plus {h h' : Nat → Option C} {s : St O C} (h1 : Apart h (s.ext h')) (h2 : Apart h' s) :
    Apart (Cest.plus h h') s := by
  intro a ha
  cases hh : h a with
  | some c =>
    obtain ⟨h3, h4⟩ := h1 a (by simp [hh])
    refine ⟨?_, h4⟩
    simp only [St.ext] at h3
    cases hh' : h' a with
    | none => simpa [hh'] using h3
    | some d => simp [hh'] at h3
  | none => exact h2 a (by simpa [Cest.plus, hh] using ha)

theorem Apart.ext {h h' : Nat → Option C} {s : St O C} (h1 : Apart h s) (h2 : ∀ a, h a ≠ Option.none → h' a = Option.none) :
    Apart h (s.ext h') := by
  intro a ha
  obtain ⟨h3, h4⟩ := h1 a ha
  exact ⟨by simp [St.ext, h2 a ha, h3], h4⟩

/-- `h` consists of `n` blocks outside of `st`. -/
def Lost (h : Nat → Option C) (st : St O C) (n : Nat) : Prop :=
  Apart h st ∧ ∃ l : List Nat, l.Nodup ∧ l.length = n ∧ ∀ a, h a ≠ none ↔ a ∈ l

/-- No garbage. -/
def noGarbage : Nat → Option C := fun _ => none
theorem lost_none (st : St O C) : Lost noGarbage st 0 :=
  ⟨fun _ h => absurd rfl h, [], List.nodup_nil, rfl, by simp [noGarbage]⟩

theorem Lost.plus {h h' : Nat → Option C} {st : St O C} {n n' : Nat} (H : Lost h (st.ext h') n)
    (H' : Lost h' st n') : Lost (Cest.plus h h') st (n + n') := by
  obtain ⟨a1, l, l1, l2, l3⟩ := H
  obtain ⟨a2, l', l1', l2', l3'⟩ := H'
  refine ⟨a1.plus a2, l ++ l', ?_, by simp [l2, l2'], fun a => ?_⟩
  · rw [List.nodup_append]
    refine ⟨l1, l1', fun a ha b hb hab => ?_⟩
    subst hab
    have h1 := (a1 a ((l3 a).2 ha)).1
    have h2 := (l3' a).2 hb
    simp only [St.ext] at h1
    cases hh : h' a with
    | none => exact h2 hh
    | some c => simp [hh] at h1
  · rw [List.mem_append, ← l3, ← l3']
    simp only [Cest.plus]
    cases h a <;> simp

theorem Lost.thr {h : Nat → Option C} {st : St O C} {n : Nat} (H : Lost h st n) (t : Option Nat) :
    Lost h { st with thr := t } n := H

end Cest
