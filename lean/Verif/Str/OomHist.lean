import Verif.Str.Caps
/-
Lemmas for C140: programs on strings that run out of storage.
-/
namespace Cest.Str
open Cest
set_option linter.unusedSectionVars false
variable {V : Type} [DecidableEq V] {t : Traits V} {st : SSt V}

/-- The strings hold what the environment says, with the capacities `c`. -/
def CW (t : Traits V) (st : SSt V) (e : Env V) (c : Nat → Nat) : Prop :=
  ∃ σ, SW t st σ ∧ envOf σ = e ∧ ∀ x o, st.objs x = some o → o.cap = c x

theorem obj_of {σ : Nat → Option (SV V)} (W : SW t st σ) {x : Nat} {o : Obj} (ho : st.objs x = some o) :
    ∃ s, σ x = some s ∧ o = s.obj := by
  cases hs : σ x with
  | none => rw [W.dom x hs] at ho; cases ho
  | some s => rw [(get_rep W hs).1] at ho; cases ho; exact ⟨s, rfl, rfl⟩

/-- Capacities after an operation with a known effect. -/
theorem Eff.caps {x n k : Nat} {s s' : SSt V} {c : Nat → Nat} (h : Eff x n k s s')
    (hc : ∀ y o, s.objs y = some o → o.cap = c y) :
    ∀ y o, s'.objs y = some o → o.cap = if y = x then n else c y := by
  intro y o ho
  by_cases hy : y = x
  · subst hy; rw [if_pos rfl]; exact h.cap o ho
  · rw [if_neg hy]; exact hc y o (by rw [← h.others y hy]; exact ho)

/-- A computation that leaves all capacities alone and allocates nothing. -/
def Steady {α : Type} (m : SM V α) : Prop :=
  ∀ s a s', m s = .ok a s' → s'.next = s.next ∧
    ∀ y o', s'.objs y = some o' → ∃ o, s.objs y = some o ∧ o'.cap = o.cap

theorem Quiet.steady {α : Type} {m : SM V α} (h : Quiet m) : Steady m := by
  intro s a s' hm
  obtain ⟨h1, h2⟩ := h s a s' hm
  exact ⟨h2, fun y o ho => ⟨o, by rw [← h1]; exact ho, rfl⟩⟩

theorem Steady.ret {α β : Type} {m : SM V α} {f : α → β} (h : Steady m) :
    Steady (do let a ← m; return f a) := by
  intro s a s' hm
  obtain ⟨b, s1, h1, h2⟩ := bind_inv hm
  simp at h2
  obtain ⟨-, rfl⟩ := h2
  exact h _ _ _ h1

theorem Quiet.getObj (x : Nat) : Quiet (getObj x : SM V Obj) := by
  intro s a s' h; obtain ⟨rfl, -⟩ := Cest.getObj_inv h; exact ⟨rfl, rfl⟩

theorem eval_quiet (a : Arg V) : Quiet a.eval := by
  cases a with
  | ext l off => exact Quiet.pure _
  | str y off => exact Quiet.bind (Quiet.getObj _) fun _ => Quiet.pure _

theorem Steady.after {α β : Type} {m : SM V α} {f : α → SM V β} (h : Quiet m) (hf : ∀ a, Steady (f a)) :
    Steady (m >>= f) := by
  intro s b s' hm
  obtain ⟨a, s1, h1, h2⟩ := bind_inv hm
  obtain ⟨e1, e2⟩ := h _ _ _ h1
  obtain ⟨e3, e4⟩ := hf a _ _ _ h2
  exact ⟨by rw [e3, e2], fun y o ho => by rw [← e1]; exact e4 y o ho⟩

theorem avail_quiet (p : Ptr V) : Quiet p.avail := by
  cases p with
  | ext a off => exact Quiet.pure _
  | cell q off =>
    refine Quiet.bind ?_ fun a => Quiet.bind ?_ fun b => Quiet.pure _
    · intro s a s' hs; unfold deref at hs; split at hs <;> cases hs; exact ⟨rfl, rfl⟩
    · intro s a s' hs; unfold getC at hs; split at hs <;> cases hs; exact ⟨rfl, rfl⟩

theorem scan_quiet (p : Ptr V) (k n : Nat) : Quiet (scan t p k n) := by
  induction n generalizing k with
  | zero => exact Quiet.ub _
  | succ n ih =>
    refine Quiet.bind (rd_quiet _ _) fun c => ?_
    split
    · exact Quiet.pure _
    · exact ih _

theorem length_quiet (p : Ptr V) : Quiet (length t p) := Quiet.bind (avail_quiet p) fun _ => scan_quiet _ _ _

theorem cmpChars_quiet (p q : Ptr V) (k n : Nat) : Quiet (cmpChars t p q k n) := by
  induction n generalizing k with
  | zero => exact Quiet.pure _
  | succ n ih =>
    refine Quiet.bind (rd_quiet _ _) fun a => Quiet.bind (rd_quiet _ _) fun b => ?_
    split
    · exact Quiet.pure _
    · split
      · exact Quiet.pure _
      · exact ih _

theorem findChar_quiet (p : Ptr V) (c : V) (k n : Nat) : Quiet (findChar p c k n) := by
  induction n generalizing k with
  | zero => exact Quiet.pure _
  | succ n ih =>
    refine Quiet.bind (rd_quiet _ _) fun a => ?_
    split
    · exact Quiet.pure _
    · exact ih _

theorem findLoop_quiet (p s : Ptr V) (c0 : V) (size count fuel first len : Nat) :
    Quiet (findLoop t p s c0 size count fuel first len) := by
  induction fuel generalizing first len with
  | zero => intro s a s' h; cases h
  | succ fuel ih =>
    unfold findLoop
    split
    · refine Quiet.bind (findChar_quiet _ _ _ _) fun r => ?_
      cases r with
      | none => exact Quiet.pure _
      | some f =>
        refine Quiet.bind (cmpChars_quiet _ _ _ _) fun r => ?_
        split
        · exact Quiet.pure _
        · exact ih _ _
    · exact Quiet.pure _

theorem findPC_quiet (x : Nat) (s : Ptr V) (pos n : Nat) : Quiet (findPC t x s pos n) := by
  unfold findPC
  refine Quiet.bind (Quiet.getObj _) fun o => ?_
  split
  · exact Quiet.pure _
  · split
    · exact Quiet.pure _
    · exact Quiet.bind (rd_quiet _ _) fun _ => findLoop_quiet _ _ _ _ _ _ _ _

theorem compareC_quiet (x : Nat) (s : Ptr V) : Quiet (compareC t x s) := by
  refine Quiet.bind (Quiet.getObj _) fun o => Quiet.bind (length_quiet _) fun n =>
    Quiet.bind (cmpChars_quiet _ _ _ _) fun r => ?_
  split <;> exact Quiet.pure _
theorem compare_quiet (x y : Nat) : Quiet (compare t x y) := by
  refine Quiet.bind (Quiet.getObj _) fun o => Quiet.bind (Quiet.getObj _) fun n =>
    Quiet.bind (cmpChars_quiet _ _ _ _) fun r => ?_
  split <;> exact Quiet.pure _
theorem eq_quiet (x y : Nat) : Quiet (eq t x y) := by
  refine Quiet.bind (Quiet.getObj _) fun o => Quiet.bind (Quiet.getObj _) fun n => ?_
  split
  · exact Quiet.bind (cmpChars_quiet _ _ _ _) fun r => Quiet.pure _
  · exact Quiet.pure _
theorem collect_quiet (p : Option Nat) (i n : Nat) : Quiet (collect p i n : SM V _) := by
  induction n generalizing i with
  | zero => exact Quiet.pure _
  | succ n ih => exact Quiet.bind (load_quiet _ _) fun _ => Quiet.bind (ih _) fun _ => Quiet.pure _

theorem resize_steady (x n : Nat) (c : V) (f : Obj → Nat) :
    Steady (do
      let o ← getObj x
      setObj x { o with size := f o }
      putc o.p n c : SM V Unit) := by
  intro s a s' h
  obtain ⟨o, s1, h1, h⟩ := bind_inv h
  obtain ⟨_, s2, h2, hz⟩ := bind_inv h
  obtain ⟨rfl, e1⟩ := Cest.getObj_inv h1
  obtain ⟨a2, b2⟩ := setObj_inv h2
  obtain ⟨a3, b3⟩ := putc_quiet _ _ _ _ _ _ hz
  refine ⟨by omega, fun y o' ho' => ?_⟩
  rw [a3, a2] at ho'
  by_cases hy : y = x
  · subst hy; simp at ho'; exact ⟨o, e1, by rw [← ho']⟩
  · simp [hy] at ho'; exact ⟨o', ho', rfl⟩

theorem popBack_steady (x : Nat) : Steady (popBack t x) := by
  intro s a s' h
  obtain ⟨o, s1, h1, h⟩ := bind_inv h
  split at h
  · cases h
  · obtain ⟨_, s2, h2, hz⟩ := bind_inv h
    obtain ⟨rfl, e1⟩ := Cest.getObj_inv h1
    obtain ⟨a2, b2⟩ := setObj_inv h2
    obtain ⟨a3, b3⟩ := putc_quiet _ _ _ _ _ _ hz
    refine ⟨by omega, fun y o' ho' => ?_⟩
    rw [a3, a2] at ho'
    by_cases hy : y = x
    · subst hy; simp at ho'; exact ⟨o, e1, by rw [← ho']⟩
    · simp [hy] at ho'; exact ⟨o', ho', rfl⟩

theorem dtor_steady (x : Nat) : Steady (dtor x : SM V Unit) := by
  intro s a s' h
  obtain ⟨o, s1, h1, h⟩ := bind_inv h
  obtain ⟨_, s2, h2, hz⟩ := bind_inv h
  obtain ⟨rfl, e1⟩ := Cest.getObj_inv h1
  obtain ⟨a2, b2⟩ := freeChars_quiet _ _ _ _ _ h2
  have h3 : s'.objs = upd s2.objs x none ∧ s'.next = s2.next := by
    unfold delObj at hz; split at hz <;> cases hz; exact ⟨rfl, rfl⟩
  refine ⟨by rw [h3.2, b2], fun y o' ho' => ?_⟩
  rw [h3.1, a2] at ho'
  by_cases hy : y = x
  · subst hy; simp at ho'
  · simp [hy] at ho'; exact ⟨o', ho', rfl⟩

/-- Operations that give no string new storage. -/
theorem steady_op {nul : V} {e : Env V} {c : Nat → Nat} {op : Op V}
    (hp : match op with
      | .new _ | .newPC .. | .newC .. | .newCopy .. | .newInput .. | .assignC .. | .assign .. | .append .. |
        .appendStr .. | .pushBack .. | .pushBackFrom .. | .plusEqCh .. | .reserve .. => False
      | _ => True) : grows nul e c op = none ∧ Steady (runOp t op) := by
  cases op with
  | new | newPC | newC | newCopy | newInput | assignC | assign | append | appendStr | pushBack | pushBackFrom
    | plusEqCh | reserve => exact hp.elim
  | popBack x => exact ⟨rfl, (popBack_steady x).ret⟩
  | clear x => exact ⟨rfl, (resize_steady x 0 t.nul fun _ => 0).ret⟩
  | set x i c => exact ⟨rfl, (Quiet.bind (Quiet.getObj _) fun _ => putc_quiet _ _ _).steady.ret⟩
  | destroy x => exact ⟨rfl, (dtor_steady x).ret⟩
  | size x => exact ⟨rfl, (Quiet.bind (Quiet.getObj _) fun _ => Quiet.pure _).steady.ret⟩
  | empty x => exact ⟨rfl, (Quiet.bind (Quiet.getObj _) fun _ => Quiet.pure _).steady.ret⟩
  | get x i => exact ⟨rfl, (Quiet.bind (Quiet.getObj _) fun _ => load_quiet _ _).steady.ret⟩
  | front x => exact ⟨rfl, (Quiet.bind (Quiet.getObj _) fun _ => load_quiet _ _).steady.ret⟩
  | back x =>
    refine ⟨rfl, (Quiet.bind (Quiet.getObj _) fun o => ?_).steady.ret⟩
    split
    · exact Quiet.bind (Quiet.ub _) fun _ => load_quiet _ _
    · exact load_quiet _ _
  | toList x => exact ⟨rfl, (Quiet.bind (Quiet.getObj _) fun _ => collect_quiet _ _ _).steady.ret⟩
  | findPC x s pos n => exact ⟨rfl, Steady.after (eval_quiet s) fun _ => (findPC_quiet _ _ _ _).steady.ret⟩
  | findC x s pos =>
    exact ⟨rfl, Steady.after (eval_quiet s) fun _ =>
      (Quiet.bind (length_quiet _) fun _ => findPC_quiet _ _ _ _).steady.ret⟩
  | findStr x y pos =>
    exact ⟨rfl, (Quiet.bind (Quiet.bind (Quiet.getObj _) fun _ => Quiet.pure _) fun _ =>
      Quiet.bind (length_quiet _) fun _ => findPC_quiet _ _ _ _).steady.ret⟩
  | findCh x c => exact ⟨rfl, (Quiet.bind (Quiet.getObj _) fun _ => findChar_quiet _ _ _ _).steady.ret⟩
  | compare x y => exact ⟨rfl, (compare_quiet x y).steady.ret⟩
  | compareC x s => exact ⟨rfl, Steady.after (eval_quiet s) fun _ => (compareC_quiet _ _).steady.ret⟩
  | eq x y => exact ⟨rfl, (eq_quiet x y).steady.ret⟩
  | eqGen x y => exact ⟨rfl, (compare_quiet x y).steady.ret.ret⟩
  | eqC x s => exact ⟨rfl, Steady.after (eval_quiet s) fun _ => (compareC_quiet _ _).steady.ret.ret⟩
  | neC x s => exact ⟨rfl, Steady.after (eval_quiet s) fun _ => (compareC_quiet _ _).steady.ret.ret.ret⟩
  | ne x y => exact ⟨rfl, (eq_quiet x y).steady.ret.ret⟩
  | lt x y => exact ⟨rfl, (compare_quiet x y).steady.ret.ret⟩
  | ltC x s => exact ⟨rfl, Steady.after (eval_quiet s) fun _ => (compareC_quiet _ _).steady.ret.ret⟩
  | cLt s x => exact ⟨rfl, Steady.after (eval_quiet s) fun _ => (compareC_quiet _ _).steady.ret.ret⟩

/-- What an operation does to capacities and how often it allocates, in the form used below. -/
theorem after_eff {nul : V} {e : Env V} {c : Nat → Nat} {op : Op V} {x n k : Nat} {s s' : SSt V}
    (hc : ∀ y o, s.objs y = some o → o.cap = c y) (h : Eff x n k s s')
    (hg : grows nul e c op = some (x, n) ∧ k = allocs nul e c op ∨ grows nul e c op = none ∧ k = 0 ∧ n = c x) :
    (∀ y o, s'.objs y = some o → o.cap = capsAfter nul e c op y) ∧ s'.next = s.next + allocs nul e c op := by
  rcases hg with ⟨hg, rfl⟩ | ⟨hg, rfl, rfl⟩
  · refine ⟨fun y o ho => ?_, h.next⟩
    rw [h.caps hc y o ho]
    simp only [capsAfter, hg]
  · refine ⟨fun y o ho => ?_, by rw [h.next]; simp [allocs, hg]⟩
    rw [h.caps hc y o ho]
    simp only [capsAfter, hg]
    split
    · rename_i e; rw [e]
    · rfl

theorem step_caps {σ : Nat → Option (SV V)} (W : SW t st σ) {c : Nat → Nat}
    (hc : ∀ y o, st.objs y = some o → o.cap = c y) {e' : Env V} {op : Op V} {o : Out V} {st' : SSt V}
    (hs : specStep t.nul t.lt (envOf σ) op = some (e', o)) (h : runOp t op st = .ok o st') :
    (∀ y o, st'.objs y = some o → o.cap = capsAfter t.nul (envOf σ) c op y) ∧
      st'.next = st.next + allocs t.nul (envOf σ) c op := by
  have stay : (grows t.nul (envOf σ) c op = none ∧ Steady (runOp t op)) →
      (∀ y o, st'.objs y = some o → o.cap = capsAfter t.nul (envOf σ) c op y) ∧
      st'.next = st.next + allocs t.nul (envOf σ) c op := by
    rintro ⟨hg, hst⟩
    obtain ⟨h1, h2⟩ := hst _ _ _ h
    refine ⟨fun y o ho => ?_, by simp [h1, allocs, hg]⟩
    obtain ⟨o1, ho1, e1⟩ := h2 y o ho
    simp only [capsAfter, hg]
    rw [e1, hc y o1 ho1]
  -- data members of a living string
  have mem : ∀ {x : Nat} {xs : List V}, envOf σ x = some xs → ∃ s, σ x = some s ∧ s.val = xs ∧
      st.objs x = some ⟨xs.length, c x, some s.blk⟩ ∧ 1 ≤ c x := by
    intro x xs hx
    obtain ⟨s, hs, rfl⟩ := envOf_some rfl hx
    obtain ⟨h1, h2, h3⟩ := get_rep W hs
    have h4 := hc x _ h1
    have := h3.two
    simp only [SV.obj] at h1 h4
    refine ⟨s, hs, rfl, by rw [h1, SV.val_length h3, h4], by omega⟩
  cases op with
  | new x =>
    obtain ⟨_, s1, h1, h2⟩ := bind_inv h
    simp at h2; obtain ⟨-, rfl⟩ := h2
    exact after_eff hc (ctor_eff h1) (.inl ⟨rfl, rfl⟩)
  | newPC x a n =>
    obtain ⟨p, s0, h0, h⟩ := bind_inv h
    obtain ⟨_, s1, h1, h2⟩ := bind_inv h
    simp at h2
    have E := ctorPC_eff h1
    obtain ⟨q1, q2⟩ := eval_quiet a _ _ _ h0
    rw [← h2.2]
    exact after_eff (x := x) (n := n + 1) (k := 1) hc
      ⟨by rw [E.next, q2], E.cap, fun y hy => by rw [E.others y hy, q1]⟩ (.inl ⟨rfl, rfl⟩)
  | newC x a =>
    simp only [specStep] at hs
    split at hs <;> simp at hs
    rename_i cs hx hv
    obtain ⟨v, hw, hn, rfl⟩ := cstr_view hv
    obtain ⟨p, hp, hsee, _⟩ := arg_sees W rfl hw
    simp only [runOp, M.bind_apply, hp] at h
    rw [ctorC, M.bind_apply, length_ok hsee hn] at h
    simp only at h
    split at h <;> simp at h
    rename_i h1
    rw [← h.2]
    exact after_eff hc (ctorPC_eff h1) (.inl ⟨by simp [grows, hv], by simp [allocs, grows, hv]⟩)
  | newCopy x y =>
    simp only [specStep] at hs
    split at hs <;> simp at hs
    rename_i ys hx hy
    obtain ⟨s, hy', hv, -, -⟩ := mem hy
    subst hv
    obtain ⟨c1, c2⟩ := SV.cstr_of (get_rep W hy').2.2 hs.1
    simp only [runOp, copyCtor, M.bind_apply, data_ok W hy'] at h
    rw [ctorC, M.bind_apply, length_ok (v := s.buf) (by simpa using sees_data W hy' 0) c1, c2] at h
    simp only at h
    split at h <;> simp at h
    rename_i h1
    rw [← h.2]
    exact after_eff hc (ctorPC_eff h1) (.inl ⟨by simp [grows, hy], by simp [allocs, grows, hy]⟩)
  | newInput x cs =>
    simp only [specStep] at hs
    split at hs <;> simp at hs
    obtain ⟨_, s1, h1, h2⟩ := bind_inv h
    simp at h2; obtain ⟨-, rfl⟩ := h2
    exact after_eff hc (ctorInput_eff hs.1 h1) (.inl ⟨rfl, rfl⟩)
  | assignC x a =>
    simp only [specStep] at hs
    split at hs <;> simp at hs
    rename_i xs cs hx hv
    obtain ⟨s, hx', rfl, ho, -⟩ := mem hx
    obtain ⟨v, hw, hn, rfl⟩ := cstr_view hv
    obtain ⟨p, hp, hsee, _⟩ := arg_sees W rfl hw
    simp only [runOp, M.bind_apply, hp] at h
    split at h <;> simp at h
    rename_i h1
    rw [← h.2]
    have E := assignC_eff ho (length_ok hsee hn) h1
    refine after_eff hc E ?_
    by_cases hg : c x < (v.takeWhile (· ≠ t.nul)).length + 1
    · left; simp only [allocs, grows, hv, Option.bind_some, if_pos hg]; simp
    · right; simp only [grows, hv, Option.bind_some, if_neg hg]; simp
  | assign x y =>
    simp only [specStep] at hs
    split at hs <;> simp at hs
    rename_i xs ys hx hy
    obtain ⟨s, hx', rfl, ho, -⟩ := mem hx
    obtain ⟨s2, hy', hv, -, -⟩ := mem hy
    subst hv
    obtain ⟨c1, c2⟩ := SV.cstr_of (get_rep W hy').2.2 hs.1.1
    simp only [runOp, assign, M.bind_apply, data_ok W hy'] at h
    split at h <;> simp at h
    rename_i h1
    rw [← h.2]
    have E := assignC_eff ho (by
      rw [length_ok (v := s2.buf) (by simpa using sees_data W hy' 0) c1, c2]) h1
    refine after_eff hc E ?_
    by_cases hg : c x < s2.val.length + 1
    · left; simp only [allocs, grows, hy, Option.bind_some, if_pos hg]; simp
    · right; simp only [grows, hy, Option.bind_some, if_neg hg]; simp
  | append x a n =>
    simp only [specStep] at hs
    split at hs <;> try simp at hs
    rename_i xs cs hx hv
    obtain ⟨s, hx', rfl, ho, -⟩ := mem hx
    obtain ⟨v, hw, hn, rfl⟩ := chars_view hv
    obtain ⟨p, hp, hsee, _⟩ := arg_sees W rfl hw
    simp only [runOp, M.bind_apply, hp] at h
    split at h <;> simp at h
    rename_i h1
    rw [← h.2]
    have E := append_eff ho h1
    refine after_eff hc E ?_
    by_cases hg : c x < s.val.length + n
    · left; simp only [allocs, grows, hx, Option.bind_some, if_pos hg]; simp
    · right; simp only [grows, hx, Option.bind_some, if_neg hg]; simp
  | appendStr x y =>
    simp only [specStep] at hs
    split at hs <;> simp at hs
    rename_i xs ys hx hy
    obtain ⟨s, hx', rfl, ho, -⟩ := mem hx
    obtain ⟨s2, hy', rfl, ho2, -⟩ := mem hy
    simp only [runOp, appendStr, M.bind_apply, getObj_some ho2] at h
    split at h <;> simp at h
    rename_i h1
    rw [← h.2]
    have E := append_eff ho h1
    refine after_eff hc E ?_
    by_cases hg : c x < s.val.length + s2.val.length
    · left; simp only [allocs, grows, hx, hy, Option.bind_some, if_pos hg]; simp
    · right; simp only [grows, hx, hy, Option.bind_some, if_neg hg]; simp
  | pushBack x v =>
    simp only [specStep] at hs
    split at hs <;> simp at hs
    rename_i xs hx
    obtain ⟨s, hx', rfl, ho, h1⟩ := mem hx
    obtain ⟨_, s1, h2, h3⟩ := bind_inv h
    simp at h3; rw [← h3.2]
    refine after_eff hc (pushBack_eff ho h1 h2) ?_
    by_cases hg : c x < s.val.length + 1
    · left; simp only [allocs, grows, hx, Option.bind_some, if_pos hg]; simp
    · right; simp only [grows, hx, Option.bind_some, if_neg hg]; simp
  | plusEqCh x v =>
    simp only [specStep] at hs
    split at hs <;> simp at hs
    rename_i xs hx
    obtain ⟨s, hx', rfl, ho, h1⟩ := mem hx
    obtain ⟨_, s1, h2, h3⟩ := bind_inv h
    simp at h3; rw [← h3.2]
    refine after_eff hc (pushBack_eff ho h1 h2) ?_
    by_cases hg : c x < s.val.length + 1
    · left; simp only [allocs, grows, hx, Option.bind_some, if_pos hg]; simp
    · right; simp only [grows, hx, Option.bind_some, if_neg hg]; simp
  | pushBackFrom x y i =>
    simp only [specStep] at hs
    split at hs <;> try simp at hs
    rename_i xs ys hx hy
    obtain ⟨s, hx', rfl, ho, h1⟩ := mem hx
    obtain ⟨s2, hy', rfl, ho2, -⟩ := mem hy
    simp only [runOp, M.bind_apply, getObj_some ho2] at h
    split at h <;> simp at h
    rename_i h2
    rw [← h.2]
    refine after_eff hc (pushBack_eff ho h1 h2) ?_
    by_cases hg : c x < s.val.length + 1
    · left; simp only [allocs, grows, hx, Option.bind_some, if_pos hg]; simp
    · right; simp only [grows, hx, Option.bind_some, if_neg hg]; simp
  | reserve x n =>
    simp only [specStep] at hs
    split at hs <;> simp at hs
    rename_i xs hx
    obtain ⟨s, hx', rfl, ho, h1⟩ := mem hx
    obtain ⟨_, s1, h2, h3⟩ := bind_inv h
    simp at h3; rw [← h3.2]
    obtain ⟨q, e1, e2⟩ := reserve_eff ho h2
    have E : Eff x (if c x < n then n else c x) (if c x < n then 1 else 0) st s1 :=
      ⟨e2, by intro o ho; rw [e1] at ho; simp at ho; rw [← ho], fun y hy => by rw [e1]; simp [hy]⟩
    refine after_eff hc E ?_
    by_cases hg : c x < n
    · left; simp only [allocs, grows, if_pos hg]; simp
    · right; simp only [grows, if_neg hg]; simp
  | _ => exact stay (steady_op trivial)

theorem step_CW (ht : t.Lawful) {e e' : Env V} {c : Nat → Nat} {op : Op V} {o : Out V} (A : CW t st e c)
    (hs : specStep t.nul t.lt e op = some (e', o)) :
    ∃ st', runOp t op st = .ok o st' ∧ CW t st' e' (capsAfter t.nul e c op) ∧
      st'.next = st.next + allocs t.nul e c op := by
  obtain ⟨σ, W, rfl, hc⟩ := A
  obtain ⟨st', σ', h1, W', he⟩ := step_refines ht W rfl hs
  obtain ⟨h2, h3⟩ := step_caps W hc hs h1
  exact ⟨st', h1, ⟨σ', W', he, h2⟩, h3⟩

theorem CW.thr {e : Env V} {c : Nat → Nat} (A : CW t st e c) : st.thr = none := by
  obtain ⟨σ, W, -, -⟩ := A; exact W.thr

theorem arm_thr {s : SSt V} (h : s.thr = none) : ({ s with thr := none } : SSt V) = s := by
  cases s; simp_all

/-- With enough successful allocations an operation does what it does otherwise. -/
theorem step_enough (ht : t.Lawful) {e e' : Env V} {c : Nat → Nat} {op : Op V} {o : Out V} (A : CW t st e c)
    (hs : specStep t.nul t.lt e op = some (e', o)) {k : Nat} (hk : allocs t.nul e c op ≤ k) :
    ∃ st' k', runOp t op { st with thr := some k } = .ok o { st' with thr := k' } ∧
      CW t st' e' (capsAfter t.nul e c op) := by
  obtain ⟨st', h1, A', hn⟩ := step_CW ht A hs
  obtain ⟨-, d, h2, h3⟩ := runOp_cost (t := t) op st A.thr
  have := (h2 _ _ h1).2
  have := h3 (k - d)
  rw [Nat.sub_add_cancel (by omega), h1] at this
  exact ⟨st', _, this, A'⟩

theorem ctorInput_throw0 {σ : Nat → Option (SV V)} (W : SW t st σ) {x : Nat} (hx : σ x = none) (c : V) (cs : List V) :
    ctorInput t x (c :: cs) (arm st (some 0)) = .throw .badAlloc st := by
  have h0 := W.dom x hx
  simp only [ctorInput, M.bind_apply]
  rw [newObj_none (by exact h0)]
  simp only [M.onThrow, M.bind_apply]
  rw [getObj_some (o := ⟨0, 0, none⟩) (by simp [arm])]
  simp only [inputLoop1, Nat.lt_irrefl, if_false, M.pure_apply]
  simp only [inputLoop2, M.bind_apply, if_true]
  rw [allocInit_throw _ (by rfl)]
  simp only []
  rw [delObj_some (o := ⟨0, 0, none⟩) (by simp [arm])]
  simp only [arm, upd_upd]
  rw [upd_eq_self h0]
  have := W.thr
  cases st; simp_all

/-- An operation that runs out of storage changes nothing. -/
theorem step_oom {e e' : Env V} {c : Nat → Nat} {op : Op V} {o : Out V} (A : CW t st e c)
    (hs : specStep t.nul t.lt e op = some (e', o)) {k : Nat} (hu : upset t.nul e c op k = .caught) :
    runOp t op { st with thr := some k } = .throw .badAlloc st := by
  obtain ⟨σ, W, rfl, hc⟩ := A
  have hsee' : ∀ {p : Ptr V} {v : List V}, Sees st p v → Sees (arm st (some 0)) p v :=
    fun h => h.frame fun _ _ => rfl
  have heval : ∀ {a : Arg V} {p : Ptr V}, a.eval st = .ok p st → a.eval (arm st (some 0)) = .ok p (arm st (some 0)) := by
    intro a p h
    cases a with
    | ext l off => simp [Arg.eval] at h ⊢; exact h
    | str y off =>
      cases hy : st.objs y with
      | none => simp [Arg.eval, getObj, hy] at h
      | some o => simp [Arg.eval, getObj, hy, arm] at h ⊢; exact h
  have mem : ∀ {x : Nat} {xs : List V}, envOf σ x = some xs → ∃ s, σ x = some s ∧ s.val = xs ∧ s.n = xs.length ∧
      st.objs x = some ⟨xs.length, c x, some s.blk⟩ ∧ 1 ≤ c x ∧ s.buf.length = c x + 1 ∧ xs.length ≤ c x := by
    intro x xs hx
    obtain ⟨s, hs, rfl⟩ := envOf_some rfl hx
    obtain ⟨h1, h2, h3⟩ := get_rep W hs
    have h4 := hc x _ h1
    have := h3.two
    have := h3.lt
    have := SV.val_length h3
    simp only [SV.obj] at h1 h4
    exact ⟨s, hs, rfl, this.symm, by rw [h1, SV.val_length h3, h4], by omega, by omega, by omega⟩
  simp only [upset] at hu
  split at hu
  · cases hu
  rename_i hk
  -- the first allocation fails
  have one : (∀ x cs, op ≠ .newInput x cs) → grows t.nul (envOf σ) c op ≠ none ∧ k = 0 := by
    intro hop
    cases hg : grows t.nul (envOf σ) c op with
    | none => simp [allocs, hg] at hk
    | some r =>
      refine ⟨by simp, ?_⟩
      simp only [allocs, hg] at hk
      omega
  cases op with
  | newPC x a n =>
    simp only [specStep] at hs
    split at hs <;> simp at hs
    rename_i cs hx hv
    obtain ⟨v, hw, hn, -⟩ := chars_view hv
    obtain ⟨p, hp, -, -⟩ := arg_sees W rfl hw
    obtain ⟨-, rfl⟩ := one (by simp)
    have := ctorPC_throw W (envOf_none rfl hx) p n
    show runOp t _ (arm st (some 0)) = _
    simp only [runOp, M.bind_apply, heval hp, this]
  | newC x a =>
    simp only [specStep] at hs
    split at hs <;> simp at hs
    rename_i cs hx hv
    obtain ⟨v, hw, hn, rfl⟩ := cstr_view hv
    obtain ⟨p, hp, hsee, -⟩ := arg_sees W rfl hw
    obtain ⟨-, rfl⟩ := one (by simp)
    have := ctorPC_throw W (envOf_none rfl hx) p (v.takeWhile (· ≠ t.nul)).length
    show runOp t _ (arm st (some 0)) = _
    simp only [runOp, M.bind_apply, heval hp, ctorC, length_ok (hsee' hsee) hn, this]
  | newCopy x y =>
    simp only [specStep] at hs
    split at hs <;> simp at hs
    rename_i ys hx hy
    obtain ⟨s, hy', hv, -, ho, -⟩ := mem hy
    subst hv
    obtain ⟨c1, c2⟩ := SV.cstr_of (get_rep W hy').2.2 hs.1
    obtain ⟨-, rfl⟩ := one (by simp)
    have := ctorPC_throw W (envOf_none rfl hx) (.cell (some s.blk) 0) s.val.length
    have hd : data y (arm st (some 0)) = .ok (.cell (some s.blk) 0) (arm st (some 0)) := by
      simp only [data, M.bind_apply]
      rw [getObj_some (by exact ho)]
      rfl
    show runOp t _ (arm st (some 0)) = _
    simp only [runOp, copyCtor, M.bind_apply, hd, ctorC]
    rw [length_ok (v := s.buf) (hsee' (by simpa using sees_data W hy' 0)) c1, c2]
    simp only [this]
  | newInput x cs =>
    simp only [specStep] at hs
    split at hs <;> simp at hs
    rename_i hx
    simp only at hu
    split at hu <;> cases hu
    rename_i k0; subst k0
    cases cs with
    | nil => exact absurd rfl hs.1
    | cons v cs =>
      have := ctorInput_throw0 W (envOf_none rfl hx) v cs
      show runOp t _ (arm st (some 0)) = _
      simp only [runOp, M.bind_apply, this]
  | append x a n =>
    simp only [specStep] at hs
    split at hs <;> try simp at hs
    rename_i xs cs hx hv
    obtain ⟨s, hx', rfl, hl, ho, -, hb, -⟩ := mem hx
    obtain ⟨v, hw, hn, -⟩ := chars_view hv
    obtain ⟨p, hp, -, -⟩ := arg_sees W rfl hw
    obtain ⟨hg, rfl⟩ := one (by simp)
    simp only [grows, hx, Option.bind_some] at hg
    split at hg <;> try (exact absurd rfl hg)
    have := append_throw W hx' p (n := n) (by omega)
    show runOp t _ (arm st (some 0)) = _
    simp only [runOp, M.bind_apply, heval hp, this]
  | appendStr x y =>
    simp only [specStep] at hs
    split at hs <;> simp at hs
    rename_i xs ys hx hy
    obtain ⟨s, hx', rfl, hl, ho, -, hb, -⟩ := mem hx
    obtain ⟨s2, hy', rfl, hl2, ho2, -, hb2, -⟩ := mem hy
    obtain ⟨hg, rfl⟩ := one (by simp)
    simp only [grows, hx, hy, Option.bind_some] at hg
    split at hg <;> try (exact absurd rfl hg)
    have := append_throw W hx' (.cell (some s2.blk) 0) (n := s2.val.length) (by omega)
    show runOp t _ (arm st (some 0)) = _
    simp only [runOp, appendStr, M.bind_apply]
    rw [getObj_some (by exact ho2)]
    simp only [this]
  | pushBack x v =>
    simp only [specStep] at hs
    split at hs <;> simp at hs
    rename_i xs hx
    obtain ⟨s, hx', rfl, hl, ho, -, hb, hle⟩ := mem hx
    obtain ⟨hg, rfl⟩ := one (by simp)
    simp only [grows, hx, Option.bind_some] at hg
    split at hg <;> try (exact absurd rfl hg)
    have := pushBack_throw W hx' (.ext [v] 0) (by omega)
    show runOp t _ (arm st (some 0)) = _
    simp only [runOp, M.bind_apply, this]
  | plusEqCh x v =>
    simp only [specStep] at hs
    split at hs <;> simp at hs
    rename_i xs hx
    obtain ⟨s, hx', rfl, hl, ho, -, hb, hle⟩ := mem hx
    obtain ⟨hg, rfl⟩ := one (by simp)
    simp only [grows, hx, Option.bind_some] at hg
    split at hg <;> try (exact absurd rfl hg)
    have := pushBack_throw W hx' (.ext [v] 0) (by omega)
    show runOp t _ (arm st (some 0)) = _
    simp only [runOp, plusEqCh, M.bind_apply, this]
  | pushBackFrom x y i =>
    simp only [specStep] at hs
    split at hs <;> try simp at hs
    rename_i xs ys hx hy
    obtain ⟨s, hx', rfl, hl, ho, -, hb, hle⟩ := mem hx
    obtain ⟨s2, hy', rfl, hl2, ho2, -, hb2, -⟩ := mem hy
    obtain ⟨hg, rfl⟩ := one (by simp)
    simp only [grows, hx, Option.bind_some] at hg
    split at hg <;> try (exact absurd rfl hg)
    have := pushBack_throw W hx' (.cell (some s2.blk) i) (by omega)
    show runOp t _ (arm st (some 0)) = _
    simp only [runOp, M.bind_apply]
    rw [getObj_some (by exact ho2)]
    simp only [this]
  | reserve x n =>
    simp only [specStep] at hs
    split at hs <;> simp at hs
    rename_i xs hx
    obtain ⟨s, hx', rfl, hl, ho, -, hb, hle⟩ := mem hx
    obtain ⟨hg, rfl⟩ := one (by simp)
    simp only [grows] at hg
    split at hg <;> try (exact absurd rfl hg)
    have := reserve_throw W hx' (n := n) (by omega)
    show runOp t _ (arm st (some 0)) = _
    simp only [runOp, M.bind_apply, this]
  | _ => first
    | exact absurd rfl (one (by simp)).1
    | cases hu

theorem runT_refines (ht : t.Lawful) {ops : List (Option Nat × Op V)} {st : SSt V} {e e' : Env V}
    {c c' : Nat → Nat} {os : List (Option (Out V))} (A : CW t st e c)
    (h : specRunT t.nul t.lt e c ops = some (e', c', os)) :
    ∃ st', runT t ops st = .ok os st' ∧ CW t st' e' c' := by
  induction ops generalizing st e c os with
  | nil => simp [specRunT] at h; obtain ⟨rfl, rfl, rfl⟩ := h; exact ⟨st, rfl, A⟩
  | cons p ops ih =>
    obtain ⟨k, op⟩ := p
    simp only [specRunT] at h
    split at h <;> try simp at h
    rename_i e1 o h1
    split at h
    · rename_i hu
      obtain ⟨r, hr, he⟩ := Option.map_eq_some_iff.1 h
      obtain ⟨e2, c2, os2⟩ := r
      cases he
      have key : ∃ st' k', runOp t op { st with thr := k } = .ok o { st' with thr := k' } ∧
          CW t st' e1 (capsAfter t.nul e c op) := by
        cases k with
        | none =>
          obtain ⟨st', r1, A1, -⟩ := step_CW ht A h1
          exact ⟨st', none, by rw [arm_thr A.thr, arm_thr A1.thr, r1], A1⟩
        | some k =>
          refine step_enough ht A h1 ?_
          simp only [Option.elim, upset] at hu
          split at hu
          · assumption
          · split at hu <;> try (cases hu; done)
            split at hu <;> cases hu
      obtain ⟨st1, k', r1, A1⟩ := key
      obtain ⟨st2, r2, A2⟩ := ih A1 hr
      refine ⟨st2, ?_, A2⟩
      simp only [runT, r1]
      rw [arm_thr A1.thr]
      simp [r2]
    · rename_i hu
      obtain ⟨r, hr, he⟩ := Option.map_eq_some_iff.1 h
      obtain ⟨e2, c2, os2⟩ := r
      cases he
      cases k with
      | none => simp at hu
      | some k =>
        have r1 := step_oom A h1 hu
        obtain ⟨st2, r2, A2⟩ := ih A hr
        refine ⟨st2, ?_, A2⟩
        simp only [runT, r1]
        rw [arm_thr A.thr]
        simp [r2]
    · cases h

end Cest.Str
