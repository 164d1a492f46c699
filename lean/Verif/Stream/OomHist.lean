import Verif.Stream.Oom
/-
Lemmas for C147: the statements that allocate, and whole programs.
-/
namespace Cest.Stream
open Cest
set_option linter.unusedSectionVars false
variable {V : Type} [DecidableEq V] {t : Traits V} {α β : Type} {σ : Nat → Option (Str.SV V)} {st : SSt V} {e : Env V}

theorem arm_arm (s : SSt V) (j k : Option Nat) : (s.arm j).arm k = s.arm k := rfl
theorem arm_self {s : SSt V} (h : s.strs.thr = none) : s.arm none = s := by
  obtain ⟨⟨a, b, c, d⟩, f, g⟩ := s
  simp only at h
  subst h; rfl

theorem Inv.arm (I : Inv t σ st e) (k : Option Nat) : Inv t σ ((st.arm k).arm none) e := by
  rw [arm_arm, arm_self I.world.thr]; exact I

/-- From `st`, `m` ends normally, with at most `n` allocations. -/
def Pays (m : SM V α) (st : SSt V) (n : Nat) (a : α) (st' : SSt V) : Prop :=
  m st = .ok a st' ∧ st'.strs.thr = none ∧
    ∀ k, n ≤ k → ∃ k', k - n ≤ k' ∧ m (st.arm (some k)) = .ok a (st'.arm (some k'))

theorem Pays.bind {m : SM V α} {f : α → SM V β} {st1 st2 : SSt V} {n n' : Nat} {a : α} {b : β}
    (h : Pays m st n a st1) (g : Pays (f a) st1 n' b st2) : Pays (m >>= f) st (n + n') b st2 := by
  obtain ⟨h1, h2, h3⟩ := h
  obtain ⟨g1, g2, g3⟩ := g
  refine ⟨by simp only [M.bind_apply, h1, g1], g2, fun k hk => ?_⟩
  obtain ⟨k1, e1, e2⟩ := h3 k (by omega)
  obtain ⟨k2, e3, e4⟩ := g3 k1 (by omega)
  exact ⟨k2, by omega, by simp only [M.bind_apply, e2, e4]⟩

theorem Blind.pays {m : SM V α} (h : Blind m) (ht : st.strs.thr = none) {a : α} {st' : SSt V}
    (hm : m st = .ok a st') : Pays m st 0 a st' := by
  refine ⟨hm, ?_, fun k _ => ⟨k, by omega, by rw [h.arm, hm]; rfl⟩⟩
  have h1 := h.arm st none
  rw [arm_self ht, hm] at h1
  simp only [armR] at h1
  injection h1 with _ h2
  rw [h2]; rfl

theorem Blind.steady {m : SM V α} (h : Blind m) {a : α} {st st' : SSt V} (hm : m st = .ok a st') :
    Caps st.strs st'.strs := by
  have := h.caps st
  rw [hm] at this
  exact this

theorem Pays.lift {m : Str.SM V α} {a : α} {st' : SSt V} {n : Nat} (hc : NCost 1 m 0) (ht : st.strs.thr = none)
    (hm : lift m st = .ok a st') (hn : st'.strs.next ≤ st.strs.next + n) : Pays (lift m) st n a st' := by
  have hm0 := hm
  obtain ⟨h1, c, h2, h3⟩ := hc st.strs ht
  simp only [Stream.lift] at hm
  cases hs : m st.strs with
  | ok b s' =>
    rw [hs] at hm h1 h3
    cases hm
    obtain ⟨_, h2⟩ := h2 _ _ hs
    have hc : c ≤ n := by simp only at hn; omega
    refine ⟨hm0, h1, fun k hk => ⟨k - c, by omega, ?_⟩⟩
    have h4 := h3 (k - c)
    rw [show k - c + c = k by omega] at h4
    simp only [Stream.lift, SSt.arm]
    rw [h4]
    rfl
  | throw e s' => rw [hs] at hm; cases hm
  | ub u => rw [hs] at hm; cases hm
  | timeout => rw [hs] at hm; cases hm

theorem Pays.onThrow {m : SM V α} {f : SM V Unit} {n : Nat} {a : α} {st' : SSt V} (h : Pays m st n a st') :
    Pays (M.onThrow m f) st n a st' := by
  obtain ⟨h1, h2, h3⟩ := h
  refine ⟨by simp only [M.onThrow, h1], h2, fun k hk => ?_⟩
  obtain ⟨k', e1, e2⟩ := h3 k hk
  exact ⟨k', e1, by simp only [M.onThrow, e2]⟩

theorem onThrow_inv {m : SM V α} {f : SM V Unit} {a : α} {st st' : SSt V} (h : M.onThrow m f st = .ok a st') :
    m st = .ok a st' := by
  simp only [M.onThrow] at h
  cases hm : m st with
  | ok b s => rw [hm] at h; exact h
  | throw e s => rw [hm] at h; simp only [] at h; split at h <;> cases h
  | ub u => rw [hm] at h; cases h
  | timeout => rw [hm] at h; cases h

theorem lift_inv {m : Str.SM V α} {a : α} {st st' : SSt V} (h : lift m st = .ok a st') :
    m st.strs = .ok a st'.strs ∧ st' = { st with strs := st'.strs } := by
  simp only [lift] at h
  split at h <;> cases h
  exact ⟨by assumption, rfl⟩

theorem lift_bind {m : Str.SM V α} {f : α → Str.SM V β} : lift (m >>= f) = (lift m >>= fun a => lift (f a)) := by
  funext s
  simp only [lift, M.bind_apply]
  cases m s.strs <;> rfl

/-- Of all capacities, that of `x` has changed, to `n`. -/
def CapsTo (x n : Nat) (s s' : Str.SSt V) : Prop :=
  ∀ z o', s'.objs z = some o' → (z = x ∧ o'.cap = n) ∨ (z ≠ x ∧ ∃ o, s.objs z = some o ∧ o.cap = o'.cap)

theorem CapsTo.of_eff {x n k : Nat} {s s' : Str.SSt V} (h : Str.Eff x n k s s') : CapsTo x n s s' := by
  intro z o' ho
  by_cases hz : z = x
  · subst hz; exact .inl ⟨rfl, h.cap _ ho⟩
  · exact .inr ⟨hz, o', by rw [← h.others z hz]; exact ho, rfl⟩

theorem CapsTo.after {x n : Nat} {s1 s2 s3 : Str.SSt V} (h : CapsTo x n s1 s2) (g : Caps s2 s3) : CapsTo x n s1 s3 := by
  intro z o' ho
  obtain ⟨o, h1, h2⟩ := g z o' ho
  rcases h z o h1 with ⟨a, b⟩ | ⟨a, o2, b, c⟩
  · exact .inl ⟨a, by rw [← h2]; exact b⟩
  · exact .inr ⟨a, o2, b, by rw [c, h2]⟩

theorem CapsTo.before {x n : Nat} {s1 s2 s3 : Str.SSt V} (g : Caps s1 s2) (h : CapsTo x n s2 s3) : CapsTo x n s1 s3 := by
  intro z o' ho
  rcases h z o' ho with ⟨a, b⟩ | ⟨a, o2, b, c⟩
  · exact .inl ⟨a, b⟩
  · obtain ⟨o3, h1, h2⟩ := g z o2 b
    exact .inr ⟨a, o3, h1, by rw [h2, c]⟩

/-- The capacities of the streams' buffers. -/
def CapsAre (c : Nat → Nat) (st : SSt V) : Prop := ∀ x o, st.strs.objs (bufId x) = some o → o.cap = c x

theorem CapsAre.caps {c : Nat → Nat} {st st' : SSt V} (h : CapsAre c st) (g : Caps st.strs st'.strs) :
    CapsAre c st' := by
  intro x o' ho
  obtain ⟨o, h1, h2⟩ := g _ _ ho
  rw [← h2]; exact h _ _ h1

theorem CapsAre.to {c : Nat → Nat} {st st' : SSt V} {x n : Nat} (h : CapsAre c st)
    (g : CapsTo (bufId x) n st.strs st'.strs) : CapsAre (fun z => if z = x then n else c z) st' := by
  intro z o' ho
  rcases g _ _ ho with ⟨a, b⟩ | ⟨a, o, b, d⟩
  · have : z = x := by simp only [bufId] at a; omega
    simp [this, b]
  · have : z ≠ x := fun h => a (by rw [h])
    simp [this]; rw [← d]; exact h _ _ b

theorem CapsAre.other {c : Nat → Nat} {st st' : SSt V} {y n : Nat} (h : CapsAre c st)
    (hy : ∀ z, bufId z ≠ y) (g : CapsTo y n st.strs st'.strs) : CapsAre c st' := by
  intro z o' ho
  rcases g _ _ ho with ⟨a, b⟩ | ⟨a, o, b, d⟩
  · exact absurd a (hy z)
  · rw [← d]; exact h _ _ b

/-- A string is constructed. -/
theorem ctorPC_pays {x n : Nat} {p : Str.Ptr V} {st' : SSt V} (ht : st.strs.thr = none)
    (h : lift (Str.ctorPC t.toTraits x p n) st = .ok () st') :
    Pays (lift (Str.ctorPC t.toTraits x p n)) st 1 () st' ∧ CapsTo x (n + 1) st.strs st'.strs := by
  obtain ⟨h1, h2⟩ := lift_inv h
  have he := Str.ctorPC_eff h1
  exact ⟨Pays.lift (Str.ctorPC_cost _ _ _) ht h (by rw [he.next]; exact Nat.le_refl _), .of_eff he⟩

/-- With one allocation granted, it uses that one. -/
theorem ctorPC_exact {x n : Nat} {p : Str.Ptr V} {ss ss' : Str.SSt V} (W : Str.SW t.toTraits ss σ) (hx : σ x = none)
    (h : Str.ctorPC t.toTraits x p n ss = .ok () ss') (k : Nat) :
    Str.ctorPC t.toTraits x p n { ss with thr := some (k + 1) } = .ok () { ss' with thr := some k } := by
  obtain ⟨h1, c, h2, h3⟩ := Str.ctorPC_cost (t := t.toTraits) x p n ss W.thr
  have he := Str.ctorPC_eff h
  obtain ⟨_, h2⟩ := h2 _ _ h
  rw [he.next] at h2
  have hc0 : c ≠ 0 := by
    rintro rfl
    have g := h3 0
    have g2 := Str.ctorPC_throw W hx p n
    simp only [Str.arm] at g2
    rw [h] at g
    simp only [Nat.zero_add, Res.arm] at g
    rw [g2] at g
    cases g
  have hc : c = 1 := by omega
  subst hc
  rw [h3 k, h]; rfl

theorem ctorStr_pays {x y : Nat} {m : Mode} {hp : Bool} {st' : SSt V} {sv : Str.SV V}
    (W : Str.SW t.toTraits st.strs σ) (hy : σ y = some sv)
    (h : ctorStr t x y m hp st = .ok () st') :
    Pays (ctorStr t x y m hp) st 1 () st' ∧ CapsTo (bufId x) (sv.val.length + 1) st.strs st'.strs := by
  have hv := Str.SV.val_length (Str.get_rep W hy).2.2
  have ho := (Str.get_rep W hy).1
  unfold ctorStr at h ⊢
  obtain ⟨_, s1, h1, ha⟩ := Str.bind_inv h
  obtain ⟨_, s2, h2, hb⟩ := Str.bind_inv ha
  obtain ⟨_, s3, h3, hl⟩ := Str.bind_inv hb
  have hs1 : s1.strs = st.strs := by
    simp only [newIos] at h1; split at h1 <;> cases h1; rfl
  have p1 := (Blind.newIos (V := V) x _).pays W.thr h1
  have c1 := (Blind.newIos (V := V) x _).steady h1
  have h2' := onThrow_inv h2
  rw [lift_bind] at h2'
  obtain ⟨p, s4, h4, h5⟩ := Str.bind_inv h2'
  rw [lift_bind] at h5
  obtain ⟨n, s5, h5, h6⟩ := Str.bind_inv h5
  have p4 := (Blind.liftData (V := V) y).pays p1.2.1 h4
  have e4 : s4 = s1 := by
    obtain ⟨g1, g2⟩ := lift_inv h4
    have ho' : s1.strs.objs y = some sv.obj := by rw [hs1]; exact ho
    simp only [Str.data, M.bind_apply, getObj, ho'] at g1
    injection g1 with _ g3
    rw [g2, ← g3]
  subst e4
  have p5 := (Blind.liftSize (V := V) y).pays p4.2.1 h5
  have e5 : s5 = s4 ∧ n = sv.val.length := by
    obtain ⟨g1, g2⟩ := lift_inv h5
    have ho' : s4.strs.objs y = some sv.obj := by rw [hs1]; exact ho
    simp only [Str.size, M.bind_apply, getObj, ho'] at g1
    injection g1 with g4 g3
    exact ⟨by rw [g2, ← g3], by rw [hv, ← g4]; rfl⟩
  obtain ⟨rfl, rfl⟩ := e5
  obtain ⟨p6, c6⟩ := ctorPC_pays p5.2.1 h6
  have p2 : Pays (M.onThrow (lift (do
    let p ← Str.data y
    let n ← Str.size y
    Str.ctorPC t.toTraits (bufId x) p n)) (delIos x)) s5 1 () s2 := by
    refine Pays.onThrow ?_
    rw [lift_bind]
    have := p4.bind (f := fun p => lift (do
      let n ← Str.size y
      Str.ctorPC t.toTraits (bufId x) p n)) (n' := 1) (st2 := s2) (b := ()) (by
        rw [lift_bind]
        have := p5.bind (f := fun n => lift (Str.ctorPC t.toTraits (bufId x) p n)) p6
        simpa using this)
    simpa using this
  have p3 := (stringbufInit_blind (V := V) x m).pays p2.2.1 h3
  have p7 := (init_blind (V := V) x true).pays p3.2.1 hl
  refine ⟨?_, ?_⟩
  · have := p1.bind (f := fun _ => _) (p2.bind (f := fun _ => _) (p3.bind (f := fun _ => _) p7))
    simpa using this
  · rw [hs1] at c6
    exact (c6.after ((stringbufInit_blind (V := V) x m).steady h3)).after ((init_blind (V := V) x true).steady hl)

theorem ctorMode_pays {x : Nat} {m : Mode} {hp : Bool} {st' : SSt V} (ht : st.strs.thr = none)
    (h : ctorMode t x m hp st = .ok () st') :
    Pays (ctorMode t x m hp) st 1 () st' ∧ CapsTo (bufId x) 1 st.strs st'.strs := by
  unfold ctorMode at h ⊢
  obtain ⟨_, s1, h1, ha⟩ := Str.bind_inv h
  obtain ⟨_, s2, h2, hl⟩ := Str.bind_inv ha
  have p1 := (Blind.newIos (V := V) x _).pays ht h1
  have c1 := (Blind.newIos (V := V) x _).steady h1
  have h2' := onThrow_inv h2
  have he := Str.ctor_eff (lift_inv h2').1
  have p2 := Pays.lift (Str.ctor_cost (t := t.toTraits) (bufId x)) p1.2.1 h2' (by rw [he.next]; exact Nat.le_refl _)
  have p3 := (init_blind (V := V) x true).pays p2.2.1 hl
  refine ⟨?_, ?_⟩
  · have := p1.bind (f := fun _ => _) ((p2.onThrow (f := delIos x)).bind (f := fun _ => _) p3)
    simpa using this
  · exact CapsTo.before c1 ((CapsTo.of_eff he).after ((init_blind (V := V) x true).steady hl))

theorem tick_pays (ht : st.strs.thr = none) : Pays (lift (tick .badAlloc) : SM V Unit) st 1 () st := by
  refine ⟨lift_same (by simp [tick, ht]), ht, fun k hk => ⟨k - 1, by omega, ?_⟩⟩
  obtain ⟨j, rfl⟩ : ∃ j, k = j + 1 := ⟨k - 1, by omega⟩
  simp [lift, tick, SSt.arm]

theorem fmemopen_pays {x a n : Nat} {l : List V} {st' : SSt V} {c : Nat → Nat} (W : Str.SW t.toTraits st.strs σ)
    (htmp : σ tmpId = none) (ha : st.arr a = some l) (hn : n ≤ l.length) (hc : CapsAre c st)
    (h : fmemopen t x a n st = .ok () st') :
    Pays (fmemopen t x a n) st 3 () st' ∧ CapsAre (fun z => if z = x then n + 1 else c z) st' := by
  unfold fmemopen at h ⊢
  obtain ⟨l1, s1, h1, hb⟩ := Str.bind_inv h
  rw [getArr_some ha] at h1
  injection h1 with e1 e2
  subst e1 e2
  obtain ⟨_, s2, h2, hb⟩ := Str.bind_inv hb
  have pt := tick_pays W.thr
  rw [pt.1] at h2
  injection h2 with _ e2
  subst e2
  obtain ⟨_, s3, h3, hb⟩ := Str.bind_inv hb
  obtain ⟨_, s4, h4, hb⟩ := Str.bind_inv hb
  obtain ⟨p3, c3⟩ := ctorPC_pays W.thr h3
  obtain ⟨ss, sv1, g1, g2, g3⟩ := Str.ctorPC_spec W htmp (Str.Sees.ext _ l 0) (n := n) (by simpa using hn)
  obtain ⟨g4, g5⟩ := lift_inv h3
  rw [g1] at g4
  injection g4 with _ g4
  rw [g4] at g2
  have hval : sv1.val = l.take n := by simpa using g3
  obtain ⟨p4, c4⟩ := ctorStr_pays (sv := sv1) g2 (y := tmpId) (by simp) (onThrow_inv h4)
  have p5 := (Blind.liftDtor (V := V) tmpId).pays p4.2.1 hb
  refine ⟨?_, ?_⟩
  · have p0 : Pays (getArr a) st 0 l st := (Blind.getArr (V := V) a).pays W.thr (getArr_some ha)
    have := p0.bind (f := fun l => do
        lift (tick .badAlloc)
        lift (Str.ctorPC t.toTraits tmpId (.ext l 0) n)
        M.onThrow (ctorStr t x tmpId ⟨true, true, false, false⟩ true) (lift (Str.dtor tmpId))
        lift (Str.dtor tmpId)) (pt.bind (f := fun _ => _) (p3.bind (f := fun _ => _)
      ((p4.onThrow (f := lift (Str.dtor tmpId))).bind (f := fun _ => _) p5)))
    simpa using this
  · have e1 : sv1.val.length = n := by rw [hval]; simp; omega
    have h5 := (hc.other (fun z => by simp [bufId, tmpId]) c3).to c4
    rw [e1] at h5
    exact h5.caps ((Blind.liftDtor (V := V) tmpId).steady hb)

theorem setStr_pays {x y : Nat} {sv sv0 : Str.SV V} {st' : SSt V} {c : Nat → Nat} (W : Str.SW t.toTraits st.strs σ)
    (hx : σ (bufId x) = some sv0) (hy : σ (strId y) = some sv) (hc : CapsAre c st)
    (h : setStr t x y st = .ok () st') :
    Pays (setStr t x y) st (if c x < (sv.val.takeWhile (· ≠ t.nul)).length + 1 then 1 else 0) () st' ∧
      CapsAre (if c x < (sv.val.takeWhile (· ≠ t.nul)).length + 1 then
        fun z => if z = x then (sv.val.takeWhile (· ≠ t.nul)).length + 1 else c z else c) st' := by
  unfold setStr at h ⊢
  obtain ⟨_, s1, h1, hb⟩ := Str.bind_inv h
  obtain ⟨o, s2, h2, hb⟩ := Str.bind_inv hb
  obtain ⟨g1, g2⟩ := lift_inv h1
  obtain ⟨ho, -, -⟩ := Str.get_rep W hx
  obtain ⟨q1, q2⟩ := Str.SV.cstr_gen (Str.get_rep W hy).2.2
  have hlen := Str.length_ok (t := t.toTraits) (by simpa using Str.sees_data W hy 0) q1
  rw [q2] at hlen
  have hcap := hc _ _ ho
  have g3 : Str.assignC t.toTraits (bufId x) (.cell (some sv.blk) 0) st.strs = .ok () s1.strs := by
    simpa only [Str.assign, M.bind_apply, Str.data_ok W hy] using g1
  have he := Str.assignC_eff ho hlen g3
  rw [hcap] at he
  have hcost : NCost 1 (Str.assign t.toTraits (bufId x) (strId y)) 0 :=
    NCost.bind (b₁ := 0) (b₂ := 0) (Str.data_cost _) fun _ => Str.assignC_cost _ _
  have p1 := Pays.lift hcost W.thr h1 (by rw [he.next]; exact Nat.le_refl _)
  have p2 := (Blind.getIos (V := V) x).pays p1.2.1 h2
  have p3 := (stringbufInit_blind (V := V) x o.mode).pays p2.2.1 hb
  refine ⟨?_, ?_⟩
  · have := p1.bind (f := fun _ => do
      let o ← getIos x
      stringbufInit x o.mode) (p2.bind (f := fun o => stringbufInit x o.mode) p3)
    simpa using this
  · have h5 := ((hc.to (.of_eff he)).caps ((Blind.getIos (V := V) x).steady h2)).caps
      ((stringbufInit_blind (V := V) x o.mode).steady hb)
    by_cases hk : c x < (sv.val.takeWhile (· ≠ t.nul)).length + 1
    · rw [if_pos hk]; rw [if_pos hk] at h5; exact h5
    · rw [if_neg hk]; rw [if_neg hk] at h5
      intro z o' ho'
      rw [h5 z o' ho']
      by_cases hz : z = x <;> simp [hz]

theorem lift_throw {m : Str.SM V α} {ex : Exc} {s' : Str.SSt V} (h : m st.strs = .throw ex s') :
    lift m st = .throw ex { st with strs := s' } := by simp [lift, h]

theorem lift_ctorPC_throw (W : Str.SW t.toTraits st.strs σ) {x : Nat} (hx : σ x = none) (p : Str.Ptr V) (n : Nat) :
    lift (Str.ctorPC t.toTraits x p n) (st.arm (some 0)) = .throw .badAlloc st :=
  lift_throw (s' := st.strs) (Str.ctorPC_throw W hx p n)

theorem ctorStr_throw (W : Str.SW t.toTraits st.strs σ) {x y : Nat} {m : Mode} {hp : Bool} {sv : Str.SV V}
    (hx : σ (bufId x) = none) (h : st.ios x = none) (hy : σ y = some sv) :
    ctorStr t x y m hp (st.arm (some 0)) = .throw .badAlloc st := by
  have ho := (Str.get_rep W hy).1
  have h0 : ∀ o, newIos x o (st.arm (some 0)) =
      .ok () (({ st with ios := upd st.ios x (some o) } : SSt V).arm (some 0)) := by
    intro o; rw [newIos_none (by exact h)]; rfl
  simp only [ctorStr, M.bind_apply, h0, M.onThrow]
  have h1 : ∀ st1 : SSt V, st1.strs = st.strs → (lift (do
      let p ← Str.data y
      let n ← Str.size y
      Str.ctorPC t.toTraits (bufId x) p n) : SM V Unit) (st1.arm (some 0)) = .throw .badAlloc st1 := by
    intro st1 e1
    refine lift_throw (st := st1.arm (some 0)) (s' := st1.strs) ?_
    simp only [SSt.arm, M.bind_apply, Str.data, Str.size, getObj, e1, ho, M.pure_apply]
    exact Str.ctorPC_throw W hx _ _
  rw [h1 { st with ios := upd st.ios x (some (blank ⟨false, false, false, false⟩ hp)) } rfl]
  simp only []
  rw [delIos_some (o := blank ⟨false, false, false, false⟩ hp) (by simp)]
  simp only [upd_upd]
  rw [upd_eq_self h]

theorem fmemopen_throw (W : Str.SW t.toTraits st.strs σ) {x a n k : Nat} {l : List V} (hk : k < 3)
    (hx : σ (bufId x) = none) (h : st.ios x = none) (htmp : σ tmpId = none) (ha : st.arr a = some l)
    (hn : n ≤ l.length) :
    ∃ ss, fmemopen t x a n (st.arm (some k)) = .throw .badAlloc { st with strs := ss } ∧ Str.SW t.toTraits ss σ ∧
      ∀ c, CapsAre c st → CapsAre c { st with strs := ss } := by
  have ha' : ∀ j, getArr a (st.arm j) = .ok l (st.arm j) := fun j => getArr_some (by exact ha)
  match k, hk with
  | 0, _ =>
    refine ⟨st.strs, ?_, W, fun _ h => h⟩
    have h1 : lift (tick .badAlloc) (st.arm (some 0)) = .throw .badAlloc (st.arm none) := rfl
    simp only [fmemopen, M.bind_apply, ha', h1]
    rw [arm_self W.thr]
  | 1, _ =>
    refine ⟨st.strs, ?_, W, fun _ h => h⟩
    have h1 : lift (tick .badAlloc) (st.arm (some 1)) = .ok () (st.arm (some 0)) := rfl
    simp only [fmemopen, M.bind_apply, ha', h1]
    rw [lift_ctorPC_throw W htmp]
  | 2, _ =>
    have hne : bufId x ≠ tmpId := by simp [bufId, tmpId]
    obtain ⟨s1, sv1, h1, h2, h3⟩ := Str.ctorPC_spec W htmp (Str.Sees.ext _ l 0) (n := n) (by simpa using hn)
    obtain ⟨s3, k1, k2⟩ := Str.dtor_spec h2 (x := tmpId) (s := sv1) (by simp)
    have e : upd (upd σ tmpId (some sv1)) tmpId none = σ := by rw [upd_upd, upd_eq_self htmp]
    refine ⟨s3, ?_, by rw [← e]; exact k2, ?_⟩
    · have h4 : lift (tick .badAlloc) (st.arm (some 2)) = .ok () (st.arm (some 1)) := rfl
      have h5 : lift (Str.ctorPC t.toTraits tmpId (.ext l 0) n) (st.arm (some 1)) =
          .ok () (({ st with strs := s1 } : SSt V).arm (some 0)) := by
        rw [lift_ok (ctorPC_exact W htmp h1 0)]; rfl
      simp only [fmemopen, M.bind_apply, ha', h4, h5, M.onThrow]
      rw [ctorStr_throw (sv := sv1) (st := { st with strs := s1 }) h2 (by simp [hne, hx]) h (by simp)]
      simp only []
      rw [lift_ok (by exact k1)]
    · intro c hc
      have c1 : CapsAre c { st with strs := s1 } :=
        hc.other (y := tmpId) (fun z => by simp [bufId, tmpId]) (.of_eff (Str.ctorPC_eff h1))
      exact c1.caps ((Blind.liftDtor (V := V) tmpId).steady (lift_ok k1))

/-- What holds between the statements. -/
def TInv (t : Traits V) (st : SSt V) (e : Env V) (c : Nat → Nat) : Prop := (∃ σ, Inv t σ st e) ∧ CapsAre c st

theorem step_ok {c : Nat → Nat} {op : Op V} {e' : Env V} {out : Out V} (I : TInv t st e c)
    (h : specStepW t.nul t.eofLike e op = some (e', out)) :
    ∃ st', Pays (runOp t op) st (allocs t.nul e c op) out st' ∧ TInv t st' e' (capsAfter t.nul e c op) := by
  obtain ⟨⟨σ, I⟩, hc⟩ := I
  obtain ⟨σ', st', h1, I'⟩ := step_refinesW I h
  have ht := I.world.thr
  have ret : ∀ {n : Nat} {m : SM V Unit} {st' : SSt V}, Pays m st n () st' →
      Pays (do let _ ← m; return (Out.unit : Out V)) st n .unit st' := by
    intro n m st' hp
    exact hp.bind (f := fun _ => _) ((Blind.pure (V := V) (Out.unit : Out V)).pays hp.2.1 rfl)
  have inv : ∀ {m : SM V Unit}, (do let _ ← m; return (Out.unit : Out V) : SM V (Out V)) st = .ok out st' →
      m st = .ok () st' ∧ out = .unit := by
    intro m hm
    obtain ⟨_, s1, g1, g2⟩ := Str.bind_inv hm
    injection g2 with g3 g4
    subst g4
    exact ⟨g1, g3.symm⟩
  refine ⟨st', ?_⟩
  have fin : ∀ {n : Nat} {c' : Nat → Nat}, Pays (runOp t op) st n out st' ∧ CapsAre c' st' →
      n = allocs t.nul e c op → c' = capsAfter t.nul e c op →
      Pays (runOp t op) st (allocs t.nul e c op) out st' ∧ TInv t st' e' (capsAfter t.nul e c op) := by
    rintro n c' ⟨p1, p2⟩ rfl rfl
    exact ⟨p1, ⟨_, I'⟩, p2⟩
  by_cases hf : Free op
  · refine fin ⟨(runOp_blind hf).pays ht h1, hc.caps ((runOp_blind hf).steady h1)⟩ ?_ ?_
    · cases op <;> first | rfl | exact absurd hf id
    · cases op <;> first | rfl | exact absurd hf id
  cases op <;> first | exact absurd trivial hf | skip
  case newStr y a n =>
    simp only [runOp] at h1 fin ⊢
    obtain ⟨l, s1, g1, g2⟩ := Str.bind_inv h1
    have p1 := (Blind.getArr (V := V) a).pays ht g1
    have c1 := (Blind.getArr (V := V) a).steady g1
    obtain ⟨_, s2, g3, g4⟩ := Str.bind_inv g2
    injection g4 with g5 g6
    subst g5 g6
    obtain ⟨p2, c2⟩ := ctorPC_pays p1.2.1 g3
    refine fin ⟨?_, (hc.caps c1).other (fun z => (str_buf y z).symm) c2⟩ rfl rfl
    have := p1.bind (f := fun l => do
      lift (Str.ctorPC t.toTraits (strId y) (.ext l 0) n)
      return (Out.unit : Out V)) (p2.bind (f := fun _ => return (Out.unit : Out V))
        ((Blind.pure (V := V) (Out.unit : Out V)).pays p2.2.1 rfl))
    exact this
  case newIS x =>
    simp only [runOp] at h1 fin ⊢
    obtain ⟨h2, rfl⟩ := inv h1
    obtain ⟨p1, c1⟩ := ctorMode_pays ht h2
    exact fin ⟨ret p1, hc.to c1⟩ rfl rfl
  case newSS x =>
    simp only [runOp] at h1 fin ⊢
    obtain ⟨h2, rfl⟩ := inv h1
    obtain ⟨p1, c1⟩ := ctorMode_pays ht h2
    exact fin ⟨ret p1, hc.to c1⟩ rfl rfl
  case newISs x y m =>
    simp only [runOp] at h1 fin ⊢
    obtain ⟨h2, rfl⟩ := inv h1
    cases hy : e.str y with
    | none => simp only [specStepW, specStep, hy] at h; split at h <;> simp_all
    | some l =>
      obtain ⟨sv, hs, rfl⟩ := I.sv hy
      obtain ⟨p1, c1⟩ := ctorStr_pays I.world hs h2
      exact fin ⟨ret p1, hc.to c1⟩ (by simp [allocs, grows, hy]) (by simp [capsAfter, grows, hy])
  case newSSs x y m =>
    simp only [runOp] at h1 fin ⊢
    obtain ⟨h2, rfl⟩ := inv h1
    cases hy : e.str y with
    | none => simp only [specStepW, specStep, hy] at h; split at h <;> simp_all
    | some l =>
      obtain ⟨sv, hs, rfl⟩ := I.sv hy
      obtain ⟨p1, c1⟩ := ctorStr_pays I.world hs h2
      exact fin ⟨ret p1, hc.to c1⟩ (by simp [allocs, grows, hy]) (by simp [capsAfter, grows, hy])
  case setStr x y =>
    simp only [runOp] at h1 fin ⊢
    obtain ⟨h2, rfl⟩ := inv h1
    cases hy : e.str y with
    | none => simp only [specStepW, hy] at h; split at h <;> simp_all
    | some l =>
      obtain ⟨sv, hs, rfl⟩ := I.sv hy
      have hb : ∃ sv0, σ (bufId x) = some sv0 := by
        simp only [specStepW, hy] at h
        cases hx : e.strm x with
        | none => rw [hx] at h; cases h
        | some s =>
          rw [hx] at h
          simp only [] at h
          cases hm : s.opened with
          | none => rw [hm] at h; cases h
          | some m =>
            obtain ⟨o, _, R⟩ := I.rep x s hx
            have hk := R.kind
            simp only [Kind, hm] at hk
            obtain ⟨-, -, -, sv0, k4, -⟩ := hk
            exact ⟨sv0, k4⟩
      obtain ⟨sv0, hb⟩ := hb
      obtain ⟨p1, c1⟩ := setStr_pays I.world hb hs hc h2
      refine fin ⟨ret p1, c1⟩ ?_ ?_
      · simp only [allocs, grows, hy, Option.bind_some]; split <;> simp
      · simp only [capsAfter, grows, hy, Option.bind_some]; split <;> rfl
  case fmemopen x a n =>
    simp only [runOp] at h1 fin ⊢
    obtain ⟨h2, rfl⟩ := inv h1
    have ha : ∃ l, st.arr a = some l ∧ n ≤ l.length := by
      rw [I.arr]
      simp only [specStepW, specStep] at h
      split at h
      · split at h
        · exact ⟨_, by assumption, by assumption⟩
        · cases h
      · cases h
    obtain ⟨l, ha, hn⟩ := ha
    obtain ⟨p1, c1⟩ := fmemopen_pays I.world I.tmp ha hn hc h2
    exact fin ⟨ret p1, c1⟩ rfl rfl

theorem step_throw {c : Nat → Nat} {op : Op V} {e' : Env V} {out : Out V} {k : Nat} (I : TInv t st e c)
    (h : specStepW t.nul t.eofLike e op = some (e', out)) (hu : upset t.nul e c op k = .caught) :
    ∃ st', runOp t op (st.arm (some k)) = .throw .badAlloc st' ∧ TInv t (st'.arm none) e c := by
  obtain ⟨⟨σ, I⟩, hc⟩ := I
  have hk : k < allocs t.nul e c op := by
    simp only [upset] at hu
    split at hu
    · cases hu
    · omega
  have same : TInv t (st.arm none) e c := ⟨⟨σ, by rw [arm_self I.world.thr]; exact I⟩, hc⟩
  have thr : ∀ {m : SM V Unit}, m (st.arm (some k)) = .throw .badAlloc st →
      (do let _ ← m; return (Out.unit : Out V) : SM V (Out V)) (st.arm (some k)) = .throw .badAlloc st := by
    intro m hm; simp only [M.bind_apply, hm]
  by_cases hf : Free op
  · exfalso
    have : allocs t.nul e c op = 0 := by cases op <;> first | rfl | exact absurd hf id
    omega
  cases op <;> first | exact absurd trivial hf | skip
  case newStr y a n =>
    have hk : k < 1 := hk
    obtain rfl : k = 0 := by omega
    refine ⟨st, ?_, same⟩
    simp only [specStepW, specStep] at h
    split at h
    · rename_i hy ha
      have ha' : getArr a (st.arm (some 0)) = .ok _ (st.arm (some 0)) := getArr_some (by rw [← I.arr] at ha; exact ha)
      simp only [runOp, M.bind_apply, ha']
      rw [lift_ctorPC_throw I.world (I.nosv hy)]
    · cases h
  case newIS x => simp only [upset] at hu; split at hu <;> cases hu
  case newSS x => simp only [upset] at hu; split at hu <;> cases hu
  case setStr x y => simp only [upset] at hu; split at hu <;> cases hu
  case newISs x y m =>
    have hk : k < 1 := by
      simp only [allocs] at hk
      split at hk <;> omega
    obtain rfl : k = 0 := by omega
    refine ⟨st, ?_, same⟩
    simp only [specStepW, specStep] at h
    split at h
    · rename_i hx hy
      obtain ⟨sv, hs, -⟩ := I.sv hy
      simp only [runOp]
      exact thr (ctorStr_throw I.world (I.dom _ hx).2 (I.dom _ hx).1 hs)
    · cases h
  case newSSs x y m =>
    have hk : k < 1 := by
      simp only [allocs] at hk
      split at hk <;> omega
    obtain rfl : k = 0 := by omega
    refine ⟨st, ?_, same⟩
    simp only [specStepW, specStep] at h
    split at h
    · rename_i hx hy
      obtain ⟨sv, hs, -⟩ := I.sv hy
      simp only [runOp]
      exact thr (ctorStr_throw I.world (I.dom _ hx).2 (I.dom _ hx).1 hs)
    · cases h
  case fmemopen x a n =>
    have hk : k < 3 := hk
    simp only [specStepW, specStep] at h
    split at h
    · rename_i hx ha
      split at h
      · rename_i hn
        rw [← I.arr] at ha
        obtain ⟨ss, g1, g2, g3⟩ := fmemopen_throw (t := t) I.world hk (I.dom _ hx).2 (I.dom _ hx).1 I.tmp ha hn
        refine ⟨{ st with strs := ss }, ?_, ⟨σ, ?_⟩, g3 c hc⟩
        · simp only [runOp, M.bind_apply, g1]
        · rw [arm_self g2.thr]
          exact ⟨g2, I.tmp, I.str, I.arr, I.dom, I.rep⟩
      · cases h
    · cases h

theorem TInv.init : TInv t SSt.init (Env.none : Env V) (fun _ => 0) :=
  ⟨⟨_, Inv.init⟩, fun _ _ h => by cases h⟩

theorem runT_refines {ops : List (Option Nat × Op V)} : ∀ {st : SSt V} {e e' : Env V} {c c' : Nat → Nat}
    {outs : List (Option (Out V))}, TInv t st e c → specRunT t.nul t.eofLike e c ops = some (e', c', outs) →
    ∃ st', runT t ops st = .ok outs st' ∧ TInv t st' e' c' := by
  induction ops with
  | nil => intro st e e' c c' outs I h; cases h; exact ⟨st, rfl, I⟩
  | cons op ops ih =>
    obtain ⟨k, op⟩ := op
    intro st e e' c c' outs I h
    simp only [specRunT] at h
    cases hs : specStepW t.nul t.eofLike e op with
    | none => rw [hs] at h; cases h
    | some r =>
      obtain ⟨e1, o⟩ := r
      rw [hs] at h
      simp only [] at h
      obtain ⟨st1, p1, I1⟩ := step_ok I hs
      have ok : ∀ k', runOp t op (st.arm k) = .ok o (st1.arm k') →
          (specRunT t.nul t.eofLike e1 (capsAfter t.nul e c op) ops).map
            (fun r => (r.1, r.2.1, some o :: r.2.2)) = some (e', c', outs) →
          ∃ st', runT t ((k, op) :: ops) st = .ok outs st' ∧ TInv t st' e' c' := by
        intro k' hr hq
        cases hq1 : specRunT t.nul t.eofLike e1 (capsAfter t.nul e c op) ops with
        | none => rw [hq1] at hq; cases hq
        | some r =>
          obtain ⟨e2, c2, os⟩ := r
          rw [hq1] at hq
          cases hq
          obtain ⟨st2, g1, g2⟩ := ih I1 hq1
          refine ⟨st2, ?_, g2⟩
          simp only [runT, hr, arm_arm, arm_self p1.2.1, M.bind_apply, g1]
          rfl
      cases k with
      | none =>
        have I0 := I
        obtain ⟨⟨σ, I0⟩, -⟩ := I0
        refine ok none ?_ h
        rw [arm_self I0.world.thr, arm_self p1.2.1]; exact p1.1
      | some k =>
        simp only [Option.elim] at h
        cases hu : upset t.nul e c op k with
        | none =>
          rw [hu] at h
          have hk : allocs t.nul e c op ≤ k := by
            simp only [upset] at hu
            split at hu
            · assumption
            · split at hu <;> cases hu
          obtain ⟨k', -, hr⟩ := p1.2.2 k hk
          exact ok _ hr h
        | broken => rw [hu] at h; cases h
        | caught =>
          rw [hu] at h
          simp only [] at h
          obtain ⟨st2, hr, I2⟩ := step_throw I hs hu
          cases hq1 : specRunT t.nul t.eofLike e c ops with
          | none => rw [hq1] at h; cases h
          | some r =>
            obtain ⟨e2, c2, os⟩ := r
            rw [hq1] at h
            cases h
            obtain ⟨st3, g1, g2⟩ := ih I2 hq1
            refine ⟨st3, ?_, g2⟩
            simp only [runT, hr, M.bind_apply, g1]
            rfl

end Cest.Stream
