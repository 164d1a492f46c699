import Verif.Stream.Methods
/-
Constructors, `str(s)` and destructors of streams (helper lemmas).
-/
namespace Cest.Stream
open Cest
set_option linter.unusedSectionVars false
variable {V : Type} [DecidableEq V] {t : Traits V}
variable {σ : Nat → Option (Str.SV V)} {st : SSt V} {x : Nat} {o : Obj} {s : Strm V} {sv : Str.SV V}

theorem setg_ok (h : st.ios x = some o) (b c e : CP) : setg x b c e st =
    .ok () { st with ios := upd st.ios x (some { o with inBeg := b, inCur := c, inEnd := e }) } := by
  simp only [setg, M.bind_apply, getIos_some h]
  rw [setIos_some h]

theorem setp_ok (h : st.ios x = some o) (b e : CP) : setp x b e st =
    .ok () { st with ios := upd st.ios x (some { o with outBeg := b, outCur := b, outEnd := e }) } := by
  simp only [setp, M.bind_apply, getIos_some h]
  rw [setIos_some h]

theorem pbump_ok (h : st.ios x = some o) {n : Int} {p : CP} (hp : padd o.outCur n st = .ok p st) :
    pbump x n st = .ok () { st with ios := upd st.ios x (some { o with outCur := p }) } := by
  simp only [pbump, M.bind_apply, getIos_some h, hp]
  rw [setIos_some h]

theorem capacity_ok {ss : Str.SSt V} (W : Str.SW t.toTraits ss σ) {y : Nat} (hy : σ y = some sv) :
    Str.capacity y ss = .ok (sv.buf.length - 1) ss := by
  obtain ⟨h1, _, _⟩ := Str.get_rep W hy
  simp [Str.capacity, h1, Str.SV.obj]

/-- What `_M_stringbuf_init` leaves unchanged. -/
structure Same (o o' : Obj) : Prop where
  state : o'.state = o.state
  exc : o'.exc = o.exc
  gcount : o'.gcount = o.gcount
  rdbuf : o'.rdbuf = o.rdbuf
  heap : o'.heap = o.heap

theorem val_area (W : Str.SW t.toTraits st.strs σ) (hs : σ (bufId x) = some sv) :
    Area sv (some (sv.blk, 0)) (some (sv.blk, 0)) (some (sv.blk, sv.val.length)) sv.val 0 := by
  obtain ⟨_, _, hok⟩ := Str.get_rep W hs
  have hl := hok.lt
  have hv := Str.SV.val_length hok
  refine .inr ⟨0, sv.val.length, by omega, by omega, rfl, by simp, by simp, ?_⟩
  simp [Str.SV.val]

theorem sync_ok (W : Str.SW t.toTraits st.strs σ) (hs : σ (bufId x) = some sv) (h : st.ios x = some o)
    (hnull : o.mode.inn = false → o.mode.out = false → o.inBeg = none ∧ o.inCur = none ∧ o.inEnd = none)
    {len : Nat} (hlen : len ≤ sv.val.length) :
    ∃ o', sync x (some (sv.blk, 0)) 0 len st = .ok () { st with ios := upd st.ios x (some o') } ∧
      Same o o' ∧ o'.mode = o.mode ∧ (o.mode.inn = false → o.mode.out = false → o'.inBeg = none) ∧
      Area sv o'.inBeg o'.inCur o'.inEnd (if o.mode.inn then sv.val else []) 0 := by
  obtain ⟨_, hmem, hok⟩ := Str.get_rep W hs
  have hl := hok.lt
  have hv := Str.SV.val_length hok
  have hA := val_area W hs
  simp only [sync, M.bind_apply]
  rw [lift_same (Str.size_spec W hs)]
  simp only []
  rw [lift_same (capacity_ok W hs)]
  simp only []
  rw [padd_nat (blk := arr sv.buf.length sv.buf) sv.val.length hmem (by simp; omega)]
  simp only []
  rw [padd_nat (blk := arr sv.buf.length sv.buf) (sv.buf.length - 1) hmem (by simp)]
  simp only [Nat.zero_add]
  rw [padd_nat (blk := arr sv.buf.length sv.buf) 0 hmem (by simp)]
  simp only [Nat.add_zero]
  rw [getIos_some h]
  simp only []
  have hp : ∀ (s' : SSt V), s'.strs = st.strs → padd (some (sv.blk, 0)) (len : Int) s' = .ok (some (sv.blk, len)) s' := by
    intro s' h'
    have := padd_nat (st := s') (k := 0) (blk := arr sv.buf.length sv.buf) len (by rw [h']; exact hmem) (by simp; omega)
    simpa using this
  cases h1 : o.mode.inn <;> cases h2 : o.mode.out
  · refine ⟨o, ?_, ⟨rfl, rfl, rfl, rfl, rfl⟩, rfl, fun _ _ => (hnull h1 h2).1, .inl ?_⟩
    · rw [ios_back st h]; simp
    · obtain ⟨a, b, c⟩ := hnull h1 h2
      exact ⟨a, b, c, by simp, rfl⟩
  · simp only [Bool.false_eq_true, if_false, if_true, M.bind_apply, Bool.not_false]
    rw [setp_ok h]
    simp only []
    obtain ⟨o1, ho1⟩ : ∃ o1, o1 = { o with outBeg := some (sv.blk, 0), outCur := some (sv.blk, 0), outEnd := some (sv.blk, sv.buf.length - 1) } := ⟨_, rfl⟩
    rw [← ho1]
    have hp1 := hp { st with ios := upd st.ios x (some o1) } rfl
    rw [pbump_ok (o := o1) (p := some (sv.blk, len)) (by simp) (by rw [ho1] at hp1 ⊢; exact hp1), ho1]
    simp only [upd_upd]
    rw [setg_ok (by simp; rfl)]
    simp only [upd_upd]
    refine ⟨_, rfl, ⟨rfl, rfl, rfl, rfl, rfl⟩, rfl, by simp, .inr ⟨sv.val.length, 0, by omega, by omega, rfl, rfl, rfl, by simp⟩⟩
  · simp only [Bool.false_eq_true, if_false, if_true, M.bind_apply]
    rw [setg_ok h]
    exact ⟨_, rfl, ⟨rfl, rfl, rfl, rfl, rfl⟩, rfl, by simp, hA⟩
  · simp only [if_true, M.bind_apply, M.pure_apply, Bool.not_true, Bool.false_eq_true, if_false]
    rw [setg_ok h]
    simp only []
    rw [setp_ok (o := { o with inBeg := some (sv.blk, 0), inCur := some (sv.blk, 0), inEnd := some (sv.blk, sv.val.length) }) (by simp)]
    simp only [upd_upd]
    obtain ⟨o1, ho1⟩ : ∃ o1, o1 = { o with inBeg := some (sv.blk, 0), inCur := some (sv.blk, 0), inEnd := some (sv.blk, sv.val.length), outBeg := some (sv.blk, 0), outCur := some (sv.blk, 0), outEnd := some (sv.blk, sv.buf.length - 1) } := ⟨_, rfl⟩
    rw [← ho1]
    have hp1 := hp { st with ios := upd st.ios x (some o1) } rfl
    rw [pbump_ok (o := o1) (p := some (sv.blk, len)) (by simp) (by rw [ho1] at hp1 ⊢; exact hp1), ho1]
    simp only [upd_upd]
    exact ⟨_, rfl, ⟨rfl, rfl, rfl, rfl, rfl⟩, rfl, by simp, hA⟩

theorem stringbufInit_ok (W : Str.SW t.toTraits st.strs σ) (hs : σ (bufId x) = some sv)
    (h : st.ios x = some o) (m : Mode)
    (hnull : m.inn = false → m.out = false → o.inBeg = none ∧ o.inCur = none ∧ o.inEnd = none) :
    ∃ o', stringbufInit x m st = .ok () { st with ios := upd st.ios x (some o') } ∧
      Same o o' ∧ o'.mode = m ∧ (m.inn = false → m.out = false → o'.inBeg = none) ∧
      Area sv o'.inBeg o'.inCur o'.inEnd (if m.inn then sv.val else []) 0 := by
  obtain ⟨hobj, hmem, hok⟩ := Str.get_rep W hs
  have base : bufData x ({ st with ios := upd st.ios x (some { o with mode := m }) } : SSt V) =
      .ok (some (sv.blk, 0)) { st with ios := upd st.ios x (some { o with mode := m }) } := by
    simp only [bufData, M.bind_apply]
    rw [lift_same (getObj_some (by exact hobj))]
    rfl
  simp only [stringbufInit, M.bind_apply, getIos_some h]
  rw [setIos_some h]
  simp only []
  have key : ∀ len ≤ sv.val.length, ∃ o', sync x (some (sv.blk, 0)) 0 len
        ({ st with ios := upd st.ios x (some { o with mode := m }) } : SSt V) =
          .ok () { st with ios := upd st.ios x (some o') } ∧
      Same o o' ∧ o'.mode = m ∧ (m.inn = false → m.out = false → o'.inBeg = none) ∧
      Area sv o'.inBeg o'.inCur o'.inEnd (if m.inn then sv.val else []) 0 := by
    intro len hlen
    obtain ⟨o', h1, h2, h3, h4, h5⟩ := sync_ok (t := t) (x := x) (o := { o with mode := m })
      (st := { st with ios := upd st.ios x (some { o with mode := m }) }) W hs (by simp) hnull hlen
    refine ⟨o', ?_, ⟨h2.state, h2.exc, h2.gcount, h2.rdbuf, h2.heap⟩, h3, h4, h5⟩
    rw [h1]
    simp [upd_upd]
  by_cases hc : (m.ate || m.app) = true
  · rw [if_pos hc, lift_same (Str.size_spec (by exact W) hs)]
    simp only [base]
    exact key _ (Nat.le_refl _)
  · rw [if_neg hc]
    simp only [M.pure_apply, base]
    exact key _ (by omega)

theorem init_ok (h : st.ios x = some o) (sb : Bool) : init x sb st = .ok () { st with
    ios := upd st.ios x (some { o with exc := Bits.none, rdbuf := sb, state := if sb then Bits.none else Bits.badbit }) } := by
  simp only [init, M.bind_apply, getIos_some h]
  rw [setIos_some h]

/-- Streams other than `x` do not mention `x`'s string. -/
theorem Rep.frame {x' : Nat} (R : Rep σ x' o s) {σ' : Nat → Option (Str.SV V)}
    (h : σ' (bufId x') = σ (bufId x')) : Rep σ' x' o s := by
  refine ⟨R.state, R.exc, R.count, R.heap, ?_⟩
  have hk := R.kind
  simp only [Kind] at hk ⊢
  rw [h]; exact hk

theorem ctorMode_ok (W : Str.SW t.toTraits st.strs σ) (hx : σ (bufId x) = none) (h : st.ios x = none)
    (m : Mode) (hp : Bool) (hm : m.inn = true) :
    ∃ ss o' sv, ctorMode t x m hp st = .ok () { st with strs := ss, ios := upd st.ios x (some o') } ∧
      Str.SW t.toTraits ss (upd σ (bufId x) (some sv)) ∧
      Rep (upd σ (bufId x) (some sv)) x o' (fresh [] m hp) := by
  obtain ⟨ss, sv, h1, h2, h3⟩ := Str.ctor_spec W hx
  refine ⟨ss, { blank m hp with exc := Bits.none, rdbuf := true, state := Bits.none }, sv, ?_, h2, ?_⟩
  · simp only [ctorMode, M.bind_apply]
    rw [newIos_none h]
    simp only []
    rw [M.onThrow_of_ok (lift_ok (by exact h1))]
    simp only []
    rw [init_ok (o := blank m hp) (by simp)]
    simp [upd_upd]
  · refine ⟨rfl, rfl, rfl, rfl, ?_⟩
    simp only [Kind, fresh]
    refine ⟨trivial, rfl, by simp [hm], sv, by simp, .inl ⟨rfl, rfl, rfl, by simp, rfl⟩⟩

theorem ctorStr_ok (W : Str.SW t.toTraits st.strs σ) (hx : σ (bufId x) = none) (h : st.ios x = none)
    {y : Nat} (hy : σ y = some sv) (m : Mode) (hp : Bool) :
    ∃ ss o' sv', ctorStr t x y m hp st = .ok () { st with strs := ss, ios := upd st.ios x (some o') } ∧
      Str.SW t.toTraits ss (upd σ (bufId x) (some sv')) ∧
      Rep (upd σ (bufId x) (some sv')) x o' (fresh sv.val m hp) := by
  obtain ⟨_, hmem, hok⟩ := Str.get_rep W hy
  have hl := hok.lt
  have hv := Str.SV.val_length hok
  obtain ⟨ss, sv', h1, h2, h3⟩ := Str.ctorPC_spec W hx (p := .cell (some sv.blk) 0) (v := sv.buf)
    (by simpa using Str.sees_data W hy 0) (n := sv.val.length) (by omega)
  have hval : sv'.val = sv.val := by rw [h3, hv]; rfl
  obtain ⟨o1, g1, g2, g3, g4, g5⟩ := stringbufInit_ok (t := t) (x := x)
    (st := { st with strs := ss, ios := upd st.ios x (some (blank ⟨false, false, false, false⟩ hp)) })
    (o := blank ⟨false, false, false, false⟩ hp) (sv := sv') h2 (by simp) (by simp) m
    (fun _ _ => ⟨rfl, rfl, rfl⟩)
  refine ⟨ss, { o1 with exc := Bits.none, rdbuf := true, state := Bits.none }, sv', ?_, h2, ?_⟩
  · simp only [ctorStr, M.bind_apply]
    rw [newIos_none h]
    simp only []
    rw [M.onThrow_of_ok (lift_ok (s' := ss) (r := ()) (by
      simp only [M.bind_apply]
      rw [Str.data_ok (by exact W) hy]
      simp only []
      rw [Str.size_spec (by exact W) hy]
      simp only []
      exact h1))]
    simp only []
    rw [g1]
    simp only [upd_upd]
    rw [init_ok (o := o1) (by simp)]
    simp [upd_upd]
  · refine ⟨rfl, rfl, g2.gcount, g2.heap, ?_⟩
    simp only [Kind, fresh]
    rw [hval] at g5
    exact ⟨trivial, g3, g4, sv', by simp, g5⟩

theorem newNull_ok (hx : σ (bufId x) = none) (h : st.ios x = none) :
    ∃ o', newNull x st = .ok () { st with ios := upd st.ios x (some o') } ∧
      Rep σ x o' ⟨[], 0, ⟨true, false, false⟩, ⟨false, false, false⟩, 0, none, false⟩ := by
  refine ⟨{ blank ⟨false, false, false, false⟩ false with exc := Bits.none, rdbuf := false, state := Bits.badbit }, ?_, ?_⟩
  · simp only [newNull, M.bind_apply]
    rw [newIos_none h]
    simp only []
    rw [init_ok (o := blank ⟨false, false, false, false⟩ false) (by simp)]
    simp [upd_upd]
  · exact ⟨rfl, rfl, rfl, rfl, rfl, rfl, hx⟩

theorem setStr_ok (W : Str.SW t.toTraits st.strs σ) (h : st.ios x = some o) (R : Rep σ x o s)
    {m : Mode} (hm : s.opened = some m) {y : Nat} (hy : σ (strId y) = some sv) :
    ∃ ss o' sv', setStr t x y st = .ok () { st with strs := ss, ios := upd st.ios x (some o') } ∧
      Str.SW t.toTraits ss (upd σ (bufId x) (some sv')) ∧
      Rep (upd σ (bufId x) (some sv')) x o'
        { s with content := if m.inn then sv.val.takeWhile (· ≠ t.nul) else [], pos := 0 } := by
  have hk := R.kind
  simp only [Kind, hm] at hk
  obtain ⟨k1, k2, k3, sv0, k4, k5⟩ := hk
  obtain ⟨ss, sv', h1, h2, h3⟩ := Str.assign_gen W k4 hy (by simp only [bufId, strId]; omega)
  obtain ⟨o', g1, g2, g3, g4, g5⟩ := stringbufInit_ok (t := t) (x := x) (st := { st with strs := ss })
    (o := o) (sv := sv') h2 (by simp) h m (by
      intro a b
      have := k3 a b
      rcases k5 with ⟨c1, c2, c3, _⟩ | ⟨off, len, _, _, c, _⟩
      · exact ⟨c1, c2, c3⟩
      · rw [this] at c; cases c)
  refine ⟨ss, o', sv', ?_, h2, ?_⟩
  · simp only [setStr, M.bind_apply]
    rw [lift_ok h1]
    simp only []
    rw [getIos_some (o := o) (by exact h)]
    simp only [k2]
    rw [g1]
  · refine ⟨g2.state.trans R.state, g2.exc.trans R.exc, g2.gcount.trans R.count, g2.heap.trans R.heap, ?_⟩
    simp only [Kind, hm]
    rw [h3] at g5
    exact ⟨g2.rdbuf.trans k1, g3, g4, sv', by simp, g5⟩

theorem dtor_ok (W : Str.SW t.toTraits st.strs σ) (h : st.ios x = some o) (R : Rep σ x o s) :
    ∃ ss, dtor x st = .ok () { st with strs := ss, ios := upd st.ios x none } ∧
      Str.SW t.toTraits ss (upd σ (bufId x) none) := by
  have hk := R.kind
  simp only [dtor, M.bind_apply, getIos_some h]
  cases ho : s.opened with
  | none =>
    simp only [Kind, ho] at hk
    refine ⟨st.strs, ?_, ?_⟩
    · simp only [hk.1, Bool.false_eq_true, if_false]
      rw [delIos_some h]
    · rw [upd_eq_self hk.2.2]; exact W
  | some m =>
    simp only [Kind, ho] at hk
    obtain ⟨k1, k2, k3, sv0, k4, k5⟩ := hk
    obtain ⟨ss, h1, h2⟩ := Str.dtor_spec W k4
    refine ⟨ss, ?_, h2⟩
    simp only [k1, if_true, M.bind_apply]
    rw [lift_ok h1]
    simp only []
    rw [delIos_some (o := o) (by exact h)]

theorem fmemopen_ok (W : Str.SW t.toTraits st.strs σ) (hx : σ (bufId x) = none) (h : st.ios x = none)
    (htmp : σ tmpId = none) {a n : Nat} {l : List V} (ha : st.arr a = some l) (hn : n ≤ l.length) :
    ∃ ss o' sv', fmemopen t x a n st = .ok () { st with strs := ss, ios := upd st.ios x (some o') } ∧
      Str.SW t.toTraits ss (upd σ (bufId x) (some sv')) ∧
      Rep (upd σ (bufId x) (some sv')) x o' (fresh (l.take n) ⟨true, true, false, false⟩ true) := by
  have hne : bufId x ≠ tmpId := by simp [bufId, tmpId]
  obtain ⟨s1, sv1, h1, h2, h3⟩ := Str.ctorPC_spec W htmp (Str.Sees.ext _ l 0) (n := n) (by simpa using hn)
  obtain ⟨s2, o', sv', g1, g2, g3⟩ := ctorStr_ok (t := t) (x := x) (st := { st with strs := s1 })
    (σ := upd σ tmpId (some sv1)) (sv := sv1) h2 (by simp [hne, hx]) h (y := tmpId) (by simp)
    ⟨true, true, false, false⟩ true
  obtain ⟨s3, k1, k2⟩ := Str.dtor_spec g2 (x := tmpId) (s := sv1) (by simp [Ne.symm hne])
  have hval : sv1.val = l.take n := by simpa using h3
  have e : upd (upd (upd σ tmpId (some sv1)) (bufId x) (some sv')) tmpId none = upd σ (bufId x) (some sv') := by
    funext z
    simp only [upd_apply]
    by_cases hz : z = tmpId
    · subst hz; simp [Ne.symm hne, htmp]
    · simp [hz]
  refine ⟨s3, o', sv', ?_, by rw [← e]; exact k2, ?_⟩
  · simp only [fmemopen, M.bind_apply, getArr_some ha]
    rw [lift_ok (m := tick .badAlloc) (s' := st.strs) (r := ()) (by simp [tick, W.thr])]
    simp only []
    rw [lift_ok h1]
    simp only []
    rw [M.onThrow_of_ok g1]
    simp only []
    rw [lift_ok (by exact k1)]
  · rw [← hval, ← e]
    exact g3.frame (by simp [hne])
end Cest.Stream
