import Verif.Stream.Ctors
/-
The model refines the specification, for every program (helper lemmas for Props.lean).
-/
namespace Cest.Stream
open Cest
set_option linter.unusedSectionVars false
variable {V : Type} [DecidableEq V] {t : Traits V}

theorem put_eq {β : Type} (f : Nat → Option β) (x : Nat) (v : Option β) : put f x v = upd f x v := rfl

/-- The machine state represents the environment. -/
structure Inv (t : Traits V) (σ : Nat → Option (Str.SV V)) (st : SSt V) (e : Env V) : Prop where
  world : Str.SW t.toTraits st.strs σ
  tmp : σ tmpId = none
  str : ∀ y, (σ (strId y)).map Str.SV.val = e.str y
  arr : st.arr = e.arr
  dom : ∀ x, e.strm x = none → st.ios x = none ∧ σ (bufId x) = none
  rep : ∀ x s, e.strm x = some s → ∃ o, st.ios x = some o ∧ Rep σ x o s

theorem bufId_inj {x y : Nat} (h : x ≠ y) : bufId x ≠ bufId y := by simp [bufId]; omega
theorem strId_inj {x y : Nat} (h : x ≠ y) : strId x ≠ strId y := by simp [strId]; omega
theorem str_buf (x y : Nat) : strId x ≠ bufId y := by simp [bufId, strId]; omega
theorem tmp_buf (y : Nat) : tmpId ≠ bufId y := by simp [bufId, tmpId]
theorem tmp_str (y : Nat) : tmpId ≠ strId y := by simp [strId, tmpId]

variable {σ : Nat → Option (Str.SV V)} {st : SSt V} {e : Env V}

theorem Inv.init : Inv t (fun _ => none) (SSt.init : SSt V) Env.none :=
  ⟨World.init, rfl, fun _ => rfl, rfl, fun _ _ => ⟨rfl, rfl⟩, fun _ _ h => by cases h⟩

/-- A stream changes, and possibly an array. -/
theorem Inv.ios (I : Inv t σ st e) {x : Nat} {s s' : Strm V} {o' : Obj} (_hs : e.strm x = some s)
    (R : Rep σ x o' s') (ar : Nat → Option (List V)) :
    Inv t σ { st with ios := upd st.ios x (some o'), arr := ar }
      { e with strm := put e.strm x (some s'), arr := ar } := by
  refine ⟨I.world, I.tmp, I.str, rfl, ?_, ?_⟩
  · intro z hz
    simp only [put_eq, upd_apply] at hz ⊢
    split at hz
    · cases hz
    · rename_i hne; rw [if_neg hne]; exact I.dom z hz
  · intro z s0 hz
    simp only [put_eq, upd_apply] at hz ⊢
    split at hz
    · rename_i he
      cases hz
      subst he
      exact ⟨o', by simp, R⟩
    · rename_i hne; rw [if_neg hne]; exact I.rep z s0 hz

/-- A stream is made or changes its string. -/
theorem Inv.buf (I : Inv t σ st e) {x : Nat} {s' : Strm V} {o' : Obj} {ss : Str.SSt V} {sv : Str.SV V}
    (W : Str.SW t.toTraits ss (upd σ (bufId x) (some sv)))
    (R : Rep (upd σ (bufId x) (some sv)) x o' s') :
    Inv t (upd σ (bufId x) (some sv)) { st with strs := ss, ios := upd st.ios x (some o') }
      { e with strm := put e.strm x (some s') } := by
  refine ⟨W, ?_, ?_, I.arr, ?_, ?_⟩
  · simp [tmp_buf, I.tmp]
  · intro y; simp [str_buf, I.str]
  · intro z hz
    simp only [put_eq, upd_apply] at hz ⊢
    split at hz
    · cases hz
    · rename_i hne
      rw [if_neg hne, if_neg (bufId_inj hne)]
      exact I.dom z hz
  · intro z s0 hz
    simp only [put_eq, upd_apply] at hz ⊢
    split at hz
    · rename_i he
      cases hz
      subst he
      exact ⟨o', by simp, R⟩
    · rename_i hne
      obtain ⟨o, h1, h2⟩ := I.rep z s0 hz
      exact ⟨o, by simp [hne, h1], h2.frame (by simp [bufId_inj hne])⟩

/-- A stream without buffer is made. -/
theorem Inv.nobuf (I : Inv t σ st e) {x : Nat} {s' : Strm V} {o' : Obj} (R : Rep σ x o' s') :
    Inv t σ { st with ios := upd st.ios x (some o') } { e with strm := put e.strm x (some s') } := by
  refine ⟨I.world, I.tmp, I.str, I.arr, ?_, ?_⟩
  · intro z hz
    simp only [put_eq, upd_apply] at hz ⊢
    split at hz
    · cases hz
    · rename_i hne; rw [if_neg hne]; exact I.dom z hz
  · intro z s0 hz
    simp only [put_eq, upd_apply] at hz ⊢
    split at hz
    · rename_i he
      cases hz
      subst he
      exact ⟨o', by simp, R⟩
    · rename_i hne; rw [if_neg hne]; exact I.rep z s0 hz

/-- A stream dies. -/
theorem Inv.del (I : Inv t σ st e) {x : Nat} {ss : Str.SSt V}
    (W : Str.SW t.toTraits ss (upd σ (bufId x) none)) :
    Inv t (upd σ (bufId x) none) { st with strs := ss, ios := upd st.ios x none }
      { e with strm := put e.strm x none } := by
  refine ⟨W, ?_, ?_, I.arr, ?_, ?_⟩
  · simp [tmp_buf, I.tmp]
  · intro y; simp [str_buf, I.str]
  · intro z hz
    simp only [put_eq, upd_apply] at hz ⊢
    by_cases he : z = x
    · subst he; simp
    · rw [if_neg he] at hz ⊢
      rw [if_neg (bufId_inj he)]
      exact I.dom z hz
  · intro z s0 hz
    simp only [put_eq, upd_apply] at hz ⊢
    split at hz
    · cases hz
    · rename_i hne
      obtain ⟨o, h1, h2⟩ := I.rep z s0 hz
      exact ⟨o, by simp [hne, h1], h2.frame (by simp [bufId_inj hne])⟩

theorem Inv.sv (I : Inv t σ st e) {y : Nat} {l : List V} (h : e.str y = some l) :
    ∃ sv, σ (strId y) = some sv ∧ sv.val = l := by
  have := I.str y
  rw [h] at this
  simpa using this

theorem Inv.nosv (I : Inv t σ st e) {y : Nat} (h : e.str y = none) : σ (strId y) = none := by
  have := I.str y
  rw [h] at this
  simpa using this

theorem guarded_fin {m : SM V (Out V)} {o : Obj} {r : Out V} {st st' : SSt V} {s : Strm V}
    (h : m st = fin o r st') (h1 : o.exc = s.mask) (h2 : o.state = s.state) :
    guarded m st = .ok (outcome s r) st' := by
  simp only [guarded, M.tryCatch, h, fin, outcome, h1, h2]
  cases meets s.mask s.state <;> simp

theorem bind_fin {α β : Type} {m : SM V α} {f : α → SM V β} {o : Obj} {r : α} {q : β} {st st' : SSt V}
    (h : m st = fin o r st') (hf : f r st' = .ok q st') : (m >>= f) st = fin o q st' := by
  simp only [M.bind_apply, h, fin]
  cases meets o.exc o.state <;> simp [hf]

theorem takeWhile_all {α : Type} (p : α → Bool) {l : List α} (h : ∀ a ∈ l, p a = true) : l.takeWhile p = l := by
  induction l with
  | nil => rfl
  | cons a l ih =>
    rw [List.takeWhile_cons, h a (by simp)]
    simp [ih (fun b hb => h b (by simp [hb]))]

/-- One statement. -/
theorem step_refines {e' : Env V} {op : Op V} {out : Out V}
    (he : ((∀ x a i, op ≠ .get x a i) ∧ ∀ x, op ≠ .unget x) ∨ ∀ c, t.eofLike c = false) (I : Inv t σ st e) (hstep : specStep t.nul e op = some (e', out)) :
    ∃ σ' st', runOp t op st = .ok out st' ∧ Inv t σ' st' e' := by
  cases op with
  | newArr a l =>
    simp only [specStep] at hstep
    split at hstep
    · rename_i h
      cases hstep
      have h' : st.arr a = none := by rw [I.arr]; exact h
      refine ⟨σ, { st with arr := upd st.arr a (some l) }, by simp [runOp, newArr, h'], ?_⟩
      exact ⟨I.world, I.tmp, I.str, by simp [put_eq, I.arr], I.dom, I.rep⟩
    · cases hstep
  | vals a =>
    simp only [specStep] at hstep
    split at hstep
    · rename_i l h
      cases hstep
      exact ⟨σ, st, by simp [runOp, getArr_some (show st.arr a = some l by rw [I.arr]; exact h)], I⟩
    · cases hstep
  | newStr y a n =>
    simp only [specStep] at hstep
    split at hstep
    · rename_i l h1 h2
      split at hstep
      · rename_i hn
        cases hstep
        have ha : st.arr a = some l := by rw [I.arr]; exact h2
        obtain ⟨ss, sv, g1, g2, g3⟩ := Str.ctorPC_spec I.world (I.nosv h1) (Str.Sees.ext _ l 0) (n := n)
          (by simpa using hn)
        refine ⟨upd σ (strId y) (some sv), { st with strs := ss }, by simp only [runOp, M.bind_apply, getArr_some ha]; rw [lift_ok g1]; rfl, g2, ?_, ?_, I.arr, ?_, ?_⟩
        · simp [tmp_str, I.tmp]
        · intro z
          simp only [upd_apply, put_eq]
          by_cases hz : z = y
          · subst hz; simp [g3]
          · rw [if_neg (strId_inj hz), if_neg hz]; exact I.str z
        · intro z hz
          have := I.dom z hz
          exact ⟨this.1, by simp [Ne.symm (str_buf y z), this.2]⟩
        · intro z s hz
          obtain ⟨o, r1, r2⟩ := I.rep z s hz
          exact ⟨o, r1, r2.frame (by simp [Ne.symm (str_buf y z)])⟩
      · cases hstep
    · cases hstep
  | delStr y =>
    simp only [specStep] at hstep
    split at hstep
    · rename_i l h1
      cases hstep
      obtain ⟨sv, h2, h3⟩ := I.sv h1
      obtain ⟨ss, g1, g2⟩ := Str.dtor_spec I.world h2
      refine ⟨upd σ (strId y) none, { st with strs := ss }, by simp only [runOp, M.bind_apply]; rw [lift_ok g1]; rfl, g2, ?_, ?_, I.arr, ?_, ?_⟩
      · simp [tmp_str, I.tmp]
      · intro z
        simp only [upd_apply, put_eq]
        by_cases hz : z = y
        · subst hz; simp
        · rw [if_neg (strId_inj hz), if_neg hz]; exact I.str z
      · intro z hz
        have := I.dom z hz
        exact ⟨this.1, by simp [Ne.symm (str_buf y z), this.2]⟩
      · intro z s hz
        obtain ⟨o, r1, r2⟩ := I.rep z s hz
        exact ⟨o, r1, r2.frame (by simp [Ne.symm (str_buf y z)])⟩
    · cases hstep
  | newIS x =>
    simp only [specStep] at hstep
    split at hstep
    · rename_i h
      cases hstep
      obtain ⟨d1, d2⟩ := I.dom x h
      obtain ⟨ss, o', sv, g1, g2, g3⟩ := ctorMode_ok (t := t) I.world d2 d1 ⟨true, false, false, false⟩ false rfl
      exact ⟨_, _, by simp only [runOp, newIS, M.bind_apply]; rw [g1]; rfl, I.buf g2 g3⟩
    · cases hstep
  | newSS x =>
    simp only [specStep] at hstep
    split at hstep
    · rename_i h
      cases hstep
      obtain ⟨d1, d2⟩ := I.dom x h
      obtain ⟨ss, o', sv, g1, g2, g3⟩ := ctorMode_ok (t := t) I.world d2 d1 ⟨true, true, false, false⟩ false rfl
      exact ⟨_, _, by simp only [runOp, newSS, M.bind_apply]; rw [g1]; rfl, I.buf g2 g3⟩
    · cases hstep
  | newISs x y m =>
    simp only [specStep] at hstep
    split at hstep
    · rename_i l h1 h2
      cases hstep
      obtain ⟨d1, d2⟩ := I.dom x h1
      obtain ⟨sv, h3, h4⟩ := I.sv h2
      obtain ⟨ss, o', sv', g1, g2, g3⟩ := ctorStr_ok (t := t) I.world d2 d1 h3 { m with inn := true } false
      rw [h4] at g3
      exact ⟨_, _, by simp only [runOp, newISs, M.bind_apply]; rw [g1]; rfl, I.buf g2 g3⟩
    · cases hstep
  | newSSs x y m =>
    simp only [specStep] at hstep
    split at hstep
    · rename_i l h1 h2
      cases hstep
      obtain ⟨d1, d2⟩ := I.dom x h1
      obtain ⟨sv, h3, h4⟩ := I.sv h2
      obtain ⟨ss, o', sv', g1, g2, g3⟩ := ctorStr_ok (t := t) I.world d2 d1 h3 m false
      rw [h4] at g3
      exact ⟨_, _, by simp only [runOp, newSSs, M.bind_apply]; rw [g1]; rfl, I.buf g2 g3⟩
    · cases hstep
  | newNull x =>
    simp only [specStep] at hstep
    split at hstep
    · rename_i h
      cases hstep
      obtain ⟨d1, d2⟩ := I.dom x h
      obtain ⟨o', g1, g2⟩ := newNull_ok d2 d1
      exact ⟨_, _, by simp only [runOp, M.bind_apply]; rw [g1]; rfl, I.nobuf g2⟩
    · cases hstep
  | setStr x y =>
    simp only [specStep] at hstep
    split at hstep
    · rename_i s l h1 h2
      split at hstep
      · rename_i m h3
        split at hstep
        · cases hstep
        · rename_i hnul
          cases hstep
          obtain ⟨o, r1, r2⟩ := I.rep x s h1
          obtain ⟨sv, h4, h5⟩ := I.sv h2
          obtain ⟨ss, o', sv', g1, g2, g3⟩ := setStr_ok (t := t) I.world r1 r2 h3 h4
          have e1 : sv.val.takeWhile (· ≠ t.nul) = l := by
            rw [h5]
            exact takeWhile_all _ (by
              intro a ha
              simp only [decide_eq_true_eq]
              intro hc; subst hc; exact hnul ha)
          rw [e1] at g3
          exact ⟨_, _, by simp only [runOp, M.bind_apply]; rw [g1]; rfl, I.buf g2 g3⟩
      · cases hstep
    · cases hstep
  | get x a i =>
    simp only [specStep] at hstep
    split at hstep
    · rename_i s l h1 h2
      split at hstep
      · rename_i hi
        cases hstep
        have ha : st.arr a = some l := by rw [I.arr]; exact h2
        obtain ⟨o, r1, r2⟩ := I.rep x s h1
        have he : ∀ c, t.eofLike c = false := he.resolve_left fun h => h.1 _ _ _ rfl
        obtain ⟨o', g1, g2⟩ := get_ok I.world r1 r2 (fun _ c _ => he c) ha hi
        refine ⟨σ, _, guarded_fin (bind_fin g2 rfl) g1.exc g1.state, ?_⟩
        rw [I.arr]
        exact I.ios h1 g1 _
      · cases hstep
    · cases hstep
  | read x a i n =>
    simp only [specStep] at hstep
    split at hstep
    · rename_i s l h1 h2
      split at hstep
      · rename_i hi
        cases hstep
        have ha : st.arr a = some l := by rw [I.arr]; exact h2
        obtain ⟨o, r1, r2⟩ := I.rep x s h1
        obtain ⟨o', g1, g2⟩ := read_ok I.world r1 r2 ha hi
        refine ⟨σ, _, guarded_fin (bind_fin g2 rfl) g1.exc g1.state, ?_⟩
        rw [I.arr]
        exact I.ios h1 g1 _
      · cases hstep
    · cases hstep
  | unget x =>
    simp only [specStep] at hstep
    split at hstep
    · rename_i s h1
      cases hstep
      obtain ⟨o, r1, r2⟩ := I.rep x s h1
      have he : ∀ c, t.eofLike c = false := he.resolve_left fun h => h.2 _ rfl
      obtain ⟨o', g1, g2⟩ := unget_ok I.world r1 r2 (fun _ _ _ c _ => he c)
      exact ⟨σ, _, guarded_fin (bind_fin g2 rfl) g1.exc g1.state, I.nobuf g1⟩
    · cases hstep
  | gcount x =>
    simp only [specStep] at hstep
    split at hstep
    · rename_i s h1
      cases hstep
      obtain ⟨o, r1, r2⟩ := I.rep x s h1
      exact ⟨σ, st, by simp [runOp, gcount_ok r1, r2.count], I⟩
    · cases hstep
  | clear x b =>
    simp only [specStep] at hstep
    split at hstep
    · rename_i s h1
      cases hstep
      obtain ⟨o, r1, r2⟩ := I.rep x s h1
      have g2 := clear_ok r1 b
      have e1 : (if o.rdbuf then b else b.or Bits.badbit) = (cleared s b).state := by
        have hk := r2.kind
        cases ho : s.opened with
        | none =>
          simp only [Kind, ho] at hk
          simp [hk.1, cleared, ho, Bits.or, Bits.badbit]
        | some m =>
          simp only [Kind, ho] at hk
          simp [hk.1, cleared, ho]
      have g1 : Rep σ x { o with state := (cleared s b).state } (cleared s b) := by
        have := r2.bits (cleared s b).state o.exc o.gcount (by intro hn; simp [cleared, hn])
        simp only [r2.exc, r2.count] at this
        rw [← r2.exc, ← r2.count] at this
        simpa [cleared, r2.exc, r2.count] using this
      rw [e1] at g2
      exact ⟨σ, _, guarded_fin (bind_fin g2 rfl) g1.exc g1.state, I.nobuf g1⟩
    · cases hstep
  | setstate x b =>
    simp only [specStep] at hstep
    split at hstep
    · rename_i s h1
      cases hstep
      obtain ⟨o, r1, r2⟩ := I.rep x s h1
      have g2 := setstate_ok r1 b r2.bad
      have g1 : Rep σ x { o with state := o.state.or b } { s with state :=
          ⟨s.state.bad || b.bad, s.state.eof || b.eof, s.state.fail || b.fail⟩ } := by
        have := r2.bits (o.state.or b) o.exc o.gcount (by
          intro hn
          have hk := r2.kind
          simp only [Kind, hn] at hk
          simp [Bits.or, hk.2.1])
        simpa [r2.exc, r2.count, r2.state, Bits.or] using this
      exact ⟨σ, _, guarded_fin (bind_fin g2 rfl) g1.exc g1.state, I.nobuf g1⟩
    · cases hstep
  | rdstate x =>
    simp only [specStep] at hstep
    split at hstep
    · rename_i s h1
      cases hstep
      obtain ⟨o, r1, r2⟩ := I.rep x s h1
      exact ⟨σ, st, by simp [runOp, rdstate_ok r1, r2.state], I⟩
    · cases hstep
  | good x =>
    simp only [specStep] at hstep
    split at hstep
    · rename_i s h1
      cases hstep
      obtain ⟨o, r1, r2⟩ := I.rep x s h1
      exact ⟨σ, st, by simp [runOp, good_ok r1, r2.state], I⟩
    · cases hstep
  | eof x =>
    simp only [specStep] at hstep
    split at hstep
    · rename_i s h1
      cases hstep
      obtain ⟨o, r1, r2⟩ := I.rep x s h1
      exact ⟨σ, st, by simp [runOp, eof_ok r1, r2.state], I⟩
    · cases hstep
  | fail x =>
    simp only [specStep] at hstep
    split at hstep
    · rename_i s h1
      cases hstep
      obtain ⟨o, r1, r2⟩ := I.rep x s h1
      exact ⟨σ, st, by simp [runOp, fail_ok r1, r2.state], I⟩
    · cases hstep
  | bool x =>
    simp only [specStep] at hstep
    split at hstep
    · rename_i s h1
      cases hstep
      obtain ⟨o, r1, r2⟩ := I.rep x s h1
      exact ⟨σ, st, by simp [runOp, toBool, fail_ok r1, r2.state], I⟩
    · cases hstep
  | not x =>
    simp only [specStep] at hstep
    split at hstep
    · rename_i s h1
      cases hstep
      obtain ⟨o, r1, r2⟩ := I.rep x s h1
      exact ⟨σ, st, by simp [runOp, Stream.not, fail_ok r1, r2.state], I⟩
    · cases hstep
  | mask x =>
    simp only [specStep] at hstep
    split at hstep
    · rename_i s h1
      cases hstep
      obtain ⟨o, r1, r2⟩ := I.rep x s h1
      exact ⟨σ, st, by simp [runOp, mask_ok r1, r2.exc], I⟩
    · cases hstep
  | setMask x b =>
    simp only [specStep] at hstep
    split at hstep
    · rename_i s h1
      cases hstep
      obtain ⟨o, r1, r2⟩ := I.rep x s h1
      have g1 : Rep σ x { o with exc := b } { s with mask := b } := by
        have := r2.bits o.state b o.gcount (by
          intro hn
          have hk := r2.kind
          simp only [Kind, hn] at hk
          exact hk.2.1)
        simpa [r2.count, r2.state] using this
      have g2 : setMask x b st = fin { o with exc := b } () { st with ios := upd st.ios x (some { o with exc := b }) } := by
        simp only [setMask, M.bind_apply, getIos_some r1]
        rw [setIos_some r1]
        simp only []
        rw [clear_ok (o := { o with exc := b }) (by simp)]
        have e1 : (if o.rdbuf then o.state else o.state.or Bits.badbit) = o.state := by
          split
          · rfl
          · rcases r2.bad with hb | hb
            · contradiction
            · simp only [Bits.or, Bits.badbit, ← hb, Bool.or_false, Bool.or_self]
        simp only [e1, upd_upd]
      exact ⟨σ, _, guarded_fin (bind_fin g2 rfl) g1.exc g1.state, I.nobuf g1⟩
    · cases hstep
  | destroy x =>
    simp only [specStep] at hstep
    split at hstep
    · rename_i s h1
      split at hstep
      · cases hstep
      · rename_i hh
        cases hstep
        obtain ⟨o, r1, r2⟩ := I.rep x s h1
        obtain ⟨ss, g1, g2⟩ := dtor_ok I.world r1 r2
        refine ⟨_, _, ?_, I.del g2⟩
        simp only [runOp, destroy, M.bind_apply, getIos_some r1, r2.heap]
        rw [if_neg hh, g1]
        rfl
    · cases hstep
  | fmemopen x a n =>
    simp only [specStep] at hstep
    split at hstep
    · rename_i l h1 h2
      split at hstep
      · rename_i hn
        cases hstep
        have ha : st.arr a = some l := by rw [I.arr]; exact h2
        obtain ⟨d1, d2⟩ := I.dom x h1
        obtain ⟨ss, o', sv', g1, g2, g3⟩ := fmemopen_ok (t := t) I.world d2 d1 I.tmp ha hn
        exact ⟨_, _, by simp only [runOp, M.bind_apply]; rw [g1]; rfl, I.buf g2 g3⟩
      · cases hstep
    · cases hstep
  | fread x a i n =>
    simp only [specStep] at hstep
    split at hstep
    · rename_i s l h1 h2
      split at hstep
      · rename_i hi
        cases hstep
        have ha : st.arr a = some l := by rw [I.arr]; exact h2
        obtain ⟨o, r1, r2⟩ := I.rep x s h1
        obtain ⟨o', g1, g2⟩ := read_ok (t := t) I.world r1 r2 ha hi
        have hc : (readS s n).1.count = (readS s n).2.length := by
          simp only [readS]; split <;> simp [refused]
        refine ⟨σ, _, guarded_fin (o := o') (st' := { st with ios := upd st.ios x (some o'), arr := upd st.arr a (some (blit l i (readS s n).2)) }) ?_ g1.exc g1.state, ?_⟩
        · simp only [fread, Nat.one_mul]
          rw [if_neg (by simp)]
          refine bind_fin (bind_fin (q := (readS s n).2.length) g2 ?_) rfl
          simp only [M.bind_apply]
          rw [gcount_ok (o := o') (by simp)]
          simp [g1.count, hc]
        · rw [I.arr]
          exact I.ios h1 g1 _
      · cases hstep
    · cases hstep
  | fclose x =>
    simp only [specStep] at hstep
    split at hstep
    · rename_i s h1
      split at hstep
      · rename_i hh
        cases hstep
        obtain ⟨o, r1, r2⟩ := I.rep x s h1
        obtain ⟨ss, g1, g2⟩ := dtor_ok I.world r1 r2
        refine ⟨_, _, ?_, I.del g2⟩
        simp only [runOp, fclose, M.bind_apply, getIos_some r1, r2.heap]
        rw [if_pos hh]
        simp only [M.bind_apply]
        rw [g1]
        rfl
      · cases hstep
    · cases hstep

/-- A whole program. -/
theorem run_refines (he : ∀ c, t.eofLike c = false) {ops : List (Op V)} {e' : Env V} {outs : List (Out V)}
    (I : Inv t σ st e) (hrun : specRun t.nul e ops = some (e', outs)) :
    ∃ σ' st', runOps t ops st = .ok outs st' ∧ Inv t σ' st' e' := by
  induction ops generalizing σ st e outs with
  | nil => simp [specRun] at hrun; obtain ⟨rfl, rfl⟩ := hrun; exact ⟨σ, st, rfl, I⟩
  | cons op ops ih =>
    simp only [specRun] at hrun
    split at hrun
    · cases hrun
    · rename_i e1 o1 h1
      split at hrun
      · cases hrun
      · rename_i e2 os h2
        cases hrun
        obtain ⟨σ1, st1, g1, I1⟩ := step_refines (.inr he) I h1
        obtain ⟨σ2, st2, g2, I2⟩ := ih I1 h2
        exact ⟨σ2, st2, by simp [runOps, g1, g2], I2⟩

end Cest.Stream
