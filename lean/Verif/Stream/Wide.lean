import Verif.Stream.Refine
import Verif.Stream.WideSpec
/-
Lemmas for C146: streams of characters some of which look like the end of the file.
-/
namespace Cest.Stream
open Cest
set_option linter.unusedSectionVars false
variable {V : Type} [DecidableEq V] {t : Traits V}
variable {σ : Nat → Option (Str.SV V)} {st : SSt V} {x : Nat} {o : Obj} {s : Strm V} {e : Env V}

theorem getW_same {eofLike : V → Bool}
    (h : isGood s.state = true → ∀ c, s.content[s.pos]? = some c → eofLike c = false) :
    getW eofLike s = getS s := by
  simp only [getW, getS]
  split
  · rename_i hg
    cases hc : s.content[s.pos]? with
    | some c => simp [h hg c hc]
    | none => rfl
  · rfl

theorem ungetW_same {eofLike : V → Bool}
    (h : meets s.mask ⟨s.state.bad, false, s.state.fail⟩ = false → isGood ⟨s.state.bad, false, s.state.fail⟩ = true →
      0 < s.pos → ∀ c, s.content[s.pos - 1]? = some c → eofLike c = false) :
    ungetW eofLike s = ungetS s := by
  simp only [ungetW, ungetS]
  split
  · rfl
  · rename_i h1
    split
    · rename_i h2
      split
      · rename_i h3
        have : (s.content[s.pos - 1]?).any eofLike = false := by
          cases hc : s.content[s.pos - 1]? with
          | none => rfl
          | some c => exact h (by simpa using h1) h2 h3 c hc
        simp only [this, Bool.false_eq_true, if_false]
      · rfl
    · rfl

/-- `get` at a character that looks like the end of the file. -/
theorem get_eofLike (W : Str.SW t.toTraits st.strs σ) (h : st.ios x = some o) (R : Rep σ x o s)
    (hg : isGood s.state = true) {c : V} (hc : s.content[s.pos]? = some c) (he : t.eofLike c = true)
    {a i : Nat} :
    ∃ o', Rep σ x o' { s with pos := s.pos + 1, state := ⟨false, true, true⟩, count := 0 } ∧
      get t x a i st = fin o' () { st with ios := upd st.ios x (some o') } := by
  simp only [get, M.bind_apply]
  rw [setGcount_ok h]
  simp only []
  have h1 : ({ st with ios := upd st.ios x (some { o with gcount := 0 }) } : SSt V).ios x =
      some { o with gcount := 0 } := by simp
  obtain ⟨m, sv, hm, hrd, hmo, hmm, hs, hA⟩ := R.good_buf hg
  have hgo : isGood o.state = true := by rw [R.state]; exact hg
  have hst : o.state = Bits.none := (isGood_iff _).1 hgo
  obtain ⟨_, hmem, _⟩ := Str.get_rep W hs
  rw [sentry_good h1 hgo]
  obtain ⟨p, hsb, hA2⟩ := sbumpc_some (t := t) h1 hA hmem hc
  refine ⟨{ o with inCur := p, gcount := 0, state := ⟨false, true, true⟩ }, ?_, ?_⟩
  · have := R.move (p := p) ⟨false, true, true⟩ s.mask 0 (by simp [hm])
      (by intro sv' h'; rw [hs] at h'; cases h'; exact hA2)
    simpa [R.exc] using this
  · simp only [if_true, M.bind_apply]
    rw [hsb]
    simp only [toInt, he, if_true, M.pure_apply]
    rw [gcount_ok (o := { o with gcount := 0, inCur := p }) (by simp)]
    simp only [if_true]
    rw [if_pos (by simp [Bits.or, Bits.none, Bits.failbit])]
    rw [setstate_ok (o := { o with gcount := 0, inCur := p }) (by simp) _ (Or.inl hrd)]
    have e : (o.state.or (Bits.eofbit.or Bits.failbit)) = ⟨false, true, true⟩ := by
      simp [hst, Bits.or, Bits.failbit, Bits.none, Bits.eofbit]
    simp only [e, upd_upd]

theorem get_okW (W : Str.SW t.toTraits st.strs σ) (h : st.ios x = some o) (R : Rep σ x o s)
    {a i : Nat} {l : List V} (ha : st.arr a = some l) (hi : i < l.length) :
    ∃ o', Rep σ x o' (getW t.eofLike s).1 ∧ get t x a i st = fin o' () { st with
      ios := upd st.ios x (some o'), arr := upd st.arr a (some (blit l i (getW t.eofLike s).2.toList)) } := by
  by_cases he : isGood s.state = true → ∀ c, s.content[s.pos]? = some c → t.eofLike c = false
  · rw [getW_same he]; exact get_ok W h R he ha hi
  · simp only [Classical.not_imp, Classical.not_forall, Bool.not_eq_false] at he
    obtain ⟨hg, c, hc, hec⟩ := he
    obtain ⟨o', r1, r2⟩ := get_eofLike (a := a) (i := i) W h R hg hc hec
    refine ⟨o', by simpa [getW, hg, hc, hec] using r1, ?_⟩
    rw [r2]
    simp only [getW, hg, hc, hec, if_true, Option.toList_none, blit_nil]
    rw [upd_eq_self ha]

/-- `unget` over a character that looks like the end of the file. -/
theorem unget_eofLike (W : Str.SW t.toTraits st.strs σ) (h : st.ios x = some o) (R : Rep σ x o s)
    (hg : isGood ⟨s.state.bad, false, s.state.fail⟩ = true) (hp : 0 < s.pos) {c : V}
    (hc : s.content[s.pos - 1]? = some c) (he : t.eofLike c = true) :
    ∃ o', Rep σ x o' { s with pos := s.pos - 1, state := ⟨true, false, false⟩, count := 0 } ∧
      unget t x st = fin o' () { st with ios := upd st.ios x (some o') } := by
  have hb : s.state.bad = false ∧ s.state.fail = false := by
    simp [isGood] at hg; exact hg
  have hk := R.kind
  cases hop : s.opened with
  | none =>
    simp only [Kind, hop, R.state] at hk
    rw [hb.1] at hk
    cases hk.2.1
  | some m =>
    simp only [Kind, hop] at hk
    obtain ⟨hrd, hmo, hmm, sv, hs, hA⟩ := hk
    obtain ⟨_, hmem, _⟩ := Str.get_rep W hs
    have e0 : o.state.minus Bits.eofbit = Bits.none := by
      rw [R.state]; simp [Bits.minus, Bits.eofbit, hb.1, hb.2, Bits.none]
    simp only [unget, M.bind_apply]
    rw [setGcount_ok h]
    simp only []
    rw [rdstate_ok (o := { o with gcount := 0 }) (by simp)]
    simp only []
    rw [clear_ok (o := { o with gcount := 0 }) (by simp)]
    simp only [hrd, if_true, e0, upd_upd, fin, meets_none, Bool.false_eq_true, if_false]
    obtain ⟨o1, ho1⟩ : ∃ o1, o1 = { o with gcount := 0, state := Bits.none, rdbuf := true } := ⟨_, rfl⟩
    have h1 : ({ st with ios := upd st.ios x (some o1) } : SSt V).ios x = some o1 := by simp
    have hm1 : o1.rdbuf = true := by rw [ho1]
    rw [← ho1]
    rw [sentry_good h1 (by rw [ho1]; rfl)]
    simp only [if_true, M.bind_apply]
    rw [getIos_some h1]
    simp only [hm1, if_true, M.bind_apply]
    obtain ⟨p, c', hc', hsu, hA2⟩ := sungetc_pos (t := t) (o := o1) h1 (by rw [ho1]; exact hA) hmem hp
    rw [hc] at hc'; cases hc'
    rw [hsu]
    simp only [toInt, he, if_true, M.pure_apply, decide_true]
    rw [setstate_ok (o := { o1 with inCur := p }) (by simp) _ (Or.inl hm1)]
    refine ⟨{ o1 with inCur := p, state := o1.state.or Bits.badbit }, ?_, ?_⟩
    · have := R.move (p := p) ⟨true, false, false⟩ s.mask 0 (by simp [hop])
        (by intro sv' h'; rw [hs] at h'; cases h'; rw [ho1] at hA2; exact hA2)
      rw [ho1]
      simpa [R.exc, Bits.or, Bits.none, Bits.badbit, hrd, hop] using this
    · simp only [fin, upd_upd]

theorem unget_okW (W : Str.SW t.toTraits st.strs σ) (h : st.ios x = some o) (R : Rep σ x o s) :
    ∃ o', Rep σ x o' (ungetW t.eofLike s) ∧ unget t x st = fin o' () { st with ios := upd st.ios x (some o') } := by
  by_cases he : meets s.mask ⟨s.state.bad, false, s.state.fail⟩ = false →
      isGood ⟨s.state.bad, false, s.state.fail⟩ = true → 0 < s.pos →
      ∀ c, s.content[s.pos - 1]? = some c → t.eofLike c = false
  · rw [ungetW_same he]; exact unget_ok W h R he
  · simp only [Classical.not_imp, Classical.not_forall, Bool.not_eq_false] at he
    obtain ⟨hm, hg, hp, c, hc, hec⟩ := he
    obtain ⟨o', r1, r2⟩ := unget_eofLike W h R hg hp hc hec
    exact ⟨o', by simpa [ungetW, hm, hg, hp, hc, hec] using r1, r2⟩

/-- Each statement. -/
theorem step_refinesW {e' : Env V} {op : Op V} {out : Out V} (I : Inv t σ st e)
    (hstep : specStepW t.nul t.eofLike e op = some (e', out)) :
    ∃ σ' st', runOp t op st = .ok out st' ∧ Inv t σ' st' e' := by
  cases op with
  | get x a i =>
    simp only [specStepW] at hstep
    split at hstep
    · rename_i s l h1 h2
      split at hstep
      · rename_i hi
        cases hstep
        have ha : st.arr a = some l := by rw [I.arr]; exact h2
        obtain ⟨o, r1, r2⟩ := I.rep x s h1
        obtain ⟨o', g1, g2⟩ := get_okW I.world r1 r2 ha hi
        refine ⟨σ, _, guarded_fin (bind_fin g2 rfl) g1.exc g1.state, ?_⟩
        rw [I.arr]
        exact I.ios h1 g1 _
      · cases hstep
    · cases hstep
  | unget x =>
    simp only [specStepW] at hstep
    split at hstep
    · rename_i s h1
      cases hstep
      obtain ⟨o, r1, r2⟩ := I.rep x s h1
      obtain ⟨o', g1, g2⟩ := unget_okW I.world r1 r2
      exact ⟨σ, _, guarded_fin (bind_fin g2 rfl) g1.exc g1.state, I.nobuf g1⟩
    · cases hstep
  | setStr x y =>
    simp only [specStepW] at hstep
    split at hstep
    · rename_i s l h1 h2
      split at hstep
      · rename_i m h3
        cases hstep
        obtain ⟨o, r1, r2⟩ := I.rep x s h1
        obtain ⟨sv, h4, h5⟩ := I.sv h2
        obtain ⟨ss, o', sv', g1, g2, g3⟩ := setStr_ok (t := t) I.world r1 r2 h3 h4
        rw [h5] at g3
        exact ⟨_, _, by simp only [runOp, M.bind_apply]; rw [g1]; rfl, I.buf g2 g3⟩
      · cases hstep
    · cases hstep
  | _ => exact step_refines (.inl ⟨by intros; simp, by intros; simp⟩) I hstep

/-- A whole program. -/
theorem run_refinesW {ops : List (Op V)} {e' : Env V} {outs : List (Out V)} (I : Inv t σ st e)
    (hrun : specRunW t.nul t.eofLike e ops = some (e', outs)) :
    ∃ σ' st', runOps t ops st = .ok outs st' ∧ Inv t σ' st' e' := by
  induction ops generalizing σ st e outs with
  | nil => simp [specRunW] at hrun; obtain ⟨rfl, rfl⟩ := hrun; exact ⟨σ, st, rfl, I⟩
  | cons op ops ih =>
    simp only [specRunW] at hrun
    split at hrun
    · cases hrun
    · rename_i e1 o1 h1
      split at hrun
      · cases hrun
      · rename_i e2 os h2
        cases hrun
        obtain ⟨σ1, st1, g1, I1⟩ := step_refinesW I h1
        obtain ⟨σ2, st2, g2, I2⟩ := ih I1 h2
        exact ⟨σ2, st2, by simp [runOps, g1, g2], I2⟩

end Cest.Stream
