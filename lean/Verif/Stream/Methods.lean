import Verif.Stream.Proofs
/-
Effect of the stream operations on represented streams (helper lemmas).
-/
namespace Cest.Stream
open Cest
set_option linter.unusedSectionVars false
variable {V : Type} [DecidableEq V] {t : Traits V}

/-- What kind of stream it is, and where its characters are. -/
def Kind (σ : Nat → Option (Str.SV V)) (x : Nat) (o : Obj) (s : Strm V) : Prop :=
  match s.opened with
  | none => o.rdbuf = false ∧ o.state.bad = true ∧ σ (bufId x) = none
  | some m => o.rdbuf = true ∧ o.mode = m ∧
      (m.inn = false → m.out = false → o.inBeg = none) ∧
      ∃ sv, σ (bufId x) = some sv ∧ Area sv o.inBeg o.inCur o.inEnd s.content s.pos

/-- The fields `o` (and the string in `σ`) represent `s`. -/
structure Rep (σ : Nat → Option (Str.SV V)) (x : Nat) (o : Obj) (s : Strm V) : Prop where
  state : o.state = s.state
  exc : o.exc = s.mask
  count : o.gcount = s.count
  heap : o.heap = s.heap
  kind : Kind σ x o s

theorem Rep.bad {σ : Nat → Option (Str.SV V)} {x : Nat} {o : Obj} {s : Strm V} (R : Rep σ x o s) :
    o.rdbuf = true ∨ o.state.bad = true := by
  have := R.kind
  simp only [Kind] at this
  split at this
  · exact Or.inr this.2.1
  · exact Or.inl this.1

theorem Rep.good_buf {σ : Nat → Option (Str.SV V)} {x : Nat} {o : Obj} {s : Strm V} (R : Rep σ x o s)
    (hg : isGood s.state = true) : ∃ m sv, s.opened = some m ∧ o.rdbuf = true ∧ o.mode = m ∧
      (m.inn = false → m.out = false → o.inBeg = none) ∧
      σ (bufId x) = some sv ∧ Area sv o.inBeg o.inCur o.inEnd s.content s.pos := by
  have hk := R.kind
  simp only [Kind] at hk
  split at hk
  · rename_i h
    rw [R.state] at hk
    simp [isGood, hk.2.1] at hg
  · rename_i m h
    obtain ⟨h1, h2, h3, sv, h4, h5⟩ := hk
    exact ⟨m, sv, h, h1, h2, h3, h4, h5⟩

section
variable {σ : Nat → Option (Str.SV V)} {st : SSt V} {x : Nat} {o : Obj} {s : Strm V}

/-- Changing bits, mask, count and read position. -/
theorem Rep.move (R : Rep σ x o s) {p : CP} {pos : Nat} (b e : Bits) (n : Nat)
    (hb : s.opened = none → b.bad = true)
    (hA : ∀ sv, σ (bufId x) = some sv → Area sv o.inBeg p o.inEnd s.content pos) :
    Rep σ x { o with inCur := p, state := b, exc := e, gcount := n }
      { s with pos := pos, state := b, mask := e, count := n } := by
  refine ⟨rfl, rfl, rfl, R.heap, ?_⟩
  have hk := R.kind
  cases ho : s.opened with
  | none =>
    simp only [Kind, ho] at hk ⊢
    exact ⟨hk.1, hb ho, hk.2.2⟩
  | some m =>
    simp only [Kind, ho] at hk ⊢
    obtain ⟨h1, h2, h3, sv, h4, h5⟩ := hk
    exact ⟨h1, h2, h3, sv, h4, hA sv h4⟩

/-- Changing bits, mask and count. -/
theorem Rep.bits (R : Rep σ x o s) (b e : Bits) (n : Nat) (hb : s.opened = none → b.bad = true) :
    Rep σ x { o with state := b, exc := e, gcount := n } { s with state := b, mask := e, count := n } := by
  refine ⟨rfl, rfl, rfl, R.heap, ?_⟩
  have hk := R.kind
  cases ho : s.opened with
  | none =>
    simp only [Kind, ho] at hk ⊢
    exact ⟨hk.1, hb ho, hk.2.2⟩
  | some m =>
    simp only [Kind, ho] at hk ⊢
    exact hk

theorem get_ok (W : Str.SW t.toTraits st.strs σ) (h : st.ios x = some o) (R : Rep σ x o s)
    (he : isGood s.state = true → ∀ c, s.content[s.pos]? = some c → t.eofLike c = false) {a i : Nat} {l : List V} (ha : st.arr a = some l)
    (hi : i < l.length) :
    ∃ o', Rep σ x o' (getS s).1 ∧ get t x a i st = fin o' () { st with
      ios := upd st.ios x (some o'), arr := upd st.arr a (some (blit l i (getS s).2.toList)) } := by
  simp only [get, M.bind_apply]
  rw [setGcount_ok h]
  simp only []
  have h1 : ({ st with ios := upd st.ios x (some { o with gcount := 0 }) } : SSt V).ios x =
      some { o with gcount := 0 } := by simp
  cases hg : isGood s.state with
  | false =>
    have hgo : isGood o.state = false := by rw [R.state]; exact hg
    refine ⟨{ o with gcount := 0, state := o.state.or Bits.failbit }, ?_, ?_⟩
    · simp only [getS, hg, Bool.false_eq_true, if_false, refused]
      have := R.bits (o.state.or Bits.failbit) o.exc 0 (by
        intro hn
        have hk := R.kind
        simp only [Kind, hn] at hk
        simp [Bits.or, hk.2.1])
      simpa [Bits.or, Bits.failbit, R.state, R.exc] using this
    · have hb : ({ o with gcount := 0 } : Obj).rdbuf = true ∨ ({ o with gcount := 0 } : Obj).state.bad = true :=
        R.bad
      rw [sentry_bad h1 hgo hb]
      simp only [getS, hg, Bool.false_eq_true, if_false, Option.toList_none, blit_nil, fin]
      rw [upd_eq_self ha]
      cases hm : meets o.exc (o.state.or Bits.failbit) with
      | true => simp [upd_upd]
      | false =>
        simp only [Bool.false_eq_true, if_false, upd_upd, M.pure_apply]
        rw [gcount_ok (o := { o with gcount := 0, state := o.state.or Bits.failbit }) (by simp)]
        simp only [if_true]
        rw [if_pos (by simp [Bits.or, Bits.none, Bits.failbit])]
        rw [setstate_ok (o := { o with gcount := 0, state := o.state.or Bits.failbit }) (by simp) _ (by
          rcases R.bad with hb | hb
          · exact Or.inl hb
          · exact Or.inr (by simp [Bits.or, hb]))]
        have e : ((o.state.or Bits.failbit).or (Bits.none.or Bits.failbit)) = o.state.or Bits.failbit := by
          simp [Bits.or, Bits.failbit, Bits.none]
        simp only [e, fin, hm, upd_upd]
        rfl
  | true =>
    obtain ⟨m, sv, hm, hrd, hmo, hmm, hs, hA⟩ := R.good_buf hg
    have hgo : isGood o.state = true := by rw [R.state]; exact hg
    have hst : o.state = Bits.none := (isGood_iff _).1 hgo
    obtain ⟨_, hmem, _⟩ := Str.get_rep W hs
    rw [sentry_good h1 hgo]
    simp only [getS, hg, if_true]
    cases hc : s.content[s.pos]? with
    | some c =>
      obtain ⟨p, hsb, hA2⟩ := sbumpc_some (t := t) h1 hA hmem hc
      refine ⟨{ o with inCur := p, gcount := 1 }, ?_, ?_⟩
      · have := R.move (p := p) s.state s.mask 1 (by simp [hm])
          (by intro sv' h'; rw [hs] at h'; cases h'; exact hA2)
        simpa [R.state, R.exc] using this
      · simp only [M.bind_apply]
        rw [hsb]
        simp only [toInt, he hg c hc, Bool.false_eq_true, if_false, M.bind_apply]
        rw [setGcount_ok (o := { o with gcount := 0, inCur := p }) (by simp)]
        simp only []
        rw [putArr_some (by exact ha) hi]
        simp only [M.pure_apply]
        rw [gcount_ok (o := { o with gcount := 1, inCur := p }) (by simp)]
        simp only [Nat.one_ne_zero, if_false]
        rw [if_neg (by simp)]
        simp [fin, hst, meets_none, upd_upd, blit_one hi]
    | none =>
      refine ⟨{ o with gcount := 0, state := ⟨false, true, true⟩ }, ?_, ?_⟩
      · have := R.bits ⟨false, true, true⟩ s.mask 0 (by simp [hm])
        simpa [R.exc] using this
      · simp only [M.bind_apply]
        rw [sbumpc_none h1 hA hc]
        simp only [M.pure_apply]
        rw [gcount_ok (o := { o with gcount := 0 }) (by simp)]
        simp only [if_true]
        rw [if_pos (by simp [Bits.or, Bits.none, Bits.failbit])]
        rw [setstate_ok (o := { o with gcount := 0 }) (by simp) _ (Or.inl hrd)]
        have e : (o.state.or (Bits.eofbit.or Bits.failbit)) = ⟨false, true, true⟩ := by
          simp [hst, Bits.or, Bits.failbit, Bits.none, Bits.eofbit]
        simp only [e, upd_upd, Option.toList_none, blit_nil]
        rw [upd_eq_self ha]

theorem read_ok (W : Str.SW t.toTraits st.strs σ) (h : st.ios x = some o) (R : Rep σ x o s)
    {a i n : Nat} {l : List V} (ha : st.arr a = some l) (hi : i + n ≤ l.length) :
    ∃ o', Rep σ x o' (readS s n).1 ∧ read t x a i n st = fin o' () { st with
      ios := upd st.ios x (some o'), arr := upd st.arr a (some (blit l i (readS s n).2)) } := by
  simp only [read, M.bind_apply]
  rw [setGcount_ok h]
  simp only []
  have h1 : ({ st with ios := upd st.ios x (some { o with gcount := 0 }) } : SSt V).ios x =
      some { o with gcount := 0 } := by simp
  cases hg : isGood s.state with
  | false =>
    have hgo : isGood o.state = false := by rw [R.state]; exact hg
    refine ⟨{ o with gcount := 0, state := o.state.or Bits.failbit }, ?_, ?_⟩
    · simp only [readS, hg, Bool.false_eq_true, if_false, refused]
      have := R.bits (o.state.or Bits.failbit) o.exc 0 (by
        intro hn
        have hk := R.kind
        simp only [Kind, hn] at hk
        simp [Bits.or, hk.2.1])
      simpa [Bits.or, Bits.failbit, R.state, R.exc] using this
    · have hb : ({ o with gcount := 0 } : Obj).rdbuf = true ∨ ({ o with gcount := 0 } : Obj).state.bad = true :=
        R.bad
      rw [sentry_bad h1 hgo hb]
      simp only [readS, hg, Bool.false_eq_true, if_false, blit_nil, fin]
      rw [upd_eq_self ha]
      cases hm : meets o.exc (o.state.or Bits.failbit) with
      | true => simp [upd_upd]
      | false => simp [upd_upd]
  | true =>
    obtain ⟨m, sv, hm, hrd, hmo, hmm, hs, hA⟩ := R.good_buf hg
    have hgo : isGood o.state = true := by rw [R.state]; exact hg
    have hst : o.state = Bits.none := (isGood_iff _).1 hgo
    obtain ⟨_, hmem, _⟩ := Str.get_rep W hs
    rw [sentry_good h1 hgo]
    simp only [readS, hg, if_true]
    obtain ⟨p, hsg, hA2⟩ := sgetn_ok (t := t) h1 hA hmem (a := a) (i := i) (n := n) (by exact ha) hi rfl
    generalize hw : (s.content.drop s.pos).take n = w at hsg hA2 ⊢
    have hwn : w.length ≤ n := by rw [← hw]; simp; omega
    refine ⟨{ o with inCur := p, gcount := w.length, state := (if w.length < n then (⟨false, true, true⟩ : Bits) else s.state) }, ?_, ?_⟩
    · have := R.move (p := p) (if w.length < n then ⟨false, true, true⟩ else s.state) s.mask w.length
        (by simp [hm]) (by intro sv' h'; rw [hs] at h'; cases h'; exact hA2)
      simpa [R.exc] using this
    · simp only [M.bind_apply]
      rw [hsg]
      simp only []
      rw [setGcount_ok (o := { o with gcount := 0, inCur := p }) (by simp)]
      simp only [upd_upd]
      by_cases hwn2 : w.length < n
      · rw [if_pos (by omega)]
        rw [setstate_ok (o := { o with gcount := w.length, inCur := p }) (by simp) _ (Or.inl hrd)]
        have e : (o.state.or (Bits.eofbit.or Bits.failbit)) = ⟨false, true, true⟩ := by
          simp [hst, Bits.or, Bits.failbit, Bits.none, Bits.eofbit]
        simp only [e, upd_upd, if_pos hwn2]
      · rw [if_neg (by omega)]
        simp [hwn2, fin, ← R.state, hst, meets_none]

theorem unget_ok (W : Str.SW t.toTraits st.strs σ) (h : st.ios x = some o) (R : Rep σ x o s)
    (he : meets s.mask ⟨s.state.bad, false, s.state.fail⟩ = false → isGood ⟨s.state.bad, false, s.state.fail⟩ = true →
      0 < s.pos → ∀ c, s.content[s.pos - 1]? = some c → t.eofLike c = false) :
    ∃ o', Rep σ x o' (ungetS s) ∧ unget t x st = fin o' () { st with ios := upd st.ios x (some o') } := by
  have e0 : (if o.rdbuf then o.state.minus Bits.eofbit else (o.state.minus Bits.eofbit).or Bits.badbit) =
      ⟨s.state.bad, false, s.state.fail⟩ := by
    rw [← R.state]
    split
    · simp [Bits.minus, Bits.eofbit]
    · rcases R.bad with hb | hb
      · contradiction
      · simp [Bits.minus, Bits.eofbit, Bits.or, Bits.badbit, hb]
  have hnb : s.opened = none → s.state.bad = true := by
    intro hn
    have hk := R.kind
    simp only [Kind, hn, R.state] at hk
    exact hk.2.1
  have R1 := R.bits ⟨s.state.bad, false, s.state.fail⟩ s.mask 0 hnb
  generalize hb1 : (⟨s.state.bad, false, s.state.fail⟩ : Bits) = b1 at e0 R1
  simp only [unget, M.bind_apply]
  rw [setGcount_ok h]
  simp only []
  rw [rdstate_ok (o := { o with gcount := 0 }) (by simp)]
  simp only []
  rw [clear_ok (o := { o with gcount := 0 }) (by simp)]
  simp only [e0, upd_upd]
  simp only [ungetS, hb1, fin]
  have hexc := R.exc
  obtain ⟨o', ho'⟩ : ∃ o', o' = { o with state := b1, exc := s.mask, gcount := 0 } := ⟨_, rfl⟩
  have ho2 : { o with state := b1, gcount := 0 } = o' := by rw [ho', ← hexc]
  rw [← ho'] at R1
  rw [hexc]
  have h2 : ({ st with ios := upd st.ios x (some o') } : SSt V).ios x = some o' := by simp
  have hx2 : o'.exc = s.mask := by rw [ho']
  have hs2 : o'.state = b1 := by rw [ho']
  have ho3 : o' = { o with state := b1, exc := s.mask, gcount := 0 } := ho'
  cases hm : meets s.mask b1 with
  | true =>
    simp only [if_true]
    exact ⟨o', R1, by rw [← ho']; simp [hx2, hs2, hm]⟩
  | false =>
    simp only [Bool.false_eq_true, if_false]
    rw [← ho']
    cases hg : isGood b1 with
    | false =>
      simp only [Bool.false_eq_true, if_false]
      rw [sentry_bad h2 (by rw [hs2]; exact hg) R1.bad]
      refine ⟨{ o' with state := o'.state.or Bits.failbit }, ?_, ?_⟩
      · have := R.bits ⟨s.state.bad, false, true⟩ s.mask 0 hnb
        have e : o'.state.or Bits.failbit = ⟨s.state.bad, false, true⟩ := by
          rw [hs2, ← hb1]; simp [Bits.or, Bits.failbit]
        rw [e, ho']; exact this
      · simp only [fin]
        cases meets o'.exc (o'.state.or Bits.failbit) <;> simp [upd_upd]
    | true =>
      simp only [if_true]
      obtain ⟨m, sv, hm', hrd, hmo, hmm, hs, hA⟩ := R1.good_buf hg
      obtain ⟨_, hmem, _⟩ := Str.get_rep W hs
      have hgn := (isGood_iff _).1 hg
      rw [sentry_good h2 (by rw [hs2]; exact hg)]
      simp only [if_true, M.bind_apply]
      rw [getIos_some h2]
      simp only [hrd, if_true, M.bind_apply]
      simp only [] at hA
      by_cases hp : 0 < s.pos
      · obtain ⟨p, c, hc, hsu, hA2⟩ := sungetc_pos (t := t) h2 hA hmem hp
        rw [hsu]
        refine ⟨{ o' with inCur := p }, ?_, ?_⟩
        · rw [if_pos hp]
          have := R1.move (p := p) (pos := s.pos - 1) b1 s.mask 0 (by intro hn; rw [hm'] at hn; cases hn)
            (by intro sv' h'; rw [hs] at h'; cases h'; exact hA2)
          rw [ho'] at this ⊢
          exact this
        · simp [toInt, he (by rw [hb1]; exact hm) (by rw [hb1]; exact hg) hp c hc, hm, upd_upd, hx2, hs2]
      · have hp0 : s.pos = 0 := by omega
        rw [hp0] at hA
        rw [sungetc_zero h2 hA]
        simp only [M.pure_apply, decide_true, if_true]
        rw [if_neg hp]
        rw [setstate_ok h2 _ (Or.inl hrd)]
        have eb : o'.state.or Bits.badbit = ⟨true, false, false⟩ := by
          rw [hs2, hgn]; rfl
        refine ⟨{ o' with state := ⟨true, false, false⟩ }, ?_, ?_⟩
        · have := R.bits ⟨true, false, false⟩ s.mask 0 (by simp)
          rw [ho']; exact this
        · simp only [eb, fin, upd_upd]
end

end Cest.Stream
