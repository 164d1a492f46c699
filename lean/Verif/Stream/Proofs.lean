import Verif.Stream.Run
import Verif.Str.More
/-
Effect of every stream member function on the machine (helper lemmas).
-/
namespace Cest.Stream
open Cest
set_option linter.unusedSectionVars false
variable {V : Type} [DecidableEq V] {t : Traits V}

/-! ### Primitives -/

section prim
variable {st : SSt V} {x a i : Nat} {o o' : Obj} {l : List V} {α : Type}

theorem lift_ok {m : Str.SM V α} {r : α} {s' : Str.SSt V} (h : m st.strs = .ok r s') :
    lift m st = .ok r { st with strs := s' } := by simp [lift, h]
theorem lift_same {m : Str.SM V α} {r : α} (h : m st.strs = .ok r st.strs) :
    lift m st = .ok r st := by rw [lift_ok h]
theorem getIos_some (h : st.ios x = some o) : getIos x st = .ok o st := by simp [getIos, h]
theorem setIos_some (h : st.ios x = some o) :
    setIos x o' st = .ok () { st with ios := upd st.ios x (some o') } := by simp [setIos, h]
theorem newIos_none (h : st.ios x = none) :
    newIos x o' st = .ok () { st with ios := upd st.ios x (some o') } := by simp [newIos, h]
theorem delIos_some (h : st.ios x = some o) :
    delIos x st = .ok () { st with ios := upd st.ios x none } := by simp [delIos, h]
theorem getArr_some (h : st.arr a = some l) : getArr a st = .ok l st := by simp [getArr, h]
theorem putArr_some {c : V} (h : st.arr a = some l) (hi : i < l.length) :
    putArr a i c st = .ok () { st with arr := upd st.arr a (some (l.set i c)) } := by
  simp [putArr, h, hi]
end prim

theorem ios_back (st : SSt V) {x : Nat} {o : Obj} (h : st.ios x = some o) :
    { st with ios := upd st.ios x (some o) } = st := by
  have : upd st.ios x (some o) = st.ios := by rw [← h]; exact upd_self _ _
  rw [this]

theorem upd2 {β : Type} (f : Nat → β) (x : Nat) (u v : β) : upd (upd f x u) x v = upd f x v := upd_upd _ _ _ _

/-! ### Bits -/

theorem and_ne (a b : Bits) : (a.and b ≠ Bits.none) ↔ meets a b = true := by
  obtain ⟨a1, a2, a3⟩ := a
  obtain ⟨b1, b2, b3⟩ := b
  cases a1 <;> cases a2 <;> cases a3 <;> cases b1 <;> cases b2 <;> cases b3 <;> decide

theorem eq_none (a : Bits) : decide (a = Bits.none) = isGood a := by
  obtain ⟨a1, a2, a3⟩ := a
  cases a1 <;> cases a2 <;> cases a3 <;> decide

theorem isGood_iff (a : Bits) : isGood a = true ↔ a = Bits.none := by
  rw [← eq_none]; simp

theorem meets_none (a : Bits) : meets a Bits.none = false := by
  simp [meets, Bits.none]

/-- The end of an operation: normal, or an exception if the mask meets the state. -/
def fin {α : Type} (o : Obj) (r : α) (st : SSt V) : Res (SSt V) α :=
  if meets o.exc o.state then .throw .iosFailure st else .ok r st

section ios
variable {st : SSt V} {x : Nat} {o : Obj}

theorem rdstate_ok (h : st.ios x = some o) : rdstate x st = .ok o.state st := by
  simp [rdstate, getIos_some h]
theorem gcount_ok (h : st.ios x = some o) : gcount x st = .ok o.gcount st := by
  simp [gcount, getIos_some h]
theorem good_ok (h : st.ios x = some o) : good x st = .ok (isGood o.state) st := by
  simp [good, rdstate_ok h, eq_none]
theorem eof_ok (h : st.ios x = some o) : eof x st = .ok o.state.eof st := by
  simp only [eof, M.bind_apply, rdstate_ok h, M.pure_apply]
  congr 1
  obtain ⟨a1, a2, a3⟩ := o.state
  cases a1 <;> cases a2 <;> cases a3 <;> decide
theorem fail_ok (h : st.ios x = some o) : fail x st = .ok (o.state.bad || o.state.fail) st := by
  simp only [fail, M.bind_apply, rdstate_ok h, M.pure_apply]
  congr 1
  obtain ⟨a1, a2, a3⟩ := o.state
  cases a1 <;> cases a2 <;> cases a3 <;> decide
theorem mask_ok (h : st.ios x = some o) : mask x st = .ok o.exc st := by
  simp [mask, getIos_some h]

theorem setGcount_ok (h : st.ios x = some o) (n : Nat) :
    setGcount x n st = .ok () { st with ios := upd st.ios x (some { o with gcount := n }) } := by
  simp only [setGcount, M.bind_apply, getIos_some h]
  rw [setIos_some h]

theorem clear_ok (h : st.ios x = some o) (b : Bits) :
    clear x b st = fin { o with state := if o.rdbuf then b else b.or Bits.badbit } ()
      { st with ios := upd st.ios x (some { o with state := if o.rdbuf then b else b.or Bits.badbit }) } := by
  simp only [clear, M.bind_apply, getIos_some h]
  generalize (if o.rdbuf then b else b.or Bits.badbit) = b'
  rw [setIos_some h]
  simp only []
  rw [getIos_some (o := { o with state := b' }) (by simp)]
  simp only [and_ne, fin]
  cases meets o.exc b' <;> rfl

theorem setstate_ok (h : st.ios x = some o) (b : Bits) (hb : o.rdbuf = true ∨ o.state.bad = true) :
    setstate x b st = fin { o with state := o.state.or b } ()
      { st with ios := upd st.ios x (some { o with state := o.state.or b }) } := by
  have e : (if o.rdbuf then o.state.or b else (o.state.or b).or Bits.badbit) = o.state.or b := by
    split
    · rfl
    · rcases hb with hb | hb
      · contradiction
      · simp [Bits.or, Bits.badbit, hb]
  simp only [setstate, M.bind_apply, rdstate_ok h]
  rw [clear_ok h, e]

theorem sentry_good (h : st.ios x = some o) (hg : isGood o.state = true) : sentry x st = .ok true st := by
  simp [sentry, good_ok h, hg]

theorem sentry_bad (h : st.ios x = some o) (hg : isGood o.state = false)
    (hb : o.rdbuf = true ∨ o.state.bad = true) :
    sentry x st = fin { o with state := o.state.or Bits.failbit } false
      { st with ios := upd st.ios x (some { o with state := o.state.or Bits.failbit }) } := by
  simp only [sentry, M.bind_apply, good_ok h, hg]
  rw [if_neg (by simp)]
  simp only [M.bind_apply]
  rw [setstate_ok h Bits.failbit hb]
  simp only [fin]
  cases meets o.exc (o.state.or Bits.failbit) <;> rfl
end ios

/-! ### The get area -/

/-- The get area `[b, e)` with read position `c` lies in the storage of string `sv`, holds `content`, and
`pos` characters of it have been read. -/
def Area (sv : Str.SV V) (b c e : CP) (content : List V) (pos : Nat) : Prop :=
  (b = none ∧ c = none ∧ e = none ∧ content = [] ∧ pos = 0) ∨
  ∃ off len, off + len ≤ sv.buf.length ∧ pos ≤ len ∧ b = some (sv.blk, off) ∧
    c = some (sv.blk, off + pos) ∧ e = some (sv.blk, off + len) ∧ content = (sv.buf.drop off).take len

theorem Area.pos_le {sv : Str.SV V} {b c e : CP} {l : List V} {p : Nat} (h : Area sv b c e l p) :
    p ≤ l.length := by
  rcases h with ⟨_, _, _, h, h'⟩ | ⟨off, len, h1, h2, h3, h4, h5, h6⟩
  · omega
  · subst h6; simp; omega

section buf
variable {st : SSt V} {x : Nat} {o : Obj} {sv : Str.SV V} {content : List V} {pos : Nat}

theorem padd_ok {b k : Nat} {blk : Blk V} {d : Int} (hm : st.strs.mem b = some blk)
    (h0 : 0 ≤ (k : Int) + d) (h1 : (k : Int) + d ≤ blk.len) :
    padd (some (b, k)) d st = .ok (some (b, ((k : Int) + d).toNat)) st := by
  simp [padd, hm, h0, h1]

theorem padd_nat {b k : Nat} {blk : Blk V} (d : Nat) (hm : st.strs.mem b = some blk)
    (h1 : k + d ≤ blk.len) :
    padd (some (b, k)) (d : Int) st = .ok (some (b, k + d)) st := by
  rw [padd_ok hm (by omega) (by omega)]
  congr 3

theorem gbump_ok (h : st.ios x = some o) {n : Int} {p : CP} (hp : padd o.inCur n st = .ok p st) :
    gbump x n st = .ok () { st with ios := upd st.ios x (some { o with inCur := p }) } := by
  simp only [gbump, M.bind_apply, getIos_some h, hp]
  rw [setIos_some h]

theorem pread_ok {b k : Nat} {c : V} (hm : st.strs.mem b = some (arr sv.buf.length sv.buf))
    (hc : sv.buf[k]? = some c) : pread (some (b, k)) st = .ok c st := by
  simp only [pread]
  exact lift_same (load_arr hm (Nat.le_refl _) hc)

theorem uflow_ok (x : Nat) : uflow t x st = .ok none st := by
  simp [uflow, underflow]

theorem sbumpc_some (h : st.ios x = some o) (hA : Area sv o.inBeg o.inCur o.inEnd content pos)
    (hm : st.strs.mem sv.blk = some (arr sv.buf.length sv.buf)) {c : V} (hc : content[pos]? = some c) :
    ∃ p, sbumpc t x st = .ok (toInt t c) { st with ios := upd st.ios x (some { o with inCur := p }) } ∧
      Area sv o.inBeg p o.inEnd content (pos + 1) := by
  rcases hA with ⟨h1, h2, h3, h6, h7⟩ | ⟨off, len, h1, h2, h3, h4, h5, h6⟩
  · simp [h6] at hc
  · subst h6
    obtain ⟨hl, _⟩ := List.getElem?_eq_some_iff.1 hc
    simp at hl
    rw [List.getElem?_take_of_lt (by omega), List.getElem?_drop] at hc
    refine ⟨some (sv.blk, off + pos + 1), ?_, .inr ⟨off, len, h1, by omega, h3, rfl, h5, rfl⟩⟩
    simp only [sbumpc, M.bind_apply, getIos_some h, h4, h5, plt, if_true, M.pure_apply]
    rw [if_pos (by simp; omega)]
    simp only [M.bind_apply]
    rw [pread_ok hm hc]
    simp only []
    have hp : padd o.inCur 1 st = .ok (some (sv.blk, off + pos + 1)) st := by
      rw [h4]; exact padd_nat 1 hm (by simp; omega)
    rw [gbump_ok h hp]
    simp [h5]

theorem sbumpc_none (h : st.ios x = some o) (hA : Area sv o.inBeg o.inCur o.inEnd content pos)
    (hc : content[pos]? = none) : sbumpc t x st = .ok none st := by
  rcases hA with ⟨h1, h2, h3, h6, h7⟩ | ⟨off, len, h1, h2, h3, h4, h5, h6⟩
  · simp only [sbumpc, M.bind_apply, getIos_some h, h2, h3, plt, M.pure_apply]
    rw [if_neg (by simp), uflow_ok]
  · subst h6
    simp at hc
    simp only [sbumpc, M.bind_apply, getIos_some h, h4, h5, plt, if_true, M.pure_apply]
    rw [if_neg (by simp; omega), uflow_ok]

theorem sgetc_ok (h : st.ios x = some o) (hA : Area sv o.inBeg o.inCur o.inEnd content pos)
    (hm : st.strs.mem sv.blk = some (arr sv.buf.length sv.buf)) :
    ∃ r, sgetc t x st = .ok r st := by
  rcases hA with ⟨h1, h2, h3, h6, h7⟩ | ⟨off, len, h1, h2, h3, h4, h5, h6⟩
  · refine ⟨none, ?_⟩
    simp only [sgetc, M.bind_apply, getIos_some h, h2, h3, plt, M.pure_apply]
    rw [if_neg (by simp)]
    rfl
  · simp only [sgetc, M.bind_apply, getIos_some h, h4, h5, plt, if_true, M.pure_apply]
    by_cases hl : pos < len
    · refine ⟨toInt t (sv.buf[off + pos]'(by omega)), ?_⟩
      rw [if_pos (by simp; omega)]
      simp only [M.bind_apply]
      rw [pread_ok hm (List.getElem?_eq_getElem (by omega))]
      rfl
    · exact ⟨none, by rw [if_neg (by simp; omega)]; rfl⟩

theorem sungetc_pos (h : st.ios x = some o) (hA : Area sv o.inBeg o.inCur o.inEnd content pos)
    (hm : st.strs.mem sv.blk = some (arr sv.buf.length sv.buf)) (hp : 0 < pos) :
    ∃ p c, content[pos - 1]? = some c ∧
      sungetc t x st = .ok (toInt t c) { st with ios := upd st.ios x (some { o with inCur := p }) } ∧
      Area sv o.inBeg p o.inEnd content (pos - 1) := by
  rcases hA with ⟨h1, h2, h3, h6, h7⟩ | ⟨off, len, h1, h2, h3, h4, h5, h6⟩
  · omega
  · subst h6
    have hb : off + (pos - 1) < sv.buf.length := by omega
    refine ⟨some (sv.blk, off + (pos - 1)), sv.buf[off + (pos - 1)], ?_, ?_,
      .inr ⟨off, len, h1, by omega, h3, rfl, h5, rfl⟩⟩
    · rw [List.getElem?_take_of_lt (by omega), List.getElem?_drop, List.getElem?_eq_getElem hb]
    · simp only [sungetc, M.bind_apply, getIos_some h, h3, h4, plt, if_true, M.pure_apply]
      rw [if_pos (by simp; omega)]
      have hp : padd o.inCur (-1) st = .ok (some (sv.blk, off + (pos - 1))) st := by
        rw [h4, padd_ok hm (by omega) (by simp; omega)]
        congr 3
        omega
      simp only [M.bind_apply]
      rw [gbump_ok h hp]
      simp only []
      rw [getIos_some (o := { o with inCur := some (sv.blk, off + (pos - 1)) }) (by simp [h3, h5])]
      simp only []
      rw [pread_ok (sv := sv) (by exact hm) (List.getElem?_eq_getElem hb)]
      simp [h3]

theorem sungetc_zero (h : st.ios x = some o) (hA : Area sv o.inBeg o.inCur o.inEnd content 0) :
    sungetc t x st = .ok none st := by
  rcases hA with ⟨h1, h2, h3, h6, h7⟩ | ⟨off, len, h1, h2, h3, h4, h5, h6⟩
  · simp only [sungetc, M.bind_apply, getIos_some h, h1, h2, plt, M.pure_apply]
    rw [if_neg (by simp)]
    rfl
  · simp only [sungetc, M.bind_apply, getIos_some h, h3, h4, plt, if_true, M.pure_apply]
    rw [if_neg (by simp)]
    rfl

end buf

/-! ### Block transfers -/

omit [DecidableEq V] in
theorem blit_nil (l : List V) (i : Nat) : blit l i [] = l := by simp [blit]

omit [DecidableEq V] in
theorem blit_length {l w : List V} {i : Nat} (h : i + w.length ≤ l.length) :
    (blit l i w).length = l.length := by
  simp [blit]; omega

omit [DecidableEq V] in
theorem blit_step {l w : List V} {i k : Nat} {c : V} (h : i + k < l.length) (hc : w[k]? = some c) :
    (blit l i (w.take k)).set (i + k) c = blit l i (w.take (k + 1)) := by
  obtain ⟨hk, hck⟩ := List.getElem?_eq_some_iff.1 hc
  have e1 : (w.take k).length = k := by simp; omega
  have e2 : w.take (k + 1) = w.take k ++ [c] := by rw [List.take_add_one, hc]; rfl
  have e3 : (l.take i ++ w.take k).length = i + k := by simp; omega
  rw [e2]
  simp only [blit, List.length_append, e1, List.length_cons, List.length_nil]
  rw [List.set_append_right _ _ (by omega), e3]
  rw [List.drop_eq_getElem_cons h]
  simp [Nat.add_assoc]

omit [DecidableEq V] in
theorem blit_one {l : List V} {i : Nat} {c : V} (h : i < l.length) : l.set i c = blit l i [c] := by
  have := blit_step (w := [c]) (i := i) (k := 0) (l := l) (c := c) (by omega) rfl
  simpa [blit_nil] using this

section xs
variable {st : SSt V} {x : Nat} {o : Obj} {sv : Str.SV V} {content : List V} {pos : Nat}

theorem copyOut_ok {b k a i : Nat} {w l : List V}
    (hm : st.strs.mem b = some (arr sv.buf.length sv.buf)) (hw : ∀ j c, w[j]? = some c → sv.buf[k + j]? = some c)
    (ha : st.arr a = some l) (hi : i + w.length ≤ l.length) :
    copyOut a i (some (b, k)) w.length st = .ok () { st with arr := upd st.arr a (some (blit l i w)) } := by
  have := forN_runs (f := fun j => (do
    let q ← padd (some (b, k)) j
    let c ← pread q
    putArr a (i + j) c : SM V Unit)) (i := 0) (n := w.length) (s := st)
    (fun j s => s = { st with arr := upd st.arr a (some (blit l i (w.take j))) }) (by
      simp only [List.take_zero, blit_nil]
      rw [upd_eq_self ha]) (by
      intro j s _ hj hs
      subst hs
      have hj' : j < w.length := by omega
      have hc := List.getElem?_eq_getElem hj'
      have hb := hw j _ hc
      obtain ⟨hbl, _⟩ := List.getElem?_eq_some_iff.1 hb
      refine ⟨(), _, ?_, rfl⟩
      simp only [M.bind_apply]
      rw [padd_nat (blk := arr sv.buf.length sv.buf) j (by exact hm) (by simp; omega)]
      simp only []
      rw [pread_ok (sv := sv) (by exact hm) hb]
      simp only []
      have hbl : (blit l i (w.take j)).length = l.length := blit_length (by simp; omega)
      rw [putArr_some (l := blit l i (w.take j)) (by simp) (by omega)]
      rw [blit_step (by omega) hc]
      simp [upd_upd])
  obtain ⟨u, s', h1, h2⟩ := this
  simp only [Nat.zero_add, List.take_length] at h2
  subst h2
  exact h1

theorem xsgetn_end {a i n fuel : Nat} : xsgetn t x a i n (fuel + 1) n st = .ok n st := by
  simp [xsgetn]

theorem sgetn_ok (h : st.ios x = some o) (hA : Area sv o.inBeg o.inCur o.inEnd content pos)
    (hm : st.strs.mem sv.blk = some (arr sv.buf.length sv.buf)) {a i n : Nat} {l : List V}
    (ha : st.arr a = some l) (hi : i + n ≤ l.length) {w : List V}
    (hw : w = (content.drop pos).take n) :
    ∃ p, sgetn t x a i n st = .ok w.length { st with
        ios := upd st.ios x (some { o with inCur := p })
        arr := upd st.arr a (some (blit l i w)) } ∧
      Area sv o.inBeg p o.inEnd content (pos + w.length) := by
  have hwl : w.length = min n (content.length - pos) := by rw [hw]; simp
  have same : w = [] → ({ st with
        ios := upd st.ios x (some { o with inCur := o.inCur })
        arr := upd st.arr a (some (blit l i w)) } : SSt V) = st := by
    intro he
    rw [he, blit_nil, upd_eq_self ha, upd_eq_self h]
  have idle : w = [] → Area sv o.inBeg o.inCur o.inEnd content (pos + w.length) := by
    intro he; rw [he]; exact hA
  by_cases hn : n = 0
  · have he : w = [] := by rw [hw, hn]; simp
    refine ⟨o.inCur, ?_, idle he⟩
    rw [same he, he, hn]
    simp [sgetn, xsgetn]
  have hpos := hA.pos_le
  by_cases hc : content.length - pos = 0
  · have he : w = [] := by apply List.eq_nil_of_length_eq_zero; omega
    refine ⟨o.inCur, ?_, idle he⟩
    rw [same he, he]
    have hd : pdiff o.inEnd o.inCur st = .ok 0 st := by
      rcases hA with ⟨h1, h2, h3, h6, h7⟩ | ⟨off, len, h1, h2, h3, h4, h5, h6⟩
      · simp [pdiff, h2, h3]
      · subst h6
        simp at hc
        simp [pdiff, h4, h5]
        omega
    simp only [sgetn, xsgetn]
    rw [if_pos (by omega)]
    simp only [M.bind_apply, getIos_some h, hd]
    rw [if_neg (by simp)]
    simp only [M.pure_apply]
    rw [if_pos (by omega)]
    simp only [M.bind_apply, uflow_ok]
    rfl
  · rcases hA with ⟨h1, h2, h3, h6, h7⟩ | ⟨off, len, h1, h2, h3, h4, h5, h6⟩
    · simp [h6] at hc
    · subst h6
      simp at hc hwl hpos
      have hwl' : w.length = min n (len - pos) := by omega
      refine ⟨some (sv.blk, off + pos + w.length), ?_, ?_⟩
      · have hd : pdiff o.inEnd o.inCur st = .ok ((len - pos : Nat) : Int) st := by
          simp [pdiff, h4, h5]
          omega
        have hmin : min ((len - pos : Nat) : Int) ((n - 0 : Nat) : Int) = (w.length : Int) := by omega
        have hcopy := copyOut_ok (sv := sv) (k := off + pos) (a := a) (i := i + 0) (w := w) hm (by
          intro j c hj
          rw [hw] at hj
          obtain ⟨hl, _⟩ := List.getElem?_eq_some_iff.1 hj
          simp at hl
          rw [List.getElem?_take_of_lt (by omega), List.getElem?_drop, List.getElem?_take_of_lt (by omega),
            List.getElem?_drop] at hj
          rw [← hj]; congr 1; omega) ha (by omega)
        simp only [sgetn]
        rw [show n + 2 = (n + 1) + 1 from rfl]
        simp only [xsgetn]
        rw [if_pos (by omega)]
        simp only [M.bind_apply, getIos_some h, hd]
        rw [if_pos (by omega), hmin, if_neg (by omega)]
        simp only [M.bind_apply, Int.toNat_natCast, h4]
        rw [hcopy]
        simp only []
        have hp : padd o.inCur (w.length : Int)
            ({ st with arr := upd st.arr a (some (blit l (i + 0) w)) } : SSt V) =
            .ok (some (sv.blk, off + pos + w.length))
              { st with arr := upd st.arr a (some (blit l (i + 0) w)) } := by
          rw [h4]; exact padd_nat w.length hm (by simp; omega)
        rw [gbump_ok (by exact h) hp]
        simp only [M.pure_apply]
        by_cases hs : 0 + w.length < n
        · rw [if_pos hs]
          simp only [M.bind_apply, uflow_ok]
          simp
        · rw [if_neg hs]
          have : 0 + w.length = n := by omega
          rw [this, if_neg (by omega)]
          have : w.length = n := by omega
          simp [this]
      · exact .inr ⟨off, len, h1, by omega, h3, by rw [Nat.add_assoc], h5, rfl⟩
end xs

end Cest.Stream
