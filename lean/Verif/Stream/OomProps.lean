import Verif.Stream.OomHist
import Verif.Stream.WideProps
/-
C147: streams in programs that run out of storage.

`specRunT` (Verif/Stream/OomSpec.lean) says what a program does whose allocations fail at arbitrary moments: a
construction that fails leaves nothing behind, `fmemopen` needs three allocations, `str(s)` needs one exactly if the
buffer is too small.  Outside are the constructions without a string, which terminate the program (C114), and `str(s)`
when its allocation fails, after which the stream cannot even be destroyed (C81); both are shown below.
-/
namespace Cest.Stream.Props
open Cest Cest.Stream
set_option linter.unusedSectionVars false
variable {V : Type} [DecidableEq V] {t : Traits V}

/-- C147.  Programs on any number of streams, strings and arrays, with allocations that fail at arbitrary moments: no
undefined behaviour, and the observations specified.  In the end every allocated block is the buffer of a living string
or stream, for streams with the capacity specified. -/
theorem C147_programs {ops : List (Option Nat × Op V)} {e : Env V} {c : Nat → Nat} {outs : List (Option (Out V))}
    (h : specRunT t.nul t.eofLike Env.none (fun _ => 0) ops = some (e, c, outs)) :
    ∃ st, runT t ops SSt.init = .ok outs st ∧
      (∀ a b, st.strs.mem a = some b →
        (∃ y l cap, e.str y = some l ∧ b.len = cap + 1 ∧ st.strs.objs (strId y) = some ⟨l.length, cap, some a⟩) ∨
        (∃ x s n, e.strm x = some s ∧ s.opened ≠ none ∧ b.len = c x + 1 ∧
          st.strs.objs (bufId x) = some ⟨n, c x, some a⟩)) ∧
      ∀ x, st.ios x = none ↔ e.strm x = none := by
  obtain ⟨st, h1, ⟨σ, I⟩, hc⟩ := runT_refines TInv.init h
  refine ⟨st, h1, fun a b hb => ?_, fun x => ⟨fun hx => ?_, fun hx => (I.dom x hx).1⟩⟩
  · obtain ⟨z, hz⟩ := I.world.own a (by rw [hb]; simp)
    cases hs : σ z with
    | none => simp [hs] at hz
    | some s =>
      rw [hs] at hz
      have : a = s.blk := by simpa [Str.iface] using hz
      subst this
      obtain ⟨g1, g2, g3⟩ := Str.get_rep I.world hs
      rw [hb] at g2
      injection g2 with g2
      have hl : b.len = s.buf.length := by rw [g2]; rfl
      have h2 := g3.two
      have hv := Str.SV.val_length g3
      obtain ⟨w, rfl | rfl⟩ : ∃ w, z = 2 * w ∨ z = 2 * w + 1 := ⟨z / 2, by omega⟩
      · cases w with
        | zero => exact absurd I.tmp (by simp only [tmpId]; rw [hs]; simp)
        | succ x =>
          refine .inr ?_
          have hb' : bufId x = 2 * (x + 1) := by simp only [bufId]; omega
          rw [← hb'] at hs g1
          have hcx := hc x _ g1
          simp only [Str.SV.obj] at g1 hcx
          cases hx : e.strm x with
          | none => rw [(I.dom x hx).2] at hs; cases hs
          | some s0 =>
            obtain ⟨o, _, R⟩ := I.rep x s0 hx
            refine ⟨x, s0, s.n, hx, fun hn => ?_, by omega, by rw [g1, hcx]⟩
            have hk := R.kind
            simp only [Kind, hn] at hk
            rw [hk.2.2] at hs; cases hs
      · refine .inl ⟨w, s.val, s.buf.length - 1, ?_, by omega, ?_⟩
        · rw [← I.str w]; simp only [strId]; rw [hs]; rfl
        · rw [hv]; exact g1
  · cases hs : e.strm x with
    | none => rfl
    | some s => obtain ⟨o, h2, _⟩ := I.rep x s hs; rw [hx] at h2; cases h2

/-- C147.  When all strings and streams are gone, nothing is allocated. -/
theorem C147_no_leak {ops : List (Option Nat × Op V)} {e : Env V} {c : Nat → Nat} {outs : List (Option (Out V))}
    (h : specRunT t.nul t.eofLike Env.none (fun _ => 0) ops = some (e, c, outs))
    (h1 : ∀ y, e.str y = none) (h2 : ∀ x, e.strm x = none) :
    ∃ st, runT t ops SSt.init = .ok outs st ∧ (∀ a, st.strs.mem a = none) ∧ ∀ x, st.ios x = none := by
  obtain ⟨st, g1, g2, g3⟩ := C147_programs h
  refine ⟨st, g1, fun a => ?_, fun x => (g3 x).2 (h2 x)⟩
  cases hb : st.strs.mem a with
  | none => rfl
  | some b =>
    rcases g2 a b hb with ⟨y, l, _, hy, _⟩ | ⟨x, s, _, hx, _⟩
    · rw [h1] at hy; cases hy
    · rw [h2] at hx; cases hx

theorem runT_then {q : List (Option Nat × Op V)} {u : UB} : ∀ {p : List (Option Nat × Op V)} {st st' : SSt V}
    {outs : List (Option (Out V))}, runT t p st = .ok outs st' → runT t q st' = .ub u →
    runT t (p ++ q) st = .ub u := by
  intro p
  induction p with
  | nil => intro st st' outs h hq; cases h; exact hq
  | cons op p ih =>
    obtain ⟨k, op⟩ := op
    intro st st' outs h hq
    simp only [runT, List.cons_append] at h ⊢
    split at h
    · rename_i o s1 _
      obtain ⟨os, s2, g1, g2⟩ := Str.bind_inv h
      injection g2 with _ g2
      subst g2
      simp only [M.bind_apply, ih g1 hq]
    · rename_i o s1 _
      obtain ⟨os, s2, g1, g2⟩ := Str.bind_inv h
      injection g2 with _ g2
      subst g2
      simp only [M.bind_apply, ih g1 hq]
    · cases h
    · cases h

theorem runT_throw {q : List (Option Nat × Op V)} {u : UB} {k : Option Nat} {op : Op V} {st st' : SSt V} {ex : Exc}
    (h : runOp t op (st.arm k) = .throw ex st') (hq : runT t q (st'.arm none) = .ub u) :
    runT t ((k, op) :: q) st = .ub u := by
  simp only [runT, h, M.bind_apply, hq]

theorem ctorMode_terminates {x : Nat} {m : Mode} {hp : Bool} {st : SSt V} {σ : Nat → Option (Str.SV V)}
    (W : Str.SW t.toTraits st.strs σ) (hx : σ (bufId x) = none) (h : st.ios x = none) :
    ctorMode t x m hp (st.arm (some 0)) = .ub .terminate := by
  have h0 := W.dom _ hx
  simp only [ctorMode, M.bind_apply]
  rw [newIos_none (by exact h)]
  simp only [M.onThrow, lift, Str.ctor, M.noexcept, M.bind_apply, SSt.arm]
  rw [newObj_none (by exact h0)]
  simp only []
  rw [Str.allocInit_throw _ (by rfl)]

/-- C147.  A default construction whose allocation fails terminates the program. -/
theorem C147_default_terminates {ops : List (Option Nat × Op V)} {e : Env V} {c : Nat → Nat} {outs : List (Option (Out V))}
    (h : specRunT t.nul t.eofLike Env.none (fun _ => 0) ops = some (e, c, outs)) {x : Nat} (hx : e.strm x = none) :
    runT t (ops ++ [(some 0, .newIS x)]) SSt.init = .ub .terminate ∧
    runT t (ops ++ [(some 0, .newSS x)]) SSt.init = .ub .terminate := by
  obtain ⟨st, h1, ⟨σ, I⟩, hc⟩ := runT_refines TInv.init h
  obtain ⟨d1, d2⟩ := I.dom x hx
  constructor
  · refine runT_then h1 ?_
    simp only [runT, runOp, newIS, M.bind_apply, ctorMode_terminates I.world d2 d1]
  · refine runT_then h1 ?_
    simp only [runT, runOp, newSS, M.bind_apply, ctorMode_terminates I.world d2 d1]

/-- C147.  When the allocation of `x.str(y)` fails the buffer is already gone: destroying the stream frees it again. -/
theorem C147_str_breaks {ops : List (Option Nat × Op V)} {e : Env V} {c : Nat → Nat} {outs : List (Option (Out V))}
    (h : specRunT t.nul t.eofLike Env.none (fun _ => 0) ops = some (e, c, outs)) {x y : Nat} {s : Strm V} {l : List V}
    (hx : e.strm x = some s) (hs : s.opened ≠ none) (hh : s.heap = false) (hy : e.str y = some l)
    (hl : c x ≤ (l.takeWhile (· ≠ t.nul)).length) :
    runT t (ops ++ [(some 0, .setStr x y), (none, .destroy x)]) SSt.init = .ub .badFree := by
  obtain ⟨st, h1, ⟨σ, I⟩, hc⟩ := runT_refines TInv.init h
  refine runT_then h1 ?_
  obtain ⟨o, ho, R⟩ := I.rep x s hx
  have hk := R.kind
  cases hm : s.opened with
  | none => exact absurd hm hs
  | some m =>
  simp only [Kind, hm] at hk
  obtain ⟨k1, k2, k3, sv0, k4, -⟩ := hk
  obtain ⟨sv, hsv, rfl⟩ := I.sv hy
  obtain ⟨g1, g2, g3⟩ := Str.get_rep I.world k4
  have h2 := g3.two
  have hcap := hc _ _ g1
  simp only [Str.SV.obj] at hcap
  obtain ⟨q1, q2⟩ := Str.SV.cstr_gen (Str.get_rep I.world hsv).2.2
  have W := I.world
  have hlen := Str.length_ok (t := t.toTraits) (by simpa using Str.sees_data W hsv 0) q1
  rw [q2] at hlen
  have hlen0 : Str.length t.toTraits (.cell (some sv.blk) 0) { st.strs with thr := some 0 } =
      .ok (sv.val.takeWhile (· ≠ t.nul)).length { st.strs with thr := some 0 } := by
    obtain ⟨_, d, d2, d3⟩ := Str.length_cost (t := t.toTraits) (.cell (some sv.blk) 0) st.strs W.thr
    have := (d2 _ _ hlen).2
    obtain rfl : d = 0 := by omega
    have := d3 0
    rw [hlen] at this
    exact this
  generalize (sv.val.takeWhile (· ≠ t.nul)).length = m at hl hlen0
  have e1 : lift (Str.assign t.toTraits (bufId x) (strId y)) (st.arm (some 0)) = .throw .badAlloc
      { st with strs := ⟨upd st.strs.objs (bufId x) (some ⟨sv0.n, m + 1, some sv0.blk⟩),
        upd st.strs.mem sv0.blk none, st.strs.next, none⟩ } := by
    refine lift_throw (st := st.arm (some 0)) ?_
    have hd : Str.data (strId y) (st.arm (some 0)).strs = .ok (.cell (some sv.blk) 0) { st.strs with thr := some 0 } := by
      simp [Str.data, SSt.arm, getObj, (Str.get_rep W hsv).1, Str.SV.obj]
    simp only [Str.assign, M.bind_apply, hd, Str.assignC, hlen0]
    rw [getObj_some (o := ⟨sv0.n, sv0.buf.length - 1, some sv0.blk⟩) (by exact g1)]
    simp only []
    rw [if_pos (by omega)]
    simp only [M.bind_apply]
    rw [Str.freeChars_ok (n := sv0.buf.length - 1 + 1) (xs := sv0.buf) (by
      show st.strs.mem sv0.blk = _
      rw [g2]; congr 2; omega)]
    simp only []
    rw [setObj_some (o := sv0.obj) (by exact g1)]
    simp only []
    rw [Str.allocInit_throw _ (by rfl)]
  have hr : o.heap = false := by rw [R.heap]; exact hh
  have e2 : ∀ st1 : SSt V, st1.ios x = some o → (∀ n, st1.strs.objs (bufId x) = some ⟨n, m + 1, some sv0.blk⟩ →
      st1.strs.mem sv0.blk = none → runOp t (.destroy x) st1 = .ub .badFree) := by
    intro st1 h3 n h4 h5
    simp only [runOp, destroy, dtor, M.bind_apply, getIos_some h3, hr, k1, Bool.false_eq_true, if_false, if_true, lift,
      Str.dtor, getObj, h4, Str.freeChars, h5]
  have e3 : runOp t (.setStr x y) (st.arm (some 0)) = .throw .badAlloc
      { st with strs := ⟨upd st.strs.objs (bufId x) (some ⟨sv0.n, m + 1, some sv0.blk⟩),
        upd st.strs.mem sv0.blk none, st.strs.next, none⟩ } := by
    simp only [runOp, setStr, M.bind_apply, e1]
  refine runT_throw e3 ?_
  have e4 := e2 (SSt.arm (SSt.arm { st with
    strs := ⟨upd st.strs.objs (bufId x) (some ⟨sv0.n, m + 1, some sv0.blk⟩),
      upd st.strs.mem sv0.blk none, st.strs.next, none⟩ } none) none) ho sv0.n (by simp [SSt.arm]) (by simp [SSt.arm])
  simp only [runT, e4]

/-- `fmemopen` fails at each of its three allocations, then succeeds; a string stream fails, then succeeds; `str(s)`
needs no storage for a string that fits, and one allocation for a longer one; what does not fail goes on working, and
everything can be destroyed. -/
def demoT : List (Option Nat × Op Nat) :=
  [(none, .newArr 0 [7, 8, 9, 5]), (some 0, .newStr 0 0 2), (some 1, .newStr 0 0 2), (none, .newStr 1 0 4),
   (some 0, .fmemopen 0 0 3), (some 1, .fmemopen 0 0 3), (some 2, .fmemopen 0 0 3), (some 3, .fmemopen 0 0 3),
   (some 0, .newISs 1 0 ⟨false, false, false, false⟩), (none, .newISs 1 0 ⟨false, false, false, false⟩),
   (none, .newArr 1 [0, 0, 0, 0]), (some 0, .fread 0 1 0 2), (some 0, .vals 1),
   (some 0, .setStr 1 0), (some 1, .setStr 1 1), (some 0, .setStr 1 0), (some 0, .read 1 1 0 4), (none, .vals 1),
   (none, .rdstate 1), (some 0, .delStr 0), (some 0, .delStr 1), (some 0, .destroy 1), (some 0, .fclose 0)]

example : (specRunT natT.nul natT.eofLike Env.none (fun _ => 0) demoT).map (fun r => (r.2.2, r.2.1 0, r.2.1 1)) =
    some ([some .unit, none, some .unit, some .unit, none, none, none, some .unit, none, some .unit, some .unit,
      some (.nat 2), some (.vals [7, 8, 0, 0]), some .unit, some .unit, some .unit, some .unit,
      some (.vals [7, 8, 0, 0]), some (.bits ⟨false, true, true⟩), some .unit, some .unit, some .unit, some (.nat 0)],
      4, 5) := by decide

/-- A file is opened, at the second attempt, and closed: nothing is left. -/
example : ∃ st, runT natT [(none, .newArr 0 [7, 8, 9]), (some 2, .fmemopen 0 0 3), (some 3, .fmemopen 0 0 3),
    (some 0, .fclose 0)] SSt.init = .ok [some .unit, none, some .unit, some (.nat 0)] st ∧ ∀ a, st.strs.mem a = none := by
  obtain ⟨st, h1, h2, -⟩ := C147_no_leak (t := natT) (ops := [(none, .newArr 0 [7, 8, 9]), (some 2, .fmemopen 0 0 3),
    (some 3, .fmemopen 0 0 3), (some 0, .fclose 0)])
    (e := { Env.none with arr := put (fun _ => none) 0 (some [7, 8, 9]),
                          strm := put (put (fun _ => none) 0 (some (fresh [7, 8, 9] ⟨true, true, false, false⟩ true))) 0 none })
    (outs := [some .unit, none, some .unit, some (.nat 0)]) rfl (fun _ => rfl)
    (fun x => by simp only [put]; split <;> rfl)
  exact ⟨st, h1, h2⟩

/-- The two constructs outside the specification. -/
example : runT natT [(some 0, .newSS 3)] SSt.init = .ub .terminate :=
  (C147_default_terminates (t := natT) (ops := []) (e := Env.none) (c := fun _ => 0) (outs := []) rfl rfl).2

example : runT natT ([(none, .newArr 0 [7, 8, 9, 5]), (none, .newStr 0 0 2), (none, .newStr 1 0 4),
    (none, .newISs 1 0 ⟨false, false, false, false⟩)] ++ [(some 0, .setStr 1 1), (none, .destroy 1)]) SSt.init =
    .ub .badFree :=
  C147_str_breaks rfl (s := fresh [7, 8] ⟨true, false, false, false⟩ false) (l := [7, 8, 9, 5]) rfl (by decide) rfl rfl
    (by decide)

end Cest.Stream.Props
