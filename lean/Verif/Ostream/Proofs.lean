import Verif.Ostream.Spec
import Mathlib.Data.List.Forall2
/-
Helper lemmas about the output model.
-/
namespace Cest.Ostream
open Cest
open Cest.Stream (Bits)

variable {A : Type}

theorem lift_ok {α : Type} {m : M (St OS (Blk Char)) α} {w : W} {a : α} {s : St OS (Blk Char)}
    (h : m w.st = .ok a s) : lift m w = .ok a { w with st := s } := by simp [lift, h]

theorem scan_ok (b : Blk Char) (l : List Char) (i n : Nat) (w : W) (hn : l.length < n)
    (h : ∀ j (hj : j < l.length), b.slot (i + j) = some l[j]) (h0 : b.slot (i + l.length) = some '\x00')
    (hl : '\x00' ∉ l) : scan b i n w = .ok l w := by
  induction l generalizing i n with
  | nil =>
    cases n with
    | zero => simp at hn
    | succ n =>
      have h0' : b.slot i = some '\x00' := by simpa using h0
      simp [scan, h0']
  | cons c l ih =>
    cases n with
    | zero => simp at hn
    | succ n =>
      have hc : b.slot i = some c := h 0 (by simp)
      have hcn : c ≠ '\x00' := fun e => hl (by simp [e])
      have := ih (i+1) n (by simpa using hn)
        (fun j hj => by
          have := h (j+1) (by simpa using hj)
          rw [show i + 1 + j = i + (j + 1) by omega]; simpa using this)
        (by rw [show i + 1 + l.length = i + (c :: l).length by simp; omega]; exact h0)
        (fun e => hl (by simp [e]))
      simp [scan, hc, hcn, this]

/-- Whatever the characters, a terminated list is read up to its first terminator. -/
theorem scan_takeWhile (b : Blk Char) (l : List Char) (i n : Nat) (w : W) (hn : l.length < n)
    (h : ∀ j (hj : j < l.length), b.slot (i + j) = some l[j]) (h0 : b.slot (i + l.length) = some '\x00') :
    scan b i n w = .ok (l.takeWhile (· ≠ '\x00')) w := by
  induction l generalizing i n with
  | nil =>
    cases n with
    | zero => simp at hn
    | succ n =>
      have h0' : b.slot i = some '\x00' := by simpa using h0
      simp [scan, h0']
  | cons c l ih =>
    cases n with
    | zero => simp at hn
    | succ n =>
      have hc : b.slot i = some c := h 0 (by simp)
      by_cases hcn : c = '\x00'
      · simp [scan, hc, hcn]
      · have := ih (i+1) n (by simpa using hn)
          (fun j hj => by
            have := h (j+1) (by simpa using hj)
            rw [show i + 1 + j = i + (j + 1) by omega]; simpa using this)
          (by rw [show i + 1 + l.length = i + (c :: l).length by simp; omega]; exact h0)
        simp only [scan, hc, if_neg hcn, M.bind_apply, this, M.pure_apply]
        simp [hcn]

theorem cString_ok {w : W} {p : CP} {l : List Char} (h : CStr w.st.mem p l) : cString p w = .ok l w := by
  obtain ⟨a, i, b, rfl, hb, hlt, hj, h0, hl⟩ := h
  have h1 : lift (getC a) w = .ok b w := lift_ok (getC_some hb)
  simp only [cString, M.bind_apply, h1]
  exact scan_ok b l i _ w (by omega) hj h0 hl

theorem strBlk_slot (l : List Char) : (∀ j (hj : j < l.length), (strBlk l).slot (0 + j) = some l[j]) ∧
    (strBlk l).slot (0 + l.length) = some '\x00' := by
  constructor
  · intro j hj; simp [strBlk, List.getElem?_append, hj]
  · simp [strBlk]

theorem scan_str (l : List Char) (w : W) :
    scan (strBlk l) 0 (strBlk l).len w = .ok (l.takeWhile (· ≠ '\x00')) w :=
  scan_takeWhile _ l 0 _ w (by simp [strBlk]) (strBlk_slot l).1 (strBlk_slot l).2

theorem takeWhile_all {l : List Char} (h : '\x00' ∉ l) : l.takeWhile (· ≠ '\x00') = l := by
  induction l with
  | nil => rfl
  | cons c l ih =>
    have hc : c ≠ '\x00' := fun e => h (by simp [e])
    rw [List.takeWhile_cons_of_pos (by simpa using hc), ih (fun e => h (by simp [e]))]

/-- The standard streams after an insertion routed by `runtime_ostream`. -/
def routed (x : Nat) (f : Std → Std) (out : Nat → Std) : Nat → Std :=
  if x < 3 then upd out x (f (out x)) else out

theorem runtimeOstream_ok {x : Nat} {g : OM (Std → Std)} {f : Std → Std} {w : W} (hce : w.ce = false)
    (hg : g w = .ok f w) : runtimeOstream x g w = .ok () { w with out := routed x f w.out } := by
  have h0 : constEval w = .ok false w := by simp [constEval, hce]
  unfold runtimeOstream
  simp only [M.bind_apply, h0, Bool.not_false, if_true]
  by_cases h1 : x = 0
  · subst h1; simp [coutId, hg, std, routed]
  by_cases h2 : x = 1
  · subst h2; simp [coutId, cerrId, hg, std, routed]
  by_cases h3 : x = 2
  · subst h3; simp [coutId, cerrId, clogId, hg, std, routed]
  · have : ¬ x < 3 := by omega
    have e1 : ¬ coutId = x := fun e => h1 e.symm
    have e2 : ¬ cerrId = x := fun e => h2 e.symm
    have e3 : ¬ clogId = x := fun e => h3 e.symm
    simp [e1, e2, e3, routed, this]

theorem runtimeOstream_ce {x : Nat} {g : OM (Std → Std)} {w : W} (hce : w.ce = true) :
    runtimeOstream x g w = .ok () w := by
  have h0 : constEval w = .ok true w := by simp [constEval, hce]
  simp [runtimeOstream, h0]

theorem getOs_ok {x : Nat} {w : W} {o : OS} (h : w.st.objs x = some o) : lift (getObj x) w = .ok o w :=
  lift_ok (getObj_some h)

theorem putCstr_ok {x : Nat} {p : CP} {l : List Char} {w : W} {o : OS} (hce : w.ce = false)
    (ho : w.st.objs x = some o) (h : CStr w.st.mem p l) :
    putCstr x p w = .ok () { w with out := routed x (Std.puts l) w.out } := by
  unfold putCstr
  simp only [M.bind_apply, getOs_ok ho]
  exact runtimeOstream_ok hce (by simp [cString_ok h])

/-- `fprintf` with arguments whose conversion contains no terminator. -/
theorem fprintf_ok {fmt : Fmt A} {x : Nat} {p : CP} {l t : List Char} {xs : List A} {w : W} {o : OS}
    (hce : w.ce = false) (hr : Ready w) (ho : w.st.objs x = some o) (hp : CStr w.st.mem p l)
    (hf : fmt l xs = some t) (ht : '\x00' ∉ t) :
    fprintf fmt (some x) p xs w = .ok t.length
      { w with out := routed x (Std.puts t) w.out, st := { w.st with next := w.st.next + 1 } } := by
  obtain ⟨hthr, hnext⟩ := hr
  have h0 : constEval w = .ok false w := by simp [constEval, hce]
  have h1 : snprintf fmt none 0 p xs w = .ok (t.length : Int) w := by
    simp [snprintf, cString_ok hp, hf]
  have e1 : ((t.length : Int) + 1).toNat = t.length + 1 := by omega
  let b0 : Blk Char := ⟨t.length + 1, fun _ => none⟩
  let w1 : W := { w with st := { w.st with mem := upd w.st.mem w.st.next (some b0), next := w.st.next + 1 } }
  have h2 : lift (allocArr (t.length + 1)) w = .ok w.st.next w1 := by
    rw [lift_ok (m := allocArr (t.length + 1)) (allocC_none hthr)]
  have hmem : ∀ a b, w.st.mem a = some b → a ≠ w.st.next := by
    rintro a b hb rfl; rw [hnext _ (Nat.le_refl _)] at hb; cases hb
  have hp1 : CStr w1.st.mem p l := by
    obtain ⟨a, i, b, rfl, hb, hrest⟩ := hp
    exact ⟨a, i, b, rfl, by simp [w1, hmem a b hb, hb], hrest⟩
  let b1 : Blk Char := ⟨t.length + 1, fun i => if i < (t ++ ['\x00']).length then (t ++ ['\x00'])[i]? else none⟩
  let w2 : W := { w1 with st := { w1.st with mem := upd w1.st.mem w.st.next (some b1) } }
  have hb0 : w1.st.mem w.st.next = some b0 := by simp [w1]
  have h3 : snprintf fmt (some w.st.next) (t.length + 1) p xs w1 = .ok (t.length : Int) w2 := by
    have hs : lift (setC w.st.next b1) w1 = .ok () w2 := lift_ok (setC_some hb0)
    have hg : lift (getC w.st.next) w1 = .ok b0 w1 := lift_ok (getC_some hb0)
    have e2 : (t.take (t.length + 1 - 1) ++ ['\x00']) = t ++ ['\x00'] := by simp
    simp only [snprintf, M.bind_apply, cString_ok hp1, hf]
    refine (congrFun (if_pos (by omega)) _).trans ?_
    simp only [M.bind_apply, deref_some, hg, e2]
    have hle : (t ++ ['\x00']).length ≤ b0.len := by simp [b0]
    simp only [hle, if_true]
    exact (M.bind_of_ok hs).trans rfl
  have ho2 : w2.st.objs x = some o := ho
  have hcs : CStr w2.st.mem (some (w.st.next, 0)) t := by
    refine ⟨w.st.next, 0, b1, rfl, by simp [w2], by simp [b1], ?_, ?_, ht⟩
    · intro j hj; simp [b1, List.getElem?_append, hj]; omega
    · simp [b1]
  have h4 := putCstr_ok (w := w2) (x := x) (p := some (w.st.next, 0)) hce ho2 hcs
  let w3 : W := { w2 with out := routed x (Std.puts t) w2.out }
  have hb3 : w3.st.mem w.st.next = some b1 := by simp [w3, w2]
  have h5 : lift (freeC w.st.next) w3
      = .ok () { w3 with st := { w3.st with mem := upd w3.st.mem w.st.next none } } :=
    lift_ok (freeC_some hb3)
  unfold fprintf
  refine (M.bind_of_ok h0).trans ?_
  refine (congrFun (if_pos rfl) _).trans ?_
  refine (M.bind_of_ok h1).trans ?_
  rw [e1]
  refine (M.bind_of_ok h2).trans ?_
  refine (M.bind_of_ok h3).trans ?_
  refine (M.bind_of_ok deref_some).trans ?_
  refine (M.bind_of_ok h4).trans ?_
  refine (M.bind_of_ok h5).trans ?_
  have hm : upd w3.st.mem w.st.next none = w.st.mem := by
    simp only [w3, w2, w1, upd_upd]
    have := upd_self w.st.mem w.st.next
    rwa [hnext _ (Nat.le_refl _)] at this
  simp only [M.pure_apply, hm]
  rfl

theorem exec_ok {fmt : Fmt A} {c : Call A} {m : Nat × (Std → Std)} {w : W} (hce : w.ce = false)
    (hr : Ready w) (hm : Means fmt w.st.mem c m) (ho : ∃ o, w.st.objs m.1 = some o) :
    ∃ w', c.exec fmt w = .ok () w' ∧ Same w w' ∧ w'.out = routed m.1 m.2 w.out := by
  obtain ⟨o, ho⟩ := ho
  have h0 : constEval w = .ok false w := by simp [constEval, hce]
  have same : ∀ out, Same w { w with out := out } := fun out => ⟨rfl, rfl, rfl, Nat.le_refl _, rfl⟩
  cases hm with
  | int x n =>
    exact ⟨_, by simp only [Call.exec, putInt, M.bind_apply, getOs_ok ho]; exact runtimeOstream_ok hce rfl,
      same _, rfl⟩
  | uint x n =>
    exact ⟨_, by simp only [Call.exec, putUint, M.bind_apply, getOs_ok ho]; exact runtimeOstream_ok hce rfl,
      same _, rfl⟩
  | chr x n =>
    exact ⟨_, by simp only [Call.exec, putChar, M.bind_apply, getOs_ok ho]; exact runtimeOstream_ok hce rfl,
      same _, rfl⟩
  | cstr x p l hp => exact ⟨_, putCstr_ok hce ho hp, same _, rfl⟩
  | str x l hl =>
    exact ⟨_, by
      simp only [Call.exec, putStr, M.bind_apply, getOs_ok ho]
      refine runtimeOstream_ok (f := Std.puts l) hce ?_
      simp only [M.bind_apply, scan_str, takeWhile_all hl]; rfl, same _, rfl⟩
  | endl x =>
    exact ⟨_, by simp only [Call.exec, putEndl, M.bind_apply, getOs_ok ho]; exact runtimeOstream_ok hce rfl,
      same _, rfl⟩
  | printf0 p l hp _ =>
    exact ⟨_, by
      simp only [Call.exec, Ostream.printf0, M.bind_apply, h0, Bool.not_false, if_true, cString_ok hp,
        stdPrintf, std, M.pure_apply]; rfl, same _, rfl⟩
  | printf p l xs t hp hf =>
    exact ⟨_, by
      simp only [Call.exec, Ostream.printf, M.bind_apply, h0, Bool.not_false, if_true, cString_ok hp, hf,
        stdPrintf, std, M.pure_apply]; rfl, same _, rfl⟩
  | fprintf0 x p l hp _ =>
    exact ⟨_, by
      simp only [Call.exec, Ostream.fprintf0, M.bind_apply, h0, Bool.not_false, if_true, deref_some,
        putCstr_ok hce ho hp, M.pure_apply]; rfl, same _, rfl⟩
  | fprintf x p l xs t hp hf ht =>
    refine ⟨_, by simp only [Call.exec, M.bind_apply, fprintf_ok hce hr ho hp hf ht]; rfl, ?_, rfl⟩
    exact ⟨rfl, rfl, rfl, Nat.le_succ _, rfl⟩

theorem Ready.same {w w' : W} (h : Ready w) (hs : Same w w') : Ready w' :=
  ⟨hs.thr.trans h.1, fun a ha => by rw [hs.mem]; exact h.2 a (Nat.le_trans hs.next ha)⟩

theorem expected_cons (k : Nat) (m : Nat × (Std → Std)) (ms : List (Nat × (Std → Std))) (s : Std) :
    expected k (m :: ms) s = expected k ms (if m.1 = k then m.2 s else s) := by
  by_cases h : m.1 = k
  · simp [expected, h]
  · simp [expected, h]

theorem execAll_ok {fmt : Fmt A} {cs : List (Call A)} {ms : List (Nat × (Std → Std))} {w : W}
    (hce : w.ce = false) (hr : Ready w) (hm : List.Forall₂ (Means fmt w.st.mem) cs ms)
    (ho : ∀ m ∈ ms, ∃ o, w.st.objs m.1 = some o) :
    ∃ w', execAll fmt cs w = .ok () w' ∧ Same w w' ∧ ∀ k < 3, w'.out k = expected k ms (w.out k) := by
  induction cs generalizing ms w with
  | nil =>
    cases hm
    exact ⟨w, rfl, ⟨rfl, rfl, rfl, Nat.le_refl _, rfl⟩, fun k _ => rfl⟩
  | cons c cs ih =>
    cases hm with
    | @cons _ m _ ms hc hcs =>
      obtain ⟨w1, h1, hs1, ho1⟩ := exec_ok hce hr hc (ho m (by simp))
      obtain ⟨w2, h2, hs2, ho2⟩ := ih (w := w1) (ms := ms) (hs1.ce.trans hce) (hr.same hs1)
        (by rw [hs1.mem]; exact hcs) (fun m' hm' => by rw [hs1.objs]; exact ho m' (by simp [hm']))
      refine ⟨w2, by simp only [execAll, M.bind_apply, h1, h2], ?_, ?_⟩
      · exact ⟨hs2.mem.trans hs1.mem, hs2.objs.trans hs1.objs, hs2.thr.trans hs1.thr,
          Nat.le_trans hs1.next hs2.next, hs2.ce.trans hs1.ce⟩
      · intro k hk
        rw [ho2 k hk, expected_cons, ho1]
        congr 1
        unfold routed
        by_cases hx : m.1 < 3
        · by_cases e : k = m.1
          · subst e; simp [hx]
          · simp [hx, e, Ne.symm e]
        · have : m.1 ≠ k := by omega
          simp [hx, this]

end Cest.Ostream
