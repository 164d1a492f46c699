import Verif.Stream.Model
/-
The bit masks of ios_base (/repo/include/cest/ios_base.hpp:6-137) and the state functions of basic_ios
(basic_ios.hpp:72-119,147-181) at the level of the 32-bit integers they are computed with.  The stream model
(Verif/Stream/Model.lean) works with one Boolean per state bit; `C117_decode` says that this is the same.
-/
namespace Cest.Stream.Flags
open Cest Cest.Stream

/-- The enumerations are converted to and from `int`, which has 32 bits. -/
abbrev I := BitVec 32

/-! ### ios_base.hpp -/

/-- ios_base.hpp:32-34, 73-75, 113-115 `a & b`. -/
def fAnd (a b : I) : I := a &&& b
/-- ios_base.hpp:36-38, 77-79, 117-119 `a | b`. -/
def fOr (a b : I) : I := a ||| b
/-- ios_base.hpp:40-42, 81-83, 121-123 `a ^ b`. -/
def fXor (a b : I) : I := a ^^^ b
/-- ios_base.hpp:44-46, 85-87, 125-127 `~a`. -/
def fNot (a : I) : I := ~~~a

/-- An enumerator `1L << k`. -/
def bit (k : Nat) : I := 1#32 <<< k

/-- ios_base.hpp:6-29: the single flags in the order of the enumeration. -/
def boolalpha : I := bit 0
def dec : I := bit 1
def fixed : I := bit 2
def hex : I := bit 3
def internal : I := bit 4
def left : I := bit 5
def oct : I := bit 6
def right : I := bit 7
def scientific : I := bit 8
def showbase : I := bit 9
def showpoint : I := bit 10
def showpos : I := bit 11
def skipws : I := bit 12
def unitbuf : I := bit 13
def uppercase : I := bit 14
def adjustfield : I := fOr (fOr left right) internal
def basefield : I := fOr (fOr dec oct) hex
def floatfield : I := fOr scientific fixed

/-- All fifteen single format flags. -/
def fmtAll : List I := [boolalpha, dec, fixed, hex, internal, left, oct, right, scientific, showbase,
  showpoint, showpos, skipws, unitbuf, uppercase]

/-- ios_base.hpp:60-70. -/
def app : I := bit 0
def ate : I := bit 1
def bin : I := bit 2
def inn : I := bit 3
def out : I := bit 4
def trunc : I := bit 5
def modeAll : List I := [app, ate, bin, inn, out, trunc]

/-- ios_base.hpp:100-109. -/
def goodbit : I := 0#32
def badbit : I := bit 0
def eofbit : I := bit 1
def failbit : I := bit 2
def stateAll : List I := [badbit, eofbit, failbit]

/-! ### basic_ios.hpp -/

/-- Data members of `ios_base` and whether `basic_ios::_M_streambuf` is non-null (ios_base.hpp:179-183,
basic_ios.hpp:65). -/
structure Ios where
  precision : Int
  width : Int
  flags : I
  exc : I
  state : I
  rdbuf : Bool
  deriving DecidableEq

/-- basic_ios.hpp:166-181 `init(sb)`, with ios_base.hpp:188-194 `_M_init()`. -/
def init (sb : Bool) : Ios := ⟨6, 0, fOr skipws dec, goodbit, if sb then goodbit else badbit, sb⟩

abbrev IM := M Ios

def get : IM Ios := fun s => .ok s s
def put (o : Ios) : IM Unit := fun _ => .ok () o

/-- basic_ios.hpp:80-82 `rdstate()`. -/
def rdstate : IM I := do return (← get).state

/-- basic_ios.hpp:147-164 `clear(s)`. -/
def clear (s : I) : IM Unit := do
  let o ← get
  put { o with state := if o.rdbuf then s else fOr s badbit }
  let o ← get
  if fAnd o.exc o.state ≠ 0#32 then M.throw .iosFailure

/-- basic_ios.hpp:86-88 `setstate(s)`. -/
def setstate (s : I) : IM Unit := do clear (fOr (← rdstate) s)

/-- basic_ios.hpp:98-100 `good()`. -/
def good : IM Bool := do return (← rdstate) == 0#32
/-- basic_ios.hpp:102-104 `eof()`. -/
def eof : IM Bool := do return fAnd (← rdstate) eofbit != 0#32
/-- basic_ios.hpp:106-108 `fail()`. -/
def fail : IM Bool := do return fAnd (← rdstate) (fOr badbit failbit) != 0#32
/-- basic_ios.hpp:73-74 `operator bool()`. -/
def asBool : IM Bool := do return !(← fail)
/-- basic_ios.hpp:76-78 `operator!()`. -/
def not : IM Bool := fail
/-- basic_ios.hpp:110-112 `exceptions()`. -/
def exceptions : IM I := do return (← get).exc
/-- basic_ios.hpp:114-119 `exceptions(e)`. -/
def setExceptions (e : I) : IM Unit := do
  let o ← get
  put { o with exc := e }
  clear (← get).state
/-- ios_base.hpp:197-199 `flags()`. -/
def flags : IM I := do return (← get).flags

/-! ### Programs over one stream -/

/-- A state bit. -/
inductive Flag where
  | bad | eof | fail
  deriving DecidableEq, Repr

def Flag.val : Flag → I
  | .bad => badbit
  | .eof => eofbit
  | .fail => failbit

/-- The expression `goodbit | f₁ | f₂ | …`. -/
def mask (l : List Flag) : I := l.foldl (fun a f => fOr a f.val) goodbit

inductive Op where
  | clear (l : List Flag)
  | setstate (l : List Flag)
  | exceptions (l : List Flag)
  | good | eof | fail | asBool | not
  /-- `(s.rdstate() & f) != 0` -/
  | test (f : Flag)
  /-- `(s.exceptions() & f) != 0` -/
  | testMask (f : Flag)
  deriving Repr

/-- What a statement shows: nothing, a Boolean, or that it threw. -/
inductive Out where
  | unit | bool (b : Bool) | threw
  deriving DecidableEq, Repr

/-- One statement, inside `try { … } catch (const std::ios_base::failure&) { … }`. -/
def exec (op : Op) : IM Out :=
  M.tryCatch (match op with
    | .clear l => do clear (mask l); return .unit
    | .setstate l => do setstate (mask l); return .unit
    | .exceptions l => do setExceptions (mask l); return .unit
    | .good => do return .bool (← good)
    | .eof => do return .bool (← eof)
    | .fail => do return .bool (← fail)
    | .asBool => do return .bool (← asBool)
    | .not => do return .bool (← not)
    | .test f => do return .bool (fAnd (← rdstate) f.val != 0#32)
    | .testMask f => do return .bool (fAnd (← exceptions) f.val != 0#32))
    (fun _ => return .threw)

def run : List Op → IM (List Out)
  | [] => return []
  | op :: ops => do
    let o ← exec op
    return o :: (← run ops)

/-! ### Specification: sets of state bits -/

structure S where
  state : Flag → Prop
  mask : Flag → Prop
  buf : Bool

/-- [ios.init] -/
def S.init (sb : Bool) : S := ⟨fun f => sb = false ∧ f = .bad, fun _ => False, sb⟩

/-- The effect of setting the state to `new`: without a buffer `badbit` is added. -/
def S.set (s : S) (new : Flag → Prop) : S := { s with state := fun f => new f ∨ s.buf = false ∧ f = .bad }

/-- [iostate.flags]: the state after a statement. -/
def S.next (s : S) : Op → S
  | .clear l => s.set (· ∈ l)
  | .setstate l => s.set (fun f => s.state f ∨ f ∈ l)
  | .exceptions l => { s with mask := (· ∈ l) }
  | _ => s

/-- [iostate.flags]: what a statement shows, `s'` being the state after it. -/
def S.shows (s' : S) : Op → Out → Prop
  | .clear _, o | .setstate _, o | .exceptions _, o =>
    (o = .threw ∧ ∃ f, s'.state f ∧ s'.mask f) ∨ (o = .unit ∧ ∀ f, ¬ (s'.state f ∧ s'.mask f))
  | .good, o => ∃ b, o = .bool b ∧ (b = true ↔ ∀ f, ¬ s'.state f)
  | .eof, o => ∃ b, o = .bool b ∧ (b = true ↔ s'.state .eof)
  | .fail, o | .not, o => ∃ b, o = .bool b ∧ (b = true ↔ s'.state .bad ∨ s'.state .fail)
  | .asBool, o => ∃ b, o = .bool b ∧ (b = true ↔ ¬ s'.state .bad ∧ ¬ s'.state .fail)
  | .test f, o => ∃ b, o = .bool b ∧ (b = true ↔ s'.state f)
  | .testMask f, o => ∃ b, o = .bool b ∧ (b = true ↔ s'.mask f)

def S.run (s : S) : List Op → List Out → Prop
  | [], o => o = []
  | op :: ops, o => ∃ a r, o = a :: r ∧ (s.next op).shows op a ∧ (s.next op).run ops r

/-! ### Proofs -/

/-- `v` is the mask of the set `p`, and has no other bit. -/
def Enc (v : I) (p : Flag → Prop) : Prop :=
  (v.getLsbD 0 = true ↔ p .bad) ∧ (v.getLsbD 1 = true ↔ p .eof) ∧ (v.getLsbD 2 = true ↔ p .fail) ∧
  ∀ i, 3 ≤ i → v.getLsbD i = false

theorem bit_get (k i : Nat) (hk : k < 32) : (bit k).getLsbD i = decide (i = k) := by
  simp only [bit, BitVec.getLsbD_shiftLeft, BitVec.getLsbD_one]
  by_cases h : i = k
  · subst h; simp [hk]
  · by_cases h1 : i < 32 <;> by_cases h2 : i < k <;> simp [h, h1, h2] <;> omega

theorem enc_flag (f : Flag) : Enc f.val (· = f) := by
  cases f <;> simp only [Enc, Flag.val, badbit, eofbit, failbit, bit_get _ _ (show 0 < 32 by omega),
    bit_get _ _ (show 1 < 32 by omega), bit_get _ _ (show 2 < 32 by omega)] <;>
    refine ⟨by simp, by simp, by simp, fun i hi => decide_eq_false (by omega)⟩

theorem enc_zero : Enc goodbit (fun _ => False) := by simp [Enc, goodbit]

theorem enc_or {a b : I} {p q : Flag → Prop} (h : Enc a p) (k : Enc b q) :
    Enc (fOr a b) (fun f => p f ∨ q f) := by
  obtain ⟨h0, h1, h2, h3⟩ := h
  obtain ⟨k0, k1, k2, k3⟩ := k
  refine ⟨?_, ?_, ?_, fun i hi => ?_⟩ <;> simp only [fOr, BitVec.getLsbD_or, Bool.or_eq_true]
  · rw [h0, k0]
  · rw [h1, k1]
  · rw [h2, k2]
  · rw [h3 i hi, k3 i hi]; rfl

theorem enc_and {a b : I} {p q : Flag → Prop} (h : Enc a p) (k : Enc b q) :
    Enc (fAnd a b) (fun f => p f ∧ q f) := by
  obtain ⟨h0, h1, h2, h3⟩ := h
  obtain ⟨k0, k1, k2, k3⟩ := k
  refine ⟨?_, ?_, ?_, fun i hi => ?_⟩ <;> simp only [fAnd, BitVec.getLsbD_and, Bool.and_eq_true]
  · rw [h0, k0]
  · rw [h1, k1]
  · rw [h2, k2]
  · rw [h3 i hi, k3 i hi]; rfl

theorem Enc.congr {a : I} {p q : Flag → Prop} (h : Enc a p) (e : ∀ f, p f ↔ q f) : Enc a q := by
  obtain ⟨h0, h1, h2, h3⟩ := h
  exact ⟨h0.trans (e _), h1.trans (e _), h2.trans (e _), h3⟩

theorem enc_eq_zero {a : I} {p : Flag → Prop} (h : Enc a p) : a = 0#32 ↔ ∀ f, ¬ p f := by
  obtain ⟨h0, h1, h2, h3⟩ := h
  constructor
  · rintro rfl f
    cases f <;> simp_all
  · intro hp
    apply BitVec.eq_of_getLsbD_eq
    intro i _
    simp only [BitVec.getLsbD_zero]
    match i with
    | 0 => have := hp .bad; simp_all
    | 1 => have := hp .eof; simp_all
    | 2 => have := hp .fail; simp_all
    | i + 3 => exact h3 _ (by omega)

theorem enc_mask (l : List Flag) : Enc (mask l) (· ∈ l) := by
  suffices H : ∀ (l : List Flag) (a : I) (p : Flag → Prop), Enc a p →
      Enc (l.foldl (fun a f => fOr a f.val) a) (fun f => p f ∨ f ∈ l) by
    exact (H l goodbit _ enc_zero).congr (by simp)
  intro l
  induction l with
  | nil => intro a p h; exact h.congr (by simp)
  | cons g l ih =>
    intro a p h
    exact (ih _ _ (enc_or h (enc_flag g))).congr (by intro f; simp [or_assoc])

/-- The integers represent the sets. -/
structure Rep (o : Ios) (s : S) : Prop where
  state : Enc o.state s.state
  mask : Enc o.exc s.mask
  buf : o.rdbuf = s.buf
  /-- without a buffer the stream is bad -/
  bad : s.buf = false → s.state .bad
  fmt : o.flags = fOr skipws dec

theorem rep_init (sb : Bool) : Rep (init sb) (S.init sb) := by
  refine ⟨?_, enc_zero, rfl, fun h => ⟨h, rfl⟩, rfl⟩
  cases sb
  · exact (enc_flag .bad).congr (by simp [S.init])
  · exact enc_zero.congr (by simp [S.init])

theorem clear_rep {o : Ios} {s : S} (R : Rep o s) {v : I} {p : Flag → Prop} (hv : Enc v p) :
    ∃ o', Rep o' (s.set p) ∧
      clear v o = (if fAnd o'.exc o'.state ≠ 0#32 then .throw .iosFailure o' else .ok () o') := by
  refine ⟨{ o with state := if o.rdbuf then v else fOr v badbit }, ⟨?_, R.mask, R.buf, ?_, R.fmt⟩, ?_⟩
  · have hb := R.buf
    simp only [S.set]
    by_cases h : o.rdbuf = true
    · rw [if_pos h]
      exact hv.congr (by simp [← hb, h])
    · rw [if_neg h]
      exact (enc_or hv (enc_flag .bad)).congr (by simp [← hb, h])
  · intro h
    exact .inr ⟨h, rfl⟩
  · simp only [clear, get, put, M.bind_apply]
    by_cases h : fAnd o.exc (if o.rdbuf then v else fOr v badbit) ≠ 0#32
    · rw [if_pos h, if_pos h]; rfl
    · rw [if_neg h, if_neg h]; rfl

theorem effect_rep {m : IM Unit} {o o' : Ios} {s' : S} (R : Rep o' s')
    (e : m o = (if fAnd o'.exc o'.state ≠ 0#32 then .throw .iosFailure o' else .ok () o')) :
    ∃ a, (M.tryCatch (do m; return Out.unit) (fun _ => return .threw) : IM Out) o = .ok a o' ∧
      ((a = .threw ∧ ∃ f, s'.state f ∧ s'.mask f) ∨ (a = .unit ∧ ∀ f, ¬ (s'.state f ∧ s'.mask f))) := by
  have h := enc_eq_zero (enc_and R.mask R.state)
  by_cases hz : fAnd o'.exc o'.state = 0#32
  · refine ⟨.unit, ?_, .inr ⟨rfl, fun f hf => h.1 hz f ⟨hf.2, hf.1⟩⟩⟩
    rw [if_neg (by simp [hz])] at e
    simp only [M.tryCatch, M.bind_apply, e]
    rfl
  · refine ⟨.threw, ?_, .inl ⟨rfl, ?_⟩⟩
    · rw [if_pos hz] at e
      simp only [M.tryCatch, M.bind_apply, e]
      rfl
    · exact Classical.byContradiction fun hc => hz (h.2 (fun f hf => hc ⟨f, hf.2, hf.1⟩))

theorem test_rep {v : I} {p : Flag → Prop} (h : Enc v p) (f : Flag) :
    (fAnd v f.val != 0#32) = true ↔ p f := by
  have := enc_eq_zero (enc_and h (enc_flag f))
  simp only [bne_iff_ne, ne_eq, this]
  simp

theorem fail_test {v : I} {p : Flag → Prop} (h : Enc v p) :
    (fAnd v (fOr badbit failbit) != 0#32) = true ↔ p .bad ∨ p .fail := by
  have := enc_eq_zero (enc_and h (enc_or (enc_flag .bad) (enc_flag .fail)))
  rw [bne_iff_ne, ne_eq, show fOr badbit failbit = fOr Flag.bad.val Flag.fail.val from rfl, this]
  constructor
  · intro hn
    apply Classical.byContradiction
    intro hc
    apply hn
    rintro f ⟨hf, rfl | rfl⟩
    · exact hc (.inl hf)
    · exact hc (.inr hf)
  · rintro (hp | hp) hn
    · exact hn .bad ⟨hp, .inl rfl⟩
    · exact hn .fail ⟨hp, .inr rfl⟩

theorem exec_rep {o : Ios} {s : S} (R : Rep o s) (op : Op) :
    ∃ a o', exec op o = .ok a o' ∧ Rep o' (s.next op) ∧ (s.next op).shows op a := by
  cases op with
  | clear l =>
    obtain ⟨o', R', e⟩ := clear_rep R (enc_mask l)
    obtain ⟨a, ea, ha⟩ := effect_rep R' e
    exact ⟨a, o', ea, R', ha⟩
  | setstate l =>
    obtain ⟨o', R', e⟩ := clear_rep R (enc_or R.state (enc_mask l))
    obtain ⟨a, ea, ha⟩ := effect_rep (m := setstate (mask l)) R' e
    exact ⟨a, o', ea, R', ha⟩
  | exceptions l =>
    have R1 : Rep { o with exc := mask l } { s with mask := (· ∈ l) } :=
      ⟨R.state, enc_mask l, R.buf, R.bad, R.fmt⟩
    obtain ⟨o', R', e⟩ := clear_rep R1 R.state
    have R2 : Rep o' { s with mask := (· ∈ l) } := by
      refine ⟨R'.state.congr ?_, R'.mask, R'.buf, R.bad, R'.fmt⟩
      intro f
      simp only [S.set]
      constructor
      · rintro (h | ⟨h, rfl⟩)
        · exact h
        · exact R.bad h
      · exact .inl
    obtain ⟨a, ea, ha⟩ := effect_rep (m := setExceptions (mask l)) (o := o) R2 e
    exact ⟨a, o', ea, R2, ha⟩
  | good =>
    refine ⟨.bool (o.state == 0#32), o, rfl, R, _, rfl, ?_⟩
    rw [beq_iff_eq]
    exact enc_eq_zero R.state
  | eof => exact ⟨.bool (fAnd o.state eofbit != 0#32), o, rfl, R, _, rfl, test_rep R.state .eof⟩
  | fail =>
    refine ⟨.bool (fAnd o.state (fOr badbit failbit) != 0#32), o, rfl, R, _, rfl, ?_⟩
    exact fail_test R.state
  | asBool =>
    refine ⟨.bool !(fAnd o.state (fOr badbit failbit) != 0#32), o, rfl, R, _, rfl, ?_⟩
    rw [Bool.not_eq_true', Bool.eq_false_iff, ne_eq, fail_test R.state, not_or]
    exact Iff.rfl
  | not => exact ⟨.bool (fAnd o.state (fOr badbit failbit) != 0#32), o, rfl, R, _, rfl, fail_test R.state⟩
  | test f => exact ⟨.bool (fAnd o.state f.val != 0#32), o, rfl, R, _, rfl, test_rep R.state f⟩
  | testMask f => exact ⟨.bool (fAnd o.exc f.val != 0#32), o, rfl, R, _, rfl, test_rep R.mask f⟩

theorem run_rep (ops : List Op) {o : Ios} {s : S} (R : Rep o s) :
    ∃ outs o', run ops o = .ok outs o' ∧ s.run ops outs ∧ o'.flags = fOr skipws dec := by
  induction ops generalizing o s with
  | nil => exact ⟨[], o, rfl, rfl, R.fmt⟩
  | cons op ops ih =>
    obtain ⟨a, o1, e1, R1, h1⟩ := exec_rep R op
    obtain ⟨r, o2, e2, h2, h3⟩ := ih R1
    refine ⟨a :: r, o2, ?_, ⟨a, r, rfl, h1, h2⟩, h3⟩
    simp only [run, M.bind_apply, e1, e2]
    rfl

/-- The state bits of a mask, as the stream model represents them. -/
def decode (v : I) : Bits := ⟨v.getLsbD 0, v.getLsbD 1, v.getLsbD 2⟩

/-! ### Property C117 -/

/-- The operators compute the union, the intersection, the symmetric difference and the complement of sets
of bits. -/
theorem C117_bitmask_ops (a b : I) (i : Nat) (hi : i < 32) :
    ((fOr a b).getLsbD i = true ↔ a.getLsbD i = true ∨ b.getLsbD i = true) ∧
    ((fAnd a b).getLsbD i = true ↔ a.getLsbD i = true ∧ b.getLsbD i = true) ∧
    ((fXor a b).getLsbD i = true ↔ ¬ (a.getLsbD i = true ↔ b.getLsbD i = true)) ∧
    ((fNot a).getLsbD i = true ↔ ¬ a.getLsbD i = true) := by
  simp only [fOr, fAnd, fXor, fNot, BitVec.getLsbD_or, BitVec.getLsbD_and, BitVec.getLsbD_xor,
    BitVec.getLsbD_not, hi]
  cases a.getLsbD i <;> cases b.getLsbD i <;> simp

/-- Clearing with `a & ~f` removes exactly the bits of `f`, and `(a & f) != 0` tests whether they meet. -/
theorem C117_bitmask_clear_test (a f : I) :
    (∀ i, i < 32 → ((fAnd a (fNot f)).getLsbD i = true ↔ a.getLsbD i = true ∧ ¬ f.getLsbD i = true)) ∧
    (fAnd a f ≠ 0#32 ↔ ∃ i, a.getLsbD i = true ∧ f.getLsbD i = true) := by
  constructor
  · intro i hi
    rw [(C117_bitmask_ops a (fNot f) i hi).2.1, (C117_bitmask_ops f f i hi).2.2.2]
  · constructor
    · intro h
      apply Classical.byContradiction
      intro hc
      apply h
      apply BitVec.eq_of_getLsbD_eq
      intro i _
      simp only [fAnd, BitVec.getLsbD_and, BitVec.getLsbD_zero]
      cases h1 : a.getLsbD i <;> cases h2 : f.getLsbD i <;> simp
      exact hc ⟨i, h1, h2⟩
    · rintro ⟨i, h1, h2⟩ h
      have := congrArg (fun v => BitVec.getLsbD v i) h
      simp [fAnd, h1, h2] at this

theorem bit_and {j k : Nat} (hj : j < 32) (hk : k < 32) : fAnd (bit j) (bit k) = 0#32 ↔ j ≠ k := by
  constructor
  · rintro h rfl
    have := congrArg (fun v => BitVec.getLsbD v j) h
    simp only [fAnd, BitVec.getLsbD_and, bit_get _ _ hj, BitVec.getLsbD_zero] at this
    simp at this
  · intro h
    apply Classical.byContradiction
    intro hc
    obtain ⟨i, h1, h2⟩ := (C117_bitmask_clear_test _ _).2.1 hc
    rw [bit_get _ _ hj] at h1
    rw [bit_get _ _ hk] at h2
    exact h ((of_decide_eq_true h1).symm.trans (of_decide_eq_true h2))

theorem bit_inj {j k : Nat} (hj : j < 32) (hk : k < 32) : bit j = bit k ↔ j = k := by
  constructor
  · intro h
    have := congrArg (fun v => BitVec.getLsbD v j) h
    simp only [bit_get _ _ hj, bit_get _ _ hk] at this
    simpa using this
  · rintro rfl; rfl

theorem bit_ne_zero {j : Nat} (hj : j < 32) : bit j ≠ 0#32 := by
  intro h
  have := congrArg (fun v => BitVec.getLsbD v j) h
  simp only [bit_get _ _ hj, BitVec.getLsbD_zero] at this
  simp at this

theorem fAnd_fOr (a b c : I) : fAnd a (fOr b c) = 0#32 ↔ fAnd a b = 0#32 ∧ fAnd a c = 0#32 := by
  have h1 := (C117_bitmask_clear_test a (fOr b c)).2
  have h2 := (C117_bitmask_clear_test a b).2
  have h3 := (C117_bitmask_clear_test a c).2
  have h4 : fAnd a (fOr b c) ≠ 0#32 ↔ fAnd a b ≠ 0#32 ∨ fAnd a c ≠ 0#32 := by
    rw [h1, h2, h3, ← exists_or]
    simp only [fOr, BitVec.getLsbD_or, Bool.or_eq_true, and_or_left]
  by_cases hb : fAnd a b = 0#32 <;> by_cases hc : fAnd a c = 0#32 <;>
    by_cases ho : fAnd a (fOr b c) = 0#32 <;> simp_all

theorem fOr_fAnd (a b c : I) : fAnd (fOr b c) a = 0#32 ↔ fAnd b a = 0#32 ∧ fAnd c a = 0#32 := by
  have e : ∀ x y : I, fAnd x y = fAnd y x := fun x y => BitVec.and_comm x y
  rw [e, fAnd_fOr, e a b, e a c]

/-- Every flag of an enumeration is non-zero and two of them have no bit in common; the three fields are the
unions the standard prescribes. -/
theorem C117_bitmask_constants :
    (∀ l ∈ [fmtAll, modeAll, stateAll], (∀ a ∈ l, a ≠ 0#32) ∧ l.Pairwise (fun a b => fAnd a b = 0#32)) ∧
    (∀ a ∈ fmtAll, (fAnd a adjustfield ≠ 0#32 ↔ a = left ∨ a = right ∨ a = internal) ∧
      (fAnd a basefield ≠ 0#32 ↔ a = dec ∨ a = oct ∨ a = hex) ∧
      (fAnd a floatfield ≠ 0#32 ↔ a = scientific ∨ a = fixed)) ∧
    goodbit = 0#32 := by
  refine ⟨?_, ?_, rfl⟩
  · simp [fmtAll, modeAll, stateAll, boolalpha, dec, fixed, hex, internal, left, oct, right, scientific,
      showbase, showpoint, showpos, skipws, unitbuf, uppercase, app, ate, bin, inn, out, trunc, badbit,
      eofbit, failbit, bit_and, bit_ne_zero]
  · simp [fmtAll, adjustfield, basefield, floatfield, boolalpha, dec, fixed, hex, internal, left, oct, right,
      scientific, showbase, showpoint, showpos, skipws, unitbuf, uppercase, bit_and, bit_inj, fAnd_fOr]

/-- C117: every program that sets and examines the state and the exception mask of a stream sees sets of
state bits: union for `setstate`, replacement for `clear`, `badbit` whenever there is no buffer, and an
exception exactly when the state and the mask meet. -/
theorem C117_state_is_a_set (sb : Bool) (ops : List Op) :
    ∃ outs o, run ops (init sb) = .ok outs o ∧ (S.init sb).run ops outs := by
  obtain ⟨outs, o, h1, h2, _⟩ := run_rep ops (rep_init sb)
  exact ⟨outs, o, h1, h2⟩

/-- The format flags are those of a fresh stream at every moment: `skipws` and `dec` are set and no other
one is. -/
theorem C117_flags_after_init (sb : Bool) (ops : List Op) :
    ∃ outs o v, run ops (init sb) = .ok outs o ∧ flags o = .ok v o ∧
      ∀ a ∈ fmtAll, (fAnd v a ≠ 0#32 ↔ a = skipws ∨ a = dec) := by
  obtain ⟨outs, o, h1, _, h3⟩ := run_rep ops (rep_init sb)
  refine ⟨outs, o, fOr skipws dec, h1, ?_, by
    simp [fmtAll, boolalpha, dec, fixed, hex, internal, left, oct, right, scientific, showbase, showpoint,
      showpos, skipws, unitbuf, uppercase, bit_and, bit_inj, fOr_fAnd]⟩
  simp only [flags, get, M.bind_apply, h3]
  rfl

/-- The Booleans of the stream model are the bits of the integers. -/
theorem C117_decode (a b : I) (ha : ∀ i, 3 ≤ i → a.getLsbD i = false) :
    decode (fOr a b) = (decode a).or (decode b) ∧ decode (fAnd a b) = (decode a).and (decode b) ∧
    decode (fAnd a (fNot b)) = (decode a).minus (decode b) ∧ (a = 0#32 ↔ decode a = Bits.none) := by
  refine ⟨by simp [decode, fOr, Bits.or], by simp [decode, fAnd, Bits.and],
    by simp [decode, fAnd, fNot, Bits.minus], ?_⟩
  constructor
  · rintro rfl; rfl
  · intro hp
    simp only [decode, Bits.none, Bits.mk.injEq] at hp
    apply BitVec.eq_of_getLsbD_eq
    intro i _
    rw [BitVec.getLsbD_zero]
    match i with
    | 0 => exact hp.1
    | 1 => exact hp.2.1
    | 2 => exact hp.2.2
    | i + 3 => exact ha _ (by omega)

/-- A stream without a buffer stays bad, and throws as soon as the mask asks for it. -/
example : ∃ o, run [.clear [.eof], .good, .fail, .exceptions [.bad], .clear [], .test .eof] (init false) =
    .ok [.unit, .bool false, .bool true, .threw, .threw, .bool false] o := ⟨_, rfl⟩

example : ∃ o, run [.setstate [.eof], .setstate [.fail], .eof, .asBool, .clear [], .good] (init true) =
    .ok [.unit, .unit, .bool true, .bool false, .unit, .bool true] o := ⟨_, rfl⟩

example : ∀ i, 3 ≤ i → (fOr badbit failbit).getLsbD i = false := by
  intro i hi
  simp only [fOr, badbit, failbit, BitVec.getLsbD_or, bit_get _ _ (show 0 < 32 by omega),
    bit_get _ _ (show 2 < 32 by omega), Bool.or_eq_false_iff, decide_eq_false_iff_not]
  omega

end Cest.Stream.Flags
