import Verif.Str.Model
import Verif.Stream.Types
/-
Model of cest's input streams: basic_streambuf, basic_ios, basic_istream, basic_stringbuf,
basic_istringstream, basic_stringstream, and fmemopen/fread/fclose
(/repo/include/cest/{streambuf,ios_base,basic_ios,istream,sstream,cstdio}.hpp).

The string held by a basic_stringbuf is an object of the string model (Verif/Str/Model.lean): copying and
assigning it runs that model's member functions, and the get area points into its storage.

Simplifications: formatting fields (precision, width, flags, fill, locale facets) are not represented;
`tie()` is always null (basic_ios.hpp:177) and never set; the put area is represented, but nothing in the
headers reads it; `streamsize` counts are natural numbers; `_M_pbump` (sstream.hpp:106-119) adds the offset
in one step.  `try` blocks around stream buffer calls are omitted where the calls cannot throw.
-/
namespace Cest.Stream
open Cest

/-- What the streams need from `CharT` and `Traits`: besides `Str.Traits`, whether a character's
`to_int_type` equals `eof()` (never for `char`; true of `wchar_t(-1)`). -/
structure Traits (V : Type) extends Str.Traits V where
  eofLike : V → Bool

/-- A `char_type*` into string storage: null, or block and offset. -/
abbrev CP := Option (Nat × Nat)

/-- Data members of a stream object and of its stringbuf (streambuf.hpp:21-26, ios_base.hpp:182-183,
basic_ios.hpp:65,67, istream.hpp:28, sstream.hpp:33; `_M_string` is a separate object).  `rdbuf` says
whether `_M_streambuf` points to the stream's own stringbuf or is null; `heap` whether the object was made
by `new`. -/
structure Obj where
  inBeg : CP
  inCur : CP
  inEnd : CP
  outBeg : CP
  outCur : CP
  outEnd : CP
  mode : Mode
  exc : Bits
  state : Bits
  gcount : Nat
  rdbuf : Bool
  heap : Bool
  deriving DecidableEq, Repr

/-- Strings, stream objects, and the character arrays of the client program. -/
structure SSt (V : Type) where
  strs : Str.SSt V
  ios : Nat → Option Obj
  arr : Nat → Option (List V)

def SSt.init {V : Type} : SSt V := ⟨St.init, fun _ => none, fun _ => none⟩

abbrev SM (V : Type) := M (SSt V)

variable {V : Type} [DecidableEq V]

/-- Names of string objects: a temporary, the client's variables, the members of streams. -/
def tmpId : Nat := 0
def strId (y : Nat) : Nat := 2 * y + 1
def bufId (x : Nat) : Nat := 2 * x + 2

/-- Run a computation of the string model. -/
def lift {α : Type} (m : Str.SM V α) : SM V α := fun s =>
  match m s.strs with
  | .ok a s' => .ok a { s with strs := s' }
  | .throw e s' => .throw e { s with strs := s' }
  | .ub u => .ub u
  | .timeout => .timeout

def getIos (x : Nat) : SM V Obj := fun s =>
  match s.ios x with
  | some o => .ok o s
  | none => .ub .noObject

def setIos (x : Nat) (o : Obj) : SM V Unit := fun s =>
  match s.ios x with
  | some _ => .ok () { s with ios := upd s.ios x (some o) }
  | none => .ub .noObject

def newIos (x : Nat) (o : Obj) : SM V Unit := fun s =>
  match s.ios x with
  | none => .ok () { s with ios := upd s.ios x (some o) }
  | some _ => .ub .objectExists

def delIos (x : Nat) : SM V Unit := fun s =>
  match s.ios x with
  | some _ => .ok () { s with ios := upd s.ios x none }
  | none => .ub .noObject

/-- Definition of a client array. -/
def newArr (a : Nat) (l : List V) : SM V Unit := fun s =>
  match s.arr a with
  | none => .ok () { s with arr := upd s.arr a (some l) }
  | some _ => .ub .objectExists

def getArr (a : Nat) : SM V (List V) := fun s =>
  match s.arr a with
  | some l => .ok l s
  | none => .ub .noObject

/-- `a[i] = c` on a client array. -/
def putArr (a i : Nat) (c : V) : SM V Unit := fun s =>
  match s.arr a with
  | some l => if i < l.length then .ok () { s with arr := upd s.arr a (some (l.set i c)) } else .ub .oob
  | none => .ub .noObject

/-! ### Pointers -/

/-- `p + d`: must stay within the array (or one past its end). -/
def padd (p : CP) (d : Int) : SM V CP := fun s =>
  match p with
  | none => if d = 0 then .ok none s else .ub .null
  | some (b, o) =>
    match s.strs.mem b with
    | none => .ub .dangling
    | some blk =>
      if 0 ≤ (o : Int) + d ∧ (o : Int) + d ≤ blk.len then .ok (some (b, ((o : Int) + d).toNat)) s
      else .ub .oob

/-- `p < q`: only for pointers into the same array, or both null. -/
def plt (p q : CP) : SM V Bool :=
  match p, q with
  | none, none => pure false
  | some (b, o), some (b', o') => if b = b' then pure (decide (o < o')) else M.ub .precond
  | _, _ => M.ub .precond

/-- `q - p`. -/
def pdiff (q p : CP) : SM V Int :=
  match q, p with
  | none, none => pure 0
  | some (b, o), some (b', o') => if b = b' then pure ((o : Int) - (o' : Int)) else M.ub .precond
  | _, _ => M.ub .precond

/-- `*p`. -/
def pread (p : CP) : SM V V :=
  match p with
  | none => M.ub .null
  | some (b, o) => lift (load (some b) o)

/-! ### Bits -/

def Bits.none : Bits := ⟨false, false, false⟩
def Bits.badbit : Bits := ⟨true, false, false⟩
def Bits.eofbit : Bits := ⟨false, true, false⟩
def Bits.failbit : Bits := ⟨false, false, true⟩
/-- ios_base.hpp:111-137 `&`, `|` and `& ~`. -/
def Bits.and (a b : Bits) : Bits := ⟨a.bad && b.bad, a.eof && b.eof, a.fail && b.fail⟩
def Bits.or (a b : Bits) : Bits := ⟨a.bad || b.bad, a.eof || b.eof, a.fail || b.fail⟩
def Bits.minus (a b : Bits) : Bits := ⟨a.bad && !b.bad, a.eof && !b.eof, a.fail && !b.fail⟩

/-! ### basic_ios -/

/-- basic_ios.hpp:80-82 `rdstate()`. -/
def rdstate (x : Nat) : SM V Bits := do return (← getIos x).state

/-- basic_ios.hpp:147-164 `clear(s)`. -/
def clear (x : Nat) (s : Bits) : SM V Unit := do
  let o ← getIos x
  setIos x { o with state := if o.rdbuf then s else s.or Bits.badbit }
  let o ← getIos x
  if (o.exc.and o.state) ≠ Bits.none then M.throw .iosFailure

/-- basic_ios.hpp:86-88 `setstate(s)`. -/
def setstate (x : Nat) (s : Bits) : SM V Unit := do
  let r ← rdstate x
  clear x (r.or s)

/-- basic_ios.hpp:98-100 `good()`. -/
def good (x : Nat) : SM V Bool := do return (← rdstate x) = Bits.none
/-- basic_ios.hpp:102-104 `eof()`. -/
def eof (x : Nat) : SM V Bool := do return ((← rdstate x).and Bits.eofbit) ≠ Bits.none
/-- basic_ios.hpp:106-108 `fail()`. -/
def fail (x : Nat) : SM V Bool := do
  return ((← rdstate x).and (Bits.badbit.or Bits.failbit)) ≠ Bits.none
/-- basic_ios.hpp:73-74 `operator bool`. -/
def toBool (x : Nat) : SM V Bool := do return !(← fail x)
/-- basic_ios.hpp:76-78 `operator!`. -/
def not (x : Nat) : SM V Bool := fail x
/-- basic_ios.hpp:110-112 `exceptions()`. -/
def mask (x : Nat) : SM V Bits := do return (← getIos x).exc
/-- basic_ios.hpp:114-119 `exceptions(e)`. -/
def setMask (x : Nat) (e : Bits) : SM V Unit := do
  let o ← getIos x
  setIos x { o with exc := e }
  clear x o.state

/-- basic_ios.hpp:166-181 `init(sb)`. -/
def init (x : Nat) (sb : Bool) : SM V Unit := do
  let o ← getIos x
  setIos x { o with exc := Bits.none, rdbuf := sb, state := if sb then Bits.none else Bits.badbit }

/-! ### basic_streambuf -/

/-- streambuf.hpp:111-117 `setg`. -/
def setg (x : Nat) (b c e : CP) : SM V Unit := do
  let o ← getIos x
  setIos x { o with inBeg := b, inCur := c, inEnd := e }

/-- streambuf.hpp:121-125 `setp`. -/
def setp (x : Nat) (b e : CP) : SM V Unit := do
  let o ← getIos x
  setIos x { o with outBeg := b, outCur := b, outEnd := e }

/-- streambuf.hpp:119 `pbump`. -/
def pbump (x : Nat) (n : Int) : SM V Unit := do
  let o ← getIos x
  let p ← padd o.outCur n
  setIos x { o with outCur := p }

/-- streambuf.hpp:108-109 `gbump`, 148-149 `__safe_gbump`. -/
def gbump (x : Nat) (n : Int) : SM V Unit := do
  let o ← getIos x
  let p ← padd o.inCur n
  setIos x { o with inCur := p }

/-- `traits_type::to_int_type(c)`; `none` is `eof()`. -/
def toInt (t : Traits V) (c : V) : Option V := if t.eofLike c then none else some c

/-- streambuf.hpp:130-132 `underflow()` (not overridden by basic_stringbuf). -/
def underflow (_x : Nat) : SM V (Option V) := pure none

/-- streambuf.hpp:134-146 `uflow()`. -/
def uflow (t : Traits V) (x : Nat) : SM V (Option V) := do
  let r ← underflow x
  if r = none then return none
  else
    let o ← getIos x
    let c ← pread o.inCur
    gbump x 1
    return toInt t c

/-- streambuf.hpp:47-59 `sbumpc()`. -/
def sbumpc (t : Traits V) (x : Nat) : SM V (Option V) := do
  let o ← getIos x
  if ← plt o.inCur o.inEnd then
    let c ← pread o.inCur
    gbump x 1
    return toInt t c
  else uflow t x

/-- streambuf.hpp:61-70 `sgetc()`. -/
def sgetc (t : Traits V) (x : Nat) : SM V (Option V) := do
  let o ← getIos x
  if ← plt o.inCur o.inEnd then
    let c ← pread o.inCur
    return toInt t c
  else underflow x

/-- streambuf.hpp:184-186 `pbackfail()`. -/
def pbackfail (_x : Nat) : SM V (Option V) := pure none

/-- streambuf.hpp:76-88 `sungetc()`. -/
def sungetc (t : Traits V) (x : Nat) : SM V (Option V) := do
  let o ← getIos x
  if ← plt o.inBeg o.inCur then
    gbump x (-1)
    let o ← getIos x
    let c ← pread o.inCur
    return toInt t c
  else pbackfail x

/-- `traits_type::copy(a + i, p, n)` from string storage into a client array (they never overlap). -/
def copyOut (a i : Nat) (p : CP) (n : Nat) : SM V Unit :=
  forN (fun k => do
    let q ← padd p k
    let c ← pread q
    putArr a (i + k) c) 0 n

/-- streambuf.hpp:152-182 the loop of `xsgetn(a + i, n)`, entered with `__ret = ret`; returns the final
`__ret`.  `fuel` bounds the number of iterations. -/
def xsgetn (t : Traits V) (x a i n : Nat) : Nat → Nat → SM V Nat
  | 0, _ => M.timeout
  | fuel+1, ret =>
    if ret < n then do
      let o ← getIos x
      let len ← pdiff o.inEnd o.inCur
      let ret ← (if len ≠ 0 then do
          let m := min len ((n - ret : Nat) : Int)
          if m < 0 then M.ub .oob        -- a negative length would be converted to a huge size_t
          else
            copyOut a (i + ret) o.inCur m.toNat
            gbump x m
            return ret + m.toNat
        else return ret)
      if ret < n then
        match ← uflow t x with
        | some c => do
          putArr a (i + ret) c
          xsgetn t x a i n fuel (ret + 1)
        | none => return ret
      else xsgetn t x a i n fuel ret
    else return ret

/-- streambuf.hpp:72-74 `sgetn`. -/
def sgetn (t : Traits V) (x a i n : Nat) : SM V Nat := xsgetn t x a i n (n + 2) 0

/-! ### basic_istream -/

/-- `_M_gcount = n`. -/
def setGcount (x n : Nat) : SM V Unit := do
  let o ← getIos x
  setIos x { o with gcount := n }

/-- istream.hpp:43-45 `gcount()`. -/
def gcount (x : Nat) : SM V Nat := do return (← getIos x).gcount

/-- istream.hpp:89-148 `sentry(is, true)`; the result is `_M_ok`. -/
def sentry (x : Nat) : SM V Bool := do
  if ← good x then return true
  else
    setstate x Bits.failbit
    return false

/-- istream.hpp:89-148 `sentry(is, false)`, as compiled with libstdc++: the pointer `_M_ctype` is null
from construction on (basic_ios.hpp:123-124, 139-140; nothing sets it), so `__check_facet` throws, and the
handler runs `_M_setstate(badbit)` (basic_ios.hpp:90-96), which rethrows if the mask has badbit. -/
def sentryWs (t : Traits V) (x : Nat) : SM V Bool := do
  if ← good x then
    let _ ← sgetc t x
    let o ← getIos x
    setIos x { o with state := o.state.or Bits.badbit }
    if (o.exc.and Bits.badbit) ≠ Bits.none then M.throw .elem   -- std::bad_cast
  if ← good x then return true
  else
    setstate x Bits.failbit
    return false

/-- istream.hpp:150-188 `get(a[i])`. -/
def get (t : Traits V) (x a i : Nat) : SM V Unit := do
  setGcount x 0
  let err ← (do
    if ← sentry x then
      match ← sbumpc t x with
      | some c => do
        setGcount x 1
        putArr a i c
        return Bits.none
      | none => return Bits.eofbit
    else return Bits.none)
  let g ← gcount x
  let err := if g = 0 then err.or Bits.failbit else err
  if err ≠ Bits.none then setstate x err

/-- istream.hpp:190-226 `unget()`. -/
def unget (t : Traits V) (x : Nat) : SM V Unit := do
  setGcount x 0
  let r ← rdstate x
  clear x (r.minus Bits.eofbit)
  if ← sentry x then
    let o ← getIos x
    let bad : Bool ← (if o.rdbuf then do return decide ((← sungetc t x) = none) else return true)
    if bad then setstate x Bits.badbit

/-- istream.hpp:228-258 `read(a + i, n)`. -/
def read (t : Traits V) (x a i n : Nat) : SM V Unit := do
  setGcount x 0
  if ← sentry x then
    let g ← sgetn t x a i n
    setGcount x g
    if g ≠ n then setstate x (Bits.eofbit.or Bits.failbit)

/-! ### basic_stringbuf, string streams -/

/-- sstream.hpp:75-119 `_M_sync(base, i, o)` (only called with `base = _M_string.data()`, so the branch of
lines 85-91 is never taken). -/
def sync (x : Nat) (base : CP) (i o : Nat) : SM V Unit := do
  let sz ← lift (Str.size (bufId x))
  let cap ← lift (Str.capacity (bufId x))
  let endg ← padd base sz
  let endp ← padd base cap
  let cur ← padd base i
  let ob ← getIos x
  if ob.mode.inn then setg x base cur endg
  if ob.mode.out then
    setp x base endp
    pbump x o
    if !ob.mode.inn then setg x endg endg endg

/-- `_M_string.data()`. -/
def bufData (x : Nat) : SM V CP := do
  let o ← lift (getObj (bufId x))
  return o.p.map fun b => (b, 0)

/-- sstream.hpp:62-69 `_M_stringbuf_init(mode)`. -/
def stringbufInit (x : Nat) (m : Mode) : SM V Unit := do
  let o ← getIos x
  setIos x { o with mode := m }
  let len ← (if m.ate || m.app then lift (Str.size (bufId x)) else return 0)
  let base ← bufData x
  sync x base 0 len

/-- The object after `basic_istream()` and `basic_streambuf()` (istream.hpp:60-62, streambuf.hpp:91-95)
with openmode `m`. -/
def blank (m : Mode) (heap : Bool) : Obj :=
  ⟨none, none, none, none, none, none, m, Bits.none, Bits.badbit, 0, false, heap⟩

/-- sstream.hpp:140-142, 187-189 (with 42-45): string streams without a string. -/
def ctorMode (t : Traits V) (x : Nat) (m : Mode) (heap : Bool) : SM V Unit := do
  newIos x (blank m heap)
  M.onThrow (lift (Str.ctor t.toTraits (bufId x))) (delIos x)
  init x true

/-- sstream.hpp:145-149, 191-195 (with 47-52): string streams reading a copy of string object `y`. -/
def ctorStr (t : Traits V) (x y : Nat) (m : Mode) (heap : Bool) : SM V Unit := do
  newIos x (blank ⟨false, false, false, false⟩ heap)
  M.onThrow (lift (do
    let p ← Str.data y
    let n ← Str.size y
    Str.ctorPC t.toTraits (bufId x) p n)) (delIos x)
  stringbufInit x m
  init x true

/-- sstream.hpp:140-142 `istringstream x;`. -/
def newIS (t : Traits V) (x : Nat) : SM V Unit := ctorMode t x ⟨true, false, false, false⟩ false
/-- sstream.hpp:145-149 `istringstream x(y, m)`: `m | in`. -/
def newISs (t : Traits V) (x y : Nat) (m : Mode) : SM V Unit :=
  ctorStr t x (strId y) { m with inn := true } false
/-- sstream.hpp:187-189 `stringstream x;`. -/
def newSS (t : Traits V) (x : Nat) : SM V Unit := ctorMode t x ⟨true, true, false, false⟩ false
/-- sstream.hpp:191-195 `stringstream x(y, m)`. -/
def newSSs (t : Traits V) (x y : Nat) (m : Mode) : SM V Unit := ctorStr t x (strId y) m false
/-- istream.hpp:31-34 `istream x(nullptr)`. -/
def newNull (x : Nat) : SM V Unit := do
  newIos x (blank ⟨false, false, false, false⟩ false)
  init x false

/-- sstream.hpp:54-58, 159, 198 `x.str(y)`. -/
def setStr (t : Traits V) (x y : Nat) : SM V Unit := do
  lift (Str.assign t.toTraits (bufId x) (strId y))
  let o ← getIos x
  stringbufInit x o.mode

/-- Destructors (sstream.hpp:161, 200, istream.hpp:36-38): the stringbuf's string is released, if there is
one. -/
def dtor (x : Nat) : SM V Unit := do
  let o ← getIos x
  if o.rdbuf then lift (Str.dtor (bufId x))
  delIos x

/-- End of the lifetime of a stream variable (not one made by `new`). -/
def destroy (x : Nat) : SM V Unit := do
  let o ← getIos x
  if o.heap then M.ub .badFree else dtor x

/-- cstdio.hpp:69-72 `fmemopen(a, n, mode)`: storage for the stream is allocated, then the string is made, then the
stream. -/
def fmemopen (t : Traits V) (x a n : Nat) : SM V Unit := do
  let l ← getArr a
  lift (tick .badAlloc)
  lift (Str.ctorPC t.toTraits tmpId (.ext l 0) n)
  M.onThrow (ctorStr t x tmpId ⟨true, true, false, false⟩ true) (lift (Str.dtor tmpId))
  lift (Str.dtor tmpId)

/-- cstdio.hpp:79-85 `fread(a + i, size, count, x)`. -/
def fread (t : Traits V) (x a i size count : Nat) : SM V Nat := do
  if size ≠ 1 then M.ub .precond          -- assert
  else
    read t x a i (size * count)
    let g ← gcount x
    return g / size

/-- cstdio.hpp:87-91 `fclose(x)`. -/
def fclose (x : Nat) : SM V Nat := do
  let o ← getIos x
  if o.heap then
    dtor x
    return 0
  else M.ub .badFree

end Cest.Stream
