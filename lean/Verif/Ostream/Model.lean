import Verif.Ostream.Std
import Verif.Stream.Types
/-
Model of the output side: /repo/include/cest/ostream.hpp, runtime_ostream.hpp, iostream.hpp, the `printf`
and `fprintf` parts of cstdio.hpp, `operator<<` for strings (string.hpp) and the manipulators of
ios_base.hpp.  `operator<<(long)` is not modelled: it constructs a `sentry` (ostream.hpp:121-122) whose
constructor is never defined.  Characters are Lean's `Char`; only the terminator, the percent sign and the
digits matter.
-/
namespace Cest.Ostream
open Cest
open Cest.Stream (Bits)

/-- Data members of a `cest::ostream` (basic_ios.hpp:60-63, ios_base.hpp:180-184): whether it has a buffer,
its state bits and its exception mask. -/
structure OS where
  rdbuf : Bool
  state : Bits
  exc : Bits
  deriving DecidableEq, Repr

/-- The world: cest's stream objects and the storage that character pointers point to; the three standard
streams (0: `std::cout`, which is also where `std::printf` writes; 1: `std::cerr`; 2: `std::clog`);
and whether `std::is_constant_evaluated()`. -/
structure W where
  st : St OS (Blk Char)
  out : Nat → Std
  ce : Bool

abbrev OM := M W

/-- Addresses of `cest::cout`, `cest::cerr`, `cest::clog` (iostream.hpp:17-19). -/
def coutId : Nat := 0
def cerrId : Nat := 1
def clogId : Nat := 2

def lift {α : Type} (m : M (St OS (Blk Char)) α) : OM α := fun w =>
  match m w.st with
  | .ok a s => .ok a { w with st := s }
  | .throw e s => .throw e { w with st := s }
  | .ub u => .ub u
  | .timeout => .timeout

/-- `std::is_constant_evaluated()`. -/
def constEval : OM Bool := fun w => .ok w.ce w

/-- An insertion into standard stream `k`. -/
def std (k : Nat) (f : Std → Std) : OM Unit := fun w => .ok () { w with out := upd w.out k (f (w.out k)) }

/-- A `const char*`: null, or block and offset. -/
abbrev CP := Option (Nat × Nat)

/-- The characters of a block from offset `i` up to the terminator, `n` being the number of characters left
in the block. -/
def scan (b : Blk Char) (i : Nat) : Nat → OM (List Char)
  | 0 => M.ub .oob
  | n+1 =>
    match b.slot i with
    | none => M.ub .deadRead
    | some c => if c = '\x00' then pure [] else do return c :: (← scan b (i+1) n)

/-- The C string at `p`, as read by the standard library. -/
def cString (p : CP) : OM (List Char) :=
  match p with
  | none => M.ub .null
  | some (a, i) => do
    let b ← lift (getC a)
    scan b i (b.len - i)

/-! ### basic_ios -/

/-- basic_ios.hpp:147-164 `clear(s)`. -/
def clear (x : Nat) (s : Bits) : OM Unit := do
  let o ← lift (getObj x)
  let st : Bits := if o.rdbuf then s else ⟨true, s.eof, s.fail⟩
  lift (setObj x { o with state := st })
  if (o.exc.bad && st.bad) || (o.exc.eof && st.eof) || (o.exc.fail && st.fail) then M.throw .iosFailure

/-- basic_ios.hpp:86-88 `setstate(s)`. -/
def setstate (x : Nat) (s : Bits) : OM Unit := do
  let o ← lift (getObj x)
  clear x ⟨o.state.bad || s.bad, o.state.eof || s.eof, o.state.fail || s.fail⟩

/-- basic_ios.hpp:114-119 `exceptions(e)`. -/
def exceptions (x : Nat) (e : Bits) : OM Unit := do
  let o ← lift (getObj x)
  lift (setObj x { o with exc := e })
  clear x o.state

/-- ostream.hpp:32-34 `basic_ostream(sb)` through basic_ios.hpp:166-181 `init`. -/
def ctor (x : Nat) (sb : Bool) : OM Unit :=
  lift (newObj x ⟨sb, if sb then ⟨false, false, false⟩ else ⟨true, false, false⟩, ⟨false, false, false⟩⟩)

/-- ostream.hpp:36-37 `~basic_ostream()`. -/
def dtor (x : Nat) : OM Unit := lift (delObj x)

/-! ### runtime_ostream -/

/-- runtime_ostream.hpp:11-20 and 23-36 `impl::runtime_ostream(os, v)`.  `f` is the insertion of `v`; for
a character pointer it reads the string. -/
def runtimeOstream (x : Nat) (f : OM (Std → Std)) : OM Unit := do
  if !(← constEval) then
    if coutId = x then std 0 (← f)
    else if cerrId = x then std 1 (← f)
    else if clogId = x then std 2 (← f)

/-! ### insertion operators; all need the stream to exist -/

/-- ostream.hpp:65-68 `operator<<(int)`. -/
def putInt (x : Nat) (n : Int32) : OM Unit := do
  let _ ← lift (getObj x)
  runtimeOstream x (pure (Std.int n))

/-- ostream.hpp:70-73 `operator<<(unsigned int)`. -/
def putUint (x : Nat) (n : UInt32) : OM Unit := do
  let _ ← lift (getObj x)
  runtimeOstream x (pure (Std.uint n))

/-- ostream.hpp:89-95 `operator<<(os, ch)`. -/
def putChar (x : Nat) (c : Char) : OM Unit := do
  let _ ← lift (getObj x)
  runtimeOstream x (pure (Std.puts [c]))

/-- ostream.hpp:97-103 `operator<<(os, s)`. -/
def putCstr (x : Nat) (p : CP) : OM Unit := do
  let _ ← lift (getObj x)
  runtimeOstream x (do return Std.puts (← cString p))

/-- A string's storage seen through `c_str()`: its characters and a terminator (C39). -/
def strBlk (l : List Char) : Blk Char := ⟨l.length + 1, fun i => (l ++ ['\x00'])[i]?⟩

/-- string.hpp:364-372 `operator<<(os, str)`, `str` having the characters `l`: the standard stream reads
`str.c_str()`. -/
def putStr (x : Nat) (l : List Char) : OM Unit := do
  let _ ← lift (getObj x)
  runtimeOstream x (do return Std.puts (← scan (strBlk l) 0 (strBlk l).len))

/-- ostream.hpp:105-111 `endl`, applied by ostream.hpp:43-46. -/
def putEndl (x : Nat) : OM Unit := do
  let _ ← lift (getObj x)
  runtimeOstream x (pure Std.endl)

/-- ios_base.hpp:202-204 `dec`, `hex`, `oct`: they return their argument. -/
def manip (_b : Base) (_x : Nat) : OM Unit := pure ()

/-- ostream.hpp:54-59 `operator<<(ios_base& (*pf)(ios_base&))`. -/
def putManip (x : Nat) (b : Base) : OM Unit := do
  let _ ← lift (getObj x)
  manip b x

/-- streambuf.hpp:127-128 `sync()`. -/
def sync : OM Int := pure 0
/-- streambuf.hpp:34-35 `pubsync()`. -/
def pubsync : OM Int := sync

/-- ostream.hpp:144-168 `flush()`; nothing called inside the `try` block throws. -/
def flush (x : Nat) : OM Unit := do
  let o ← lift (getObj x)
  let err ← (if o.rdbuf then do return (← pubsync) == -1 else return false)
  if err then setstate x ⟨true, false, false⟩

/-! ### printf and fprintf -/

variable {A : Type}

/-- `std::printf(fmt, args...)`: writes to standard output and returns the number of characters, or a
negative number on error. -/
def stdPrintf (r : Option (List Char)) : OM Int :=
  match r with
  | none => pure (-1)
  | some l => do
    std 0 (Std.puts l)
    return l.length

/-- cstdio.hpp:21-29 `printf(format)`. -/
def printf0 (p : CP) : OM Int := do
  if !(← constEval) then
    let l ← cString p
    stdPrintf (some l)
  else return 0

/-- cstdio.hpp:31-40 `printf(format, xs...)`. -/
def printf (fmt : Fmt A) (p : CP) (xs : List A) : OM Int := do
  if !(← constEval) then
    let f ← cString p
    stdPrintf (fmt f xs)
  else return 0

/-- cstdio.hpp:42-50 `fprintf(stream, format)`. -/
def fprintf0 (stream : Option Nat) (p : CP) : OM Int := do
  if !(← constEval) then
    let x ← deref stream
    putCstr x p
  return 0

/-- `std::snprintf(buf, n, format, xs...)`: the length of the full text, or a negative number; at most
`n - 1` characters and a terminator are written. -/
def snprintf (fmt : Fmt A) (buf : Option Nat) (n : Nat) (p : CP) (xs : List A) : OM Int := do
  let f ← cString p
  match fmt f xs with
  | none => return -1
  | some l =>
    if n ≠ 0 then
      let a ← deref buf
      let b ← lift (getC a)
      let t := l.take (n - 1) ++ ['\x00']
      if t.length ≤ b.len then
        lift (setC a { b with slot := fun i => if i < t.length then t[i]? else b.slot i })
      else M.ub .oob
    return l.length

/-- cstdio.hpp:53-67 `fprintf(stream, format, xs...)`. -/
def fprintf (fmt : Fmt A) (stream : Option Nat) (p : CP) (xs : List A) : OM Int := do
  if !(← constEval) then
    let nbytes ← snprintf fmt none 0 p xs
    let psz ← lift (allocArr (nbytes + 1).toNat)
    let _ ← snprintf fmt (some psz) (nbytes + 1).toNat p xs
    let x ← deref stream
    putCstr x (some (psz, 0))
    lift (freeC psz)
    return nbytes
  else return 0

/-- cstdio.hpp:17-18 `stdout`, `stderr`. -/
def stdoutPtr : Option Nat := some coutId
def stderrPtr : Option Nat := some cerrId

end Cest.Ostream
