import Verif.Core.Mem
/-
Model of cest::basic_string  (/repo/include/cest/string.hpp).

Simplifications: the allocator member is stateless and omitted; characters are trivially copyable, so
constructing, copying and assigning them cannot throw and storage may be released without destroying
them; sizes are natural numbers except where the source relies on `size_type`/`difference_type`
conversions (`sCompare`).  There are no move members: `std::move` selects the copying ones.
-/
namespace Cest.Str
open Cest

/-- What the class needs from `CharT` and `Traits`: the terminator `CharT()`, `Traits::lt`, and whether
`Traits::copy` tolerates being called with identical source and destination ranges.  (The standard
forbids it, so `std::char_traits` has `copySame = false`; the usual `memcpy` does tolerate it.) -/
structure Traits (V : Type) where
  nul : V
  lt : V → V → Bool
  copySame : Bool

/-- Data members m_size, m_capacity, m_p (string.hpp:294-296). -/
structure Obj where
  size : Nat
  cap : Nat
  p : Option Nat
  deriving DecidableEq, Repr

abbrev SSt (V : Type) := St Obj (Blk V)
abbrev SM (V : Type) := M (SSt V)

/-- A `const CharT*`: into an array outside every string, or into storage on the heap. -/
inductive Ptr (V : Type) where
  | ext (a : List V) (off : Nat)
  | cell (p : Option Nat) (off : Nat)

variable {V : Type} [DecidableEq V]

/-- `p[k]`, read. -/
def Ptr.rd : Ptr V → Nat → SM V V
  | .ext a off, k => match a[off + k]? with
    | some c => pure c
    | none => M.ub .oob
  | .cell p off, k => load p (off + k)

/-- Number of characters from the pointer to the end of the array it points into (only bounds the
recursion of `length`: running off the end is undefined behaviour). -/
def Ptr.avail : Ptr V → SM V Nat
  | .ext a off => pure (a.length - off)
  | .cell p off => do
    let a ← deref p
    let b ← getC a
    return b.len - off

/-- `traits_type::assign(p[i], c)`: the slot must hold a live character. -/
def putc (p : Option Nat) (i : Nat) (c : V) : SM V Unit :=
  withSlot p i fun a b =>
    match b.slot i with
    | none => M.ub .deadRead
    | some _ => setC a { b with slot := upd b.slot i (some c) }

/-- `std::construct_at(&p[i])`: a value-initialised character. -/
def newc (t : Traits V) (p : Option Nat) (i : Nat) : SM V Unit :=
  withSlot p i fun a b => setC a { b with slot := upd b.slot i (some t.nul) }

/-- `m_alloc.deallocate(p, n)`; characters need not be destroyed.  Releasing a null pointer is taken
to be harmless, as it is in `operator delete` (string.hpp:95 does so for the first character of an input
range). -/
def freeChars (p : Option Nat) (n : Nat) : SM V Unit := fun s =>
  match p with
  | none => .ok () s
  | some a =>
    match s.mem a with
    | none => .ub .badFree
    | some b => if b.len ≠ n then .ub .badFree else .ok () { s with mem := upd s.mem a none }

/-- `allocate(n)` followed by the construction loop (string.hpp:44-46, 55-57, 91-93, 196-198, 227-229,
245-247). -/
def allocInit (t : Traits V) (n : Nat) : SM V Nat := do
  let a ← allocArr n
  forN (newc t (some a)) 0 n
  return a

/-- `traits_type::length(s)`: index of the first terminator. -/
def scan (t : Traits V) (p : Ptr V) (k : Nat) : Nat → SM V Nat
  | 0 => M.ub .oob
  | n+1 => do
    let c ← p.rd k
    if c = t.nul then return k else scan t p (k+1) n
def length (t : Traits V) (p : Ptr V) : SM V Nat := do
  let n ← p.avail
  scan t p 0 n

/-- Do `[d+i, d+i+n)` and `[s, s+n)` share characters? -/
def overlaps (d : Option Nat) (i : Nat) (s : Ptr V) (n : Nat) : Bool :=
  match s with
  | .ext _ _ => false
  | .cell q j => d = q && i < j + n && j < i + n

/-- Are they the same range? -/
def sameRange (d : Option Nat) (i : Nat) (s : Ptr V) : Bool :=
  match s with
  | .ext _ _ => false
  | .cell q j => d = q && i = j

/-- `traits_type::copy(d + i, s, n)`.  Overlapping ranges are undefined behaviour (except identical
ones if the traits tolerate them). -/
def copyChars (t : Traits V) (d : Option Nat) (i : Nat) (s : Ptr V) (n : Nat) : SM V Unit :=
  if overlaps d i s n && !(t.copySame && sameRange d i s) then M.ub .overlap
  else forN (fun k => do
    let c ← s.rd k
    putc d (i + k) c) 0 n

/-- `traits_type::compare(p, q, n)` (sign of the first difference). -/
def cmpChars (t : Traits V) (p q : Ptr V) (k : Nat) : Nat → SM V Int
  | 0 => pure 0
  | n+1 => do
    let a ← p.rd k
    let b ← q.rd k
    if t.lt a b then return -1
    else if t.lt b a then return 1
    else cmpChars t p q (k+1) n

/-- `traits_type::find(p + k, n, c)`, as an offset from `p`. -/
def findChar (p : Ptr V) (c : V) (k : Nat) : Nat → SM V (Option Nat)
  | 0 => pure none
  | n+1 => do
    let a ← p.rd k
    if a = c then return some k else findChar p c (k+1) n

/-- string.hpp:37-48 default constructor; it is `noexcept` (`std::allocator`'s default constructor is). -/
def ctor (t : Traits V) (x : Nat) : SM V Unit := M.noexcept do
  newObj x ⟨0, 0, none⟩
  let a ← allocInit t 2
  setObj x ⟨0, 1, some a⟩
  putc (some a) 0 t.nul

/-- string.hpp:50-60 `basic_string(s, count)`. -/
def ctorPC (t : Traits V) (x : Nat) (s : Ptr V) (count : Nat) : SM V Unit := do
  newObj x ⟨0, 0, none⟩
  M.onThrow (do
    let a ← allocInit t (count + 1 + 1)
    setObj x ⟨0, count + 1, some a⟩
    copyChars t (some a) 0 s count
    setObj x ⟨count, count + 1, some a⟩
    putc (some a) count t.nul) (delObj x)

/-- string.hpp:62-63 `basic_string(s)`. -/
def ctorC (t : Traits V) (x : Nat) (s : Ptr V) : SM V Unit := do
  let n ← length t s
  ctorPC t x s n

/-- string.hpp:120-121 `c_str()`, `data()`. -/
def data (y : Nat) : SM V (Ptr V) := do
  let o ← getObj y
  return .cell o.p 0

/-- string.hpp:65 copy constructor: goes through the C string. -/
def copyCtor (t : Traits V) (x y : Nat) : SM V Unit := do
  let s ← data y
  ctorC t x s

/-- string.hpp:79-83 first loop of the input-iterator constructor (capacity starts at 0, so it never
runs).  Returns the characters left and the length. -/
def inputLoop1 (p : Option Nat) (cap : Nat) : List V → Nat → SM V (List V × Nat)
  | [], len => pure ([], len)
  | c :: cs, len =>
    if len < cap then do
      putc p len c
      inputLoop1 p cap cs (len + 1)
    else pure (c :: cs, len)

/-- string.hpp:85-101 second loop; `cap` is the local `__capacity`.  Returns the final length. -/
def inputLoop2 (t : Traits V) (x : Nat) : List V → Nat → Nat → SM V Nat
  | [], len, _ => pure len
  | c :: cs, len, cap => do
    let cap' ← if len = cap then do
        let cap' := (len + 1) * 2
        let q ← allocInit t (cap' + 1)
        let o ← getObj x
        copyChars t (some q) 0 (.cell o.p 0) len
        freeChars o.p (o.cap + 1)
        setObj x { o with p := some q, cap := cap' }
        pure cap'
      else pure cap
    let o ← getObj x
    putc o.p len c
    inputLoop2 t x cs (len + 1) cap'

/-- string.hpp:67-104 `basic_string(first, last)` for input iterators; `cs` are the characters the
iterator range yields.  Not a delegating constructor: if it throws no destructor runs. -/
def ctorInput (t : Traits V) (x : Nat) (cs : List V) : SM V Unit := do
  newObj x ⟨0, 0, none⟩
  M.onThrow (do
    let o ← getObj x
    let (cs', len) ← inputLoop1 o.p o.cap cs 0
    let len ← inputLoop2 t x cs' len o.cap
    let o ← getObj x
    setObj x { o with size := len }
    putc o.p len t.nul) (delObj x)

/-- string.hpp:106 destructor. -/
def dtor (x : Nat) : SM V Unit := do
  let o ← getObj x
  freeChars o.p (o.cap + 1)
  delObj x

/-- string.hpp:110-111 `size`, `length`. -/
def size (x : Nat) : SM V Nat := do return (← getObj x).size
/-- string.hpp:112 `capacity`. -/
def capacity (x : Nat) : SM V Nat := do return (← getObj x).cap
/-- string.hpp:119 `empty`. -/
def empty (x : Nat) : SM V Bool := do return (← getObj x).size == 0
/-- string.hpp:123-124 `front`, read. -/
def front (x : Nat) : SM V V := do load (← getObj x).p 0
/-- string.hpp:125-126 `back`, read (`m_p[m_size-1]`; before the storage if the string is empty). -/
def back (x : Nat) : SM V V := do
  let o ← getObj x
  if o.size = 0 then M.ub .oob
  load o.p (o.size - 1)
/-- string.hpp:134-135 `operator[]`, read. -/
def get (x i : Nat) : SM V V := do load (← getObj x).p i
/-- string.hpp:134 `s[i] = c`. -/
def set (x i : Nat) (c : V) : SM V Unit := do putc (← getObj x).p i c

/-- string.hpp:113-118 traversal `begin() … end()`. -/
def collect (p : Option Nat) (i : Nat) : Nat → SM V (List V)
  | 0 => pure []
  | n+1 => do
    let v ← load p i
    let vs ← collect p (i+1) n
    return v :: vs
def toList (x : Nat) : SM V (List V) := do
  let o ← getObj x
  collect o.p 0 o.size

/-- string.hpp:128-130 `clear`. -/
def clear (t : Traits V) (x : Nat) : SM V Unit := do
  let o ← getObj x
  setObj x { o with size := 0 }
  putc o.p 0 t.nul

/-- string.hpp:131-133 `pop_back`; on an empty string `--m_size` wraps and the access is out of
range. -/
def popBack (t : Traits V) (x : Nat) : SM V Unit := do
  let o ← getObj x
  if o.size = 0 then M.ub .oob
  setObj x { o with size := o.size - 1 }
  putc o.p (o.size - 1) t.nul

/-- string.hpp:241-253 `reserve`. -/
def reserve (t : Traits V) (x n : Nat) : SM V Unit := do
  let o ← getObj x
  if n > o.cap then
    let q ← allocInit t (n + 1)
    copyChars t (some q) 0 (.cell o.p 0) (o.size + 1)
    freeChars o.p (o.cap + 1)
    setObj x { o with p := some q, cap := n }
  else pure ()

/-- string.hpp:180-185 `push_back(const value_type&)`: the referenced character is read after a
possible reallocation. -/
def pushBack (t : Traits V) (x : Nat) (r : Ptr V) : SM V Unit := do
  let o ← getObj x
  if o.size + 1 > o.cap then reserve t x (o.cap * 2)
  let o ← getObj x
  let c ← r.rd 0
  putc o.p o.size c
  setObj x { o with size := o.size + 1 }
  putc o.p (o.size + 1) t.nul

/-- string.hpp:217 `operator+=(CharT ch)`: `ch` is a local copy. -/
def plusEqCh (t : Traits V) (x : Nat) (c : V) : SM V Unit := pushBack t x (.ext [c] 0)

/-- string.hpp:187-209 `append(s, count)`. -/
def append (t : Traits V) (x : Nat) (s : Ptr V) (count : Nat) : SM V Unit := do
  let o ← getObj x
  let len := count + o.size
  if len ≤ o.cap then
    if count ≠ 0 then copyChars t o.p o.size s count
  else
    let q ← allocInit t (len + 1)
    copyChars t (some q) 0 (.cell o.p 0) o.size
    copyChars t (some q) o.size s count
    freeChars o.p (o.cap + 1)
    setObj x ⟨len, len, some q⟩
  let o ← getObj x
  setObj x { o with size := len }
  putc o.p len t.nul

/-- string.hpp:210-216 `append(str)`, `operator+=(str)`. -/
def appendStr (t : Traits V) (x y : Nat) : SM V Unit := do
  let o ← getObj y
  append t x (.cell o.p 0) o.size

/-- string.hpp:219-235 `operator=(const CharT*)`. The old buffer is released before the new one is
allocated and before `s` is copied. -/
def assignC (t : Traits V) (x : Nat) (s : Ptr V) : SM V Unit := do
  let count ← length t s
  let o ← getObj x
  if o.cap < count + 1 then
    freeChars o.p (o.cap + 1)
    setObj x { o with cap := count + 1 }
    let q ← allocInit t (count + 1 + 1)
    setObj x { o with cap := count + 1, p := some q }
  let o ← getObj x
  copyChars t o.p 0 s (count + 1)
  setObj x { o with size := count }

/-- string.hpp:237-239 `operator=(const basic_string&)`. -/
def assign (t : Traits V) (x y : Nat) : SM V Unit := do
  let s ← data y
  assignC t x s

/-- string.hpp:163-171 the search loop; `first` is an offset from `data()`.  `fuel` bounds the number
of iterations. -/
def findLoop (t : Traits V) (p s : Ptr V) (c0 : V) (size count : Nat) :
    Nat → Nat → Nat → SM V (Option Nat)
  | 0, _, _ => M.timeout
  | fuel+1, first, len =>
    if len ≥ count then do
      match ← findChar p c0 first (len - count + 1) with
      | none => return none
      | some f =>
        let r ← cmpChars t (match p with
          | .ext a off => .ext a (off + f)
          | .cell q off => .cell q (off + f)) s 0 count
        if r = 0 then return some f
        else findLoop t p s c0 size count fuel (f + 1) (size - (f + 1))
    else return none

/-- string.hpp:147-174 `find(s, pos, count)`; `none` is `npos`. -/
def findPC (t : Traits V) (x : Nat) (s : Ptr V) (pos count : Nat) : SM V (Option Nat) := do
  let o ← getObj x
  if count = 0 then return (if pos ≤ o.size then some pos else none)
  if pos ≥ o.size then return none
  let c0 ← s.rd 0
  findLoop t (.cell o.p 0) s c0 o.size count (o.size + 1) pos (o.size - pos)

/-- string.hpp:176-178 `find(s, pos)`. -/
def findC (t : Traits V) (x : Nat) (s : Ptr V) (pos : Nat) : SM V (Option Nat) := do
  let n ← length t s
  findPC t x s pos n

/-- string.hpp:137-140 `find(str, pos)`: goes through the C string. -/
def findStr (t : Traits V) (x y pos : Nat) : SM V (Option Nat) := do
  let s ← data y
  findC t x s pos

/-- string.hpp:142-145 `find(ch, pos)`: `pos` is ignored. -/
def findCh (x : Nat) (c : V) (_pos : Nat) : SM V (Option Nat) := do
  let o ← getObj x
  findChar (.cell o.p 0) c 0 o.size

/-- `difference_type(n1 - n2)`: subtraction modulo 2^64, read as a signed number. -/
def sizeDiff (n1 n2 : Nat) : Int :=
  let u : Int := ((n1 : Int) - (n2 : Int)) % 2^64
  if u < 2^63 then u else u - 2^64

/-- string.hpp:281-291 `_S_compare`. -/
def sCompare (n1 n2 : Nat) : Int :=
  let d := sizeDiff n1 n2
  if d > 2^31 - 1 then 2^31 - 1
  else if d < -2^31 then -2^31
  else d

/-- string.hpp:255-265 `compare(const CharT*)`. -/
def compareC (t : Traits V) (x : Nat) (s : Ptr V) : SM V Int := do
  let o ← getObj x
  let osize ← length t s
  let r ← cmpChars t (.cell o.p 0) s 0 (min o.size osize)
  if r = 0 then return sCompare o.size osize else return r

/-- string.hpp:267-277 `compare(const basic_string&)`. -/
def compare (t : Traits V) (x y : Nat) : SM V Int := do
  let o ← getObj x
  let oy ← getObj y
  let r ← cmpChars t (.cell o.p 0) (.cell oy.p 0) 0 (min o.size oy.size)
  if r = 0 then return sCompare o.size oy.size else return r

/-- string.hpp:299-304 `operator==` (any character type). -/
def eqGen (t : Traits V) (x y : Nat) : SM V Bool := do return (← compare t x y) == 0

/-- string.hpp:306-313 `operator==` for `char`. -/
def eq (t : Traits V) (x y : Nat) : SM V Bool := do
  let o ← getObj x
  let oy ← getObj y
  if o.size = oy.size then
    return (← cmpChars t (.cell o.p 0) (.cell oy.p 0) 0 o.size) == 0
  else return false

/-- string.hpp:314-324 `operator==` with a C string on either side. -/
def eqC (t : Traits V) (x : Nat) (s : Ptr V) : SM V Bool := do return (← compareC t x s) == 0

/-- string.hpp:326-331 `operator!=`. -/
def ne (t : Traits V) (x y : Nat) : SM V Bool := do return !(← eq t x y)

/-- string.hpp:333-343 `operator!=` with a C string on either side. -/
def neC (t : Traits V) (x : Nat) (s : Ptr V) : SM V Bool := do return !(← eqC t x s)

/-- string.hpp:345-350 `operator<`. -/
def lt (t : Traits V) (x y : Nat) : SM V Bool := do return (← compare t x y) < 0

/-- string.hpp:352-356 `operator<(str, s)`. -/
def ltC (t : Traits V) (x : Nat) (s : Ptr V) : SM V Bool := do return (← compareC t x s) < 0

/-- string.hpp:358-362 `operator<(s, str)`. -/
def cLt (t : Traits V) (s : Ptr V) (x : Nat) : SM V Bool := do return (← compareC t x s) > 0

end Cest.Str
