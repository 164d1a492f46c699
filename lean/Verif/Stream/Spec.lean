import Verif.Stream.Types
/-
What a user of cest's input string streams and of fmemopen/fread may rely on.  A stream is a character
sequence with a position, a set of state bits, an exception mask and the count of the last transfer.
This file does not mention the model.
-/
namespace Cest.Stream

/-- Statements a program may perform.  Streams `x`, strings `y` and character arrays `a` are named by
numbers, each kind in its own name space.  Every statement that throws is wrapped in a `try` block. -/
inductive Op (V : Type) where
  | newArr (a : Nat) (l : List V)             -- char a[] = l;
  | vals (a : Nat)                            -- look at the contents of a
  | newStr (y a n : Nat)                      -- string y(a, n);
  | delStr (y : Nat)                          -- end of y's lifetime
  | newIS (x : Nat)                           -- istringstream x;
  | newISs (x y : Nat) (m : Mode)             -- istringstream x(y, m);
  | newSS (x : Nat)                           -- stringstream x;
  | newSSs (x y : Nat) (m : Mode)             -- stringstream x(y, m);
  | newNull (x : Nat)                         -- istream x(nullptr);
  | setStr (x y : Nat)                        -- x.str(y);
  | get (x a i : Nat)                         -- x.get(a[i]);
  | read (x a i n : Nat)                      -- x.read(a + i, n);
  | unget (x : Nat)
  | gcount (x : Nat)
  | clear (x : Nat) (s : Bits)
  | setstate (x : Nat) (s : Bits)
  | rdstate (x : Nat)
  | good (x : Nat)
  | eof (x : Nat)
  | fail (x : Nat)
  | bool (x : Nat)                            -- bool(x)
  | not (x : Nat)                             -- !x
  | mask (x : Nat)                            -- x.exceptions()
  | setMask (x : Nat) (s : Bits)              -- x.exceptions(s)
  | destroy (x : Nat)                         -- end of x's lifetime
  | fmemopen (x a n : Nat)                    -- FILE* x = fmemopen(a, n, "r");
  | fread (x a i n : Nat)                     -- fread(a + i, 1, n, x)
  | fclose (x : Nat)

/-- Observable results. -/
inductive Out (V : Type) where
  | unit
  | nat (n : Nat)
  | bool (b : Bool)
  | bits (b : Bits)
  | vals (l : List V)
  | failure                                   -- ios_failure was thrown
  deriving DecidableEq

/-- Abstract stream. -/
structure Strm (V : Type) where
  content : List V      -- what can be read
  pos : Nat             -- how much has been read
  state : Bits
  mask : Bits
  count : Nat           -- gcount()
  opened : Option Mode  -- none: a stream without buffer
  heap : Bool           -- made by fmemopen
  deriving DecidableEq

/-- Everything in scope. -/
structure Env (V : Type) where
  arr : Nat → Option (List V)
  str : Nat → Option (List V)
  strm : Nat → Option (Strm V)

def put {β : Type} (f : Nat → Option β) (x : Nat) (v : Option β) : Nat → Option β :=
  fun y => if y = x then v else f y

/-- Nothing in scope. -/
def Env.none {V : Type} : Env V := ⟨fun _ => .none, fun _ => .none, fun _ => .none⟩

/-- Some bit is common to both sets. -/
def meets (a b : Bits) : Bool := (a.bad && b.bad) || (a.eof && b.eof) || (a.fail && b.fail)

/-- The outcome of a statement that leaves the stream in state `s.state`: an exception is thrown exactly
if the mask contains one of its bits. -/
def outcome {V : Type} (s : Strm V) (o : Out V) : Out V := if meets s.mask s.state then .failure else o

/-- No bit is set. -/
def isGood (s : Bits) : Bool := !s.bad && !s.eof && !s.fail

section
variable {V : Type}

/-- The state after `clear(b)`: a stream without a buffer is always bad. -/
def cleared (s : Strm V) (b : Bits) : Strm V :=
  { s with state := if s.opened = none then ⟨true, b.eof, b.fail⟩ else b }

/-- A failed input operation on a stream that was not good. -/
def refused (s : Strm V) : Strm V := { s with state := ⟨s.state.bad, s.state.eof, true⟩, count := 0 }

/-- `get`: the new stream and the character, if one was transferred. -/
def getS (s : Strm V) : Strm V × Option V :=
  if isGood s.state then
    match s.content[s.pos]? with
    | some c => ({ s with pos := s.pos + 1, count := 1 }, some c)
    | none => ({ s with state := ⟨false, true, true⟩, count := 0 }, none)
  else (refused s, none)

/-- `read(n)`: the new stream and the characters transferred. -/
def readS (s : Strm V) (n : Nat) : Strm V × List V :=
  if isGood s.state then
    let l := (s.content.drop s.pos).take n
    ({ s with pos := s.pos + l.length, count := l.length,
              state := if l.length < n then ⟨false, true, true⟩ else s.state }, l)
  else (refused s, [])

/-- `unget`: forgets eofbit, and steps back if the stream is then good.  (If the remaining bits meet the
mask, the exception is thrown before anything else happens.) -/
def ungetS (s : Strm V) : Strm V :=
  let s1 := { s with state := ⟨s.state.bad, false, s.state.fail⟩, count := 0 }
  if meets s1.mask s1.state then s1
  else if isGood s1.state then
    if 0 < s1.pos then { s1 with pos := s1.pos - 1 } else { s1 with state := ⟨true, false, false⟩ }
  else { s1 with state := ⟨s.state.bad, false, true⟩ }

/-- Overwrite part of an array. -/
def blit (l : List V) (i : Nat) (w : List V) : List V := l.take i ++ w ++ l.drop (i + w.length)

/-- A new stream reading `l`, or nothing if it was not opened for input. -/
def fresh (l : List V) (m : Mode) (heap : Bool) : Strm V :=
  ⟨if m.inn then l else [], 0, ⟨false, false, false⟩, ⟨false, false, false⟩, 0, some m, heap⟩

variable [DecidableEq V] (nul : V)

/-- Meaning of one statement; `none` when the program violates a precondition of the interface (or, for
`str(y)`, when `y` contains a terminator: see C63). -/
def specStep (e : Env V) : Op V → Option (Env V × Out V)
  | .newArr a l => match e.arr a with
    | none => some ({ e with arr := put e.arr a (some l) }, .unit)
    | some _ => none
  | .vals a => match e.arr a with
    | some l => some (e, .vals l)
    | none => none
  | .newStr y a n => match e.str y, e.arr a with
    | none, some l => if n ≤ l.length then
        some ({ e with str := put e.str y (some (l.take n)) }, .unit) else none
    | _, _ => none
  | .delStr y => match e.str y with
    | some _ => some ({ e with str := put e.str y none }, .unit)
    | none => none
  | .newIS x => match e.strm x with
    | none => some ({ e with strm := put e.strm x (some (fresh [] ⟨true, false, false, false⟩ false)) },
        .unit)
    | some _ => none
  | .newISs x y m => match e.strm x, e.str y with
    | none, some l =>
      some ({ e with strm := put e.strm x (some (fresh l { m with inn := true } false)) }, .unit)
    | _, _ => none
  | .newSS x => match e.strm x with
    | none => some ({ e with strm := put e.strm x (some (fresh [] ⟨true, true, false, false⟩ false)) },
        .unit)
    | some _ => none
  | .newSSs x y m => match e.strm x, e.str y with
    | none, some l => some ({ e with strm := put e.strm x (some (fresh l m false)) }, .unit)
    | _, _ => none
  | .newNull x => match e.strm x with
    | none => some ({ e with strm := put e.strm x (some
        ⟨[], 0, ⟨true, false, false⟩, ⟨false, false, false⟩, 0, none, false⟩) }, .unit)
    | some _ => none
  | .setStr x y => match e.strm x, e.str y with
    | some s, some l => match s.opened with
      | some m => if nul ∈ l then none else
          some ({ e with strm := put e.strm x (some
            { s with content := if m.inn then l else [], pos := 0 }) }, .unit)
      | none => none
    | _, _ => none
  | .get x a i => match e.strm x, e.arr a with
    | some s, some l => if i < l.length then
        let r := getS s
        some ({ e with strm := put e.strm x (some r.1),
                       arr := put e.arr a (some (blit l i r.2.toList)) }, outcome r.1 .unit)
        else none
    | _, _ => none
  | .read x a i n => match e.strm x, e.arr a with
    | some s, some l => if i + n ≤ l.length then
        let r := readS s n
        some ({ e with strm := put e.strm x (some r.1), arr := put e.arr a (some (blit l i r.2)) },
          outcome r.1 .unit)
        else none
    | _, _ => none
  | .unget x => match e.strm x with
    | some s => let s' := ungetS s
      some ({ e with strm := put e.strm x (some s') }, outcome s' .unit)
    | none => none
  | .gcount x => match e.strm x with
    | some s => some (e, .nat s.count)
    | none => none
  | .clear x b => match e.strm x with
    | some s => let s' := cleared s b
      some ({ e with strm := put e.strm x (some s') }, outcome s' .unit)
    | none => none
  | .setstate x b => match e.strm x with
    | some s => let s' := { s with state :=
        ⟨s.state.bad || b.bad, s.state.eof || b.eof, s.state.fail || b.fail⟩ }
      some ({ e with strm := put e.strm x (some s') }, outcome s' .unit)
    | none => none
  | .rdstate x => match e.strm x with
    | some s => some (e, .bits s.state)
    | none => none
  | .good x => match e.strm x with
    | some s => some (e, .bool (isGood s.state))
    | none => none
  | .eof x => match e.strm x with
    | some s => some (e, .bool s.state.eof)
    | none => none
  | .fail x => match e.strm x with
    | some s => some (e, .bool (s.state.bad || s.state.fail))
    | none => none
  | .bool x => match e.strm x with
    | some s => some (e, .bool (!(s.state.bad || s.state.fail)))
    | none => none
  | .not x => match e.strm x with
    | some s => some (e, .bool (s.state.bad || s.state.fail))
    | none => none
  | .mask x => match e.strm x with
    | some s => some (e, .bits s.mask)
    | none => none
  | .setMask x b => match e.strm x with
    | some s => let s' := { s with mask := b }
      some ({ e with strm := put e.strm x (some s') }, outcome s' .unit)
    | none => none
  | .destroy x => match e.strm x with
    | some s => if s.heap then none else some ({ e with strm := put e.strm x none }, .unit)
    | none => none
  | .fmemopen x a n => match e.strm x, e.arr a with
    | none, some l => if n ≤ l.length then
        some ({ e with strm := put e.strm x (some
          (fresh (l.take n) ⟨true, true, false, false⟩ true)) }, .unit) else none
    | _, _ => none
  | .fread x a i n => match e.strm x, e.arr a with
    | some s, some l => if i + n ≤ l.length then
        let r := readS s n
        some ({ e with strm := put e.strm x (some r.1), arr := put e.arr a (some (blit l i r.2)) },
          outcome r.1 (.nat r.2.length))
        else none
    | _, _ => none
  | .fclose x => match e.strm x with
    | some s => if s.heap then some ({ e with strm := put e.strm x none }, .nat 0) else none
    | none => none

/-- Meaning of a program: final environment and the list of observations. -/
def specRun (e : Env V) : List (Op V) → Option (Env V × List (Out V))
  | [] => some (e, [])
  | op :: ops => match specStep nul e op with
    | none => none
    | some (e', o) => match specRun e' ops with
      | none => none
      | some (e'', os) => some (e'', o :: os)
end

end Cest.Stream
