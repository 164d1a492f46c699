import Verif.Str.Model
/-
Searching and comparing strings, counting the characters examined: the same statements as in `Model`, with counters.
`FindCostProps` shows that leaving out the counters gives back the functions of `Model`.

A test is one comparison of a character of the text with the first character of the needle inside
`traits_type::find`; a pair is one comparison of two characters inside `traits_type::compare`.  Both are functions of
the traits class (outside the repository); they are taken to go from left to right and to stop at the first
character that decides, as in `Model`.
-/
namespace Cest.Str
open Cest
variable {V : Type} [DecidableEq V]

/-- `traits_type::find(p + k, n, c)` with the number of tests. -/
def findCharC (p : Ptr V) (c : V) (k : Nat) : Nat → SM V (Option Nat × Nat)
  | 0 => pure (none, 0)
  | n+1 => do
    let a ← p.rd k
    if a = c then return (some k, 1)
    else do
      let r ← findCharC p c (k+1) n
      return (r.1, r.2 + 1)

/-- `traits_type::compare(p, q, n)` with the number of pairs. -/
def cmpCharsC (t : Traits V) (p q : Ptr V) (k : Nat) : Nat → SM V (Int × Nat)
  | 0 => pure (0, 0)
  | n+1 => do
    let a ← p.rd k
    let b ← q.rd k
    if t.lt a b then return (-1, 1)
    else if t.lt b a then return (1, 1)
    else do
      let r ← cmpCharsC t p q (k+1) n
      return (r.1, r.2 + 1)

/-- string.hpp:163-171 the search loop with the numbers of tests and pairs. -/
def findLoopC (t : Traits V) (p s : Ptr V) (c0 : V) (size count : Nat) :
    Nat → Nat → Nat → SM V (Option Nat × Nat × Nat)
  | 0, _, _ => M.timeout
  | fuel+1, first, len =>
    if len ≥ count then do
      let d ← findCharC p c0 first (len - count + 1)
      match d.1 with
      | none => return (none, d.2, 0)
      | some f =>
        let r ← cmpCharsC t (match p with
          | .ext a off => .ext a (off + f)
          | .cell q off => .cell q (off + f)) s 0 count
        if r.1 = 0 then return (some f, d.2, r.2)
        else do
          let q ← findLoopC t p s c0 size count fuel (f + 1) (size - (f + 1))
          return (q.1, d.2 + q.2.1, r.2 + q.2.2)
    else return (none, 0, 0)

/-- string.hpp:147-174 `find(s, pos, count)` with the numbers of tests and pairs. -/
def findPCC (t : Traits V) (x : Nat) (s : Ptr V) (pos count : Nat) : SM V (Option Nat × Nat × Nat) := do
  let o ← getObj x
  if count = 0 then return (if pos ≤ o.size then some pos else none, 0, 0)
  if pos ≥ o.size then return (none, 0, 0)
  let c0 ← s.rd 0
  findLoopC t (.cell o.p 0) s c0 o.size count (o.size + 1) pos (o.size - pos)

/-- string.hpp:267-277 `compare(const basic_string&)` with the number of pairs. -/
def compareCount (t : Traits V) (x y : Nat) : SM V (Int × Nat) := do
  let o ← getObj x
  let o2 ← getObj y
  let r ← cmpCharsC t (.cell o.p 0) (.cell o2.p 0) 0 (min o.size o2.size)
  if r.1 = 0 then return (sCompare o.size o2.size, r.2) else return r

/-- string.hpp:306-313 `operator==` for `char` with the number of pairs. -/
def eqCount (t : Traits V) (x y : Nat) : SM V (Bool × Nat) := do
  let o ← getObj x
  let o2 ← getObj y
  if o.size = o2.size then
    let r ← cmpCharsC t (.cell o.p 0) (.cell o2.p 0) 0 o.size
    return (r.1 == 0, r.2)
  else return (false, 0)

end Cest.Str
