/-
What a user of cest::basic_string may rely on: variables hold mathematical character sequences.
This file does not mention the model.
-/
namespace Cest.Str

/-- `const CharT*` arguments a program can form: into an array of its own, or `y.c_str() + off`. -/
inductive Arg (V : Type) where
  | ext (a : List V) (off : Nat)
  | str (y off : Nat)

/-- Operations a program may perform on string variables (named by numbers). -/
inductive Op (V : Type) where
  | new (x : Nat)                                  -- string x;
  | newPC (x : Nat) (s : Arg V) (count : Nat)      -- string x(s, count);
  | newC (x : Nat) (s : Arg V)                     -- string x(s);
  | newCopy (x y : Nat)                            -- string x(y);
  | newInput (x : Nat) (cs : List V)               -- string x(first, last);   input iterators
  | assignC (x : Nat) (s : Arg V)                  -- x = s;
  | assign (x y : Nat)                             -- x = y;
  | append (x : Nat) (s : Arg V) (count : Nat)     -- x.append(s, count);
  | appendStr (x y : Nat)                          -- x.append(y);  x += y;
  | pushBack (x : Nat) (c : V)                     -- x.push_back(c);
  | pushBackFrom (x y i : Nat)                     -- x.push_back(y[i]);
  | plusEqCh (x : Nat) (c : V)                     -- x += c;
  | popBack (x : Nat)
  | reserve (x n : Nat)
  | clear (x : Nat)
  | set (x i : Nat) (c : V)                        -- x[i] = c;
  | destroy (x : Nat)
  | size (x : Nat)
  | empty (x : Nat)
  | get (x i : Nat)                                -- x[i]
  | front (x : Nat)
  | back (x : Nat)
  | toList (x : Nat)                               -- iterate begin..end
  | findPC (x : Nat) (s : Arg V) (pos count : Nat) -- x.find(s, pos, count)
  | findC (x : Nat) (s : Arg V) (pos : Nat)        -- x.find(s, pos)
  | findStr (x y pos : Nat)                        -- x.find(y, pos)
  | findCh (x : Nat) (c : V)                       -- x.find(c)
  | compare (x y : Nat)                            -- sign of x.compare(y)
  | compareC (x : Nat) (s : Arg V)                 -- sign of x.compare(s)
  | eq (x y : Nat)                                 -- x == y
  | eqGen (x y : Nat)                              -- x == y  (character types other than char)
  | eqC (x : Nat) (s : Arg V)                      -- x == s,  s == x
  | neC (x : Nat) (s : Arg V)                      -- x != s,  s != x
  | ne (x y : Nat)                                 -- x != y
  | lt (x y : Nat)                                 -- x < y
  | ltC (x : Nat) (s : Arg V)                      -- x < s
  | cLt (s : Arg V) (x : Nat)                      -- s < x

/-- Observable results. -/
inductive Out (V : Type) where
  | unit
  | nat (n : Nat)
  | bool (b : Bool)
  | val (v : V)
  | vals (vs : List V)
  | idx (i : Option Nat)       -- position or npos
  | ord (o : Ordering)         -- sign of compare

/-- Variables in scope and their contents. -/
abbrev Env (V : Type) := Nat → Option (List V)

def Env.set {V : Type} (e : Env V) (x : Nat) (v : Option (List V)) : Env V :=
  fun y => if y = x then v else e y

/-- No variables in scope. -/
def Env.none {V : Type} : Env V := fun _ => Option.none

/-- Does the argument point into `x`'s own characters? -/
def Arg.into {V : Type} (x : Nat) : Arg V → Bool
  | .ext _ _ => false
  | .str y _ => y = x

/-- Least position `i ≥ pos` at which `needle` occurs in `hay`. -/
def firstMatch {V : Type} [DecidableEq V] (hay needle : List V) (pos : Nat) : Option Nat :=
  (List.range (hay.length + 1)).find? fun i => decide (pos ≤ i) && needle.isPrefixOf (hay.drop i)

/-- Least position of a character. -/
def firstChar {V : Type} [DecidableEq V] (hay : List V) (c : V) : Option Nat :=
  (List.range hay.length).find? fun i => hay[i]? = some c

/-- Lexicographic comparison. -/
def lexCmp {V : Type} (lt : V → V → Bool) : List V → List V → Ordering
  | [], [] => .eq
  | [], _ :: _ => .lt
  | _ :: _, [] => .gt
  | a :: as, b :: bs => if lt a b then .lt else if lt b a then .gt else lexCmp lt as bs

/-- Longest object size (PTRDIFF_MAX): no string is longer on any implementation. -/
def maxLen : Nat := 2^63

section
variable {V : Type} [DecidableEq V] (nul : V) (lt : V → V → Bool)

/-- Characters readable from an argument pointer up to the end of its array / the terminator. -/
def view (e : Env V) : Arg V → Option (List V)
  | .ext a off => if off ≤ a.length then some (a.drop off) else none
  | .str y off => match e y with
    | some ys => if off ≤ ys.length then some ((ys ++ [nul]).drop off) else none
    | none => none

/-- The C string an argument denotes: the characters before the first terminator. -/
def cstr (e : Env V) (s : Arg V) : Option (List V) :=
  match view nul e s with
  | some v => if nul ∈ v then some (v.takeWhile (· ≠ nul)) else none
  | none => none

/-- `count` characters read through an argument pointer. -/
def chars (e : Env V) (s : Arg V) (count : Nat) : Option (List V) :=
  match view nul e s with
  | some v => if count ≤ v.length then some (v.take count) else none
  | none => none

/-- Meaning of one operation; `none` when the program violates a precondition of the interface, or
leaves the class of programs for which the header is claimed to work:
* copying (constructor, assignment, `find(str)`) only of strings without embedded terminators,
* no assignment of a string, or a pointer into it, to itself,
* `push_back` of a character of another string only,
* a non-empty range for the input-iterator constructor,
* a source range within `x`'s own characters for `x.append`. -/
def specStep (e : Env V) : Op V → Option (Env V × Out V)
  | .new x => match e x with
    | none => some (e.set x (some []), .unit)
    | some _ => none
  | .newPC x s count => match e x, chars nul e s count with
    | none, some cs => some (e.set x (some cs), .unit)
    | _, _ => none
  | .newC x s => match e x, cstr nul e s with
    | none, some cs => some (e.set x (some cs), .unit)
    | _, _ => none
  | .newCopy x y => match e x, e y with
    | none, some ys => if nul ∈ ys then none else some (e.set x (some ys), .unit)
    | _, _ => none
  | .newInput x cs => match e x with
    | none => if cs = [] then none else some (e.set x (some cs), .unit)
    | some _ => none
  | .assignC x s => match e x, cstr nul e s with
    | some _, some cs => if s.into x then none else some (e.set x (some cs), .unit)
    | _, _ => none
  | .assign x y => match e x, e y with
    | some _, some ys => if nul ∈ ys ∨ x = y then none else some (e.set x (some ys), .unit)
    | _, _ => none
  | .append x s count => match e x, chars nul e s count with
    | some xs, some cs => match s with
      | .ext _ _ => some (e.set x (some (xs ++ cs)), .unit)
      | .str y off => if y = x ∧ xs.length < off + count then none
          else some (e.set x (some (xs ++ cs)), .unit)
    | _, _ => none
  | .appendStr x y => match e x, e y with
    | some xs, some ys => some (e.set x (some (xs ++ ys)), .unit)
    | _, _ => none
  | .pushBack x c => match e x with
    | some xs => some (e.set x (some (xs ++ [c])), .unit)
    | none => none
  | .pushBackFrom x y i => match e x, e y with
    | some xs, some ys => if x = y then none else
      match ys[i]? with
      | some c => some (e.set x (some (xs ++ [c])), .unit)
      | none => none
    | _, _ => none
  | .plusEqCh x c => match e x with
    | some xs => some (e.set x (some (xs ++ [c])), .unit)
    | none => none
  | .popBack x => match e x with
    | some xs => if xs = [] then none else some (e.set x (some xs.dropLast), .unit)
    | none => none
  | .reserve x _ => match e x with
    | some _ => some (e, .unit)
    | none => none
  | .clear x => match e x with
    | some _ => some (e.set x (some []), .unit)
    | none => none
  | .set x i c => match e x with
    | some xs => if i < xs.length then some (e.set x (some (xs.set i c)), .unit) else none
    | none => none
  | .destroy x => match e x with
    | some _ => some (e.set x none, .unit)
    | none => none
  | .size x => match e x with
    | some xs => some (e, .nat xs.length)
    | none => none
  | .empty x => match e x with
    | some xs => some (e, .bool xs.isEmpty)
    | none => none
  | .get x i => match e x with
    | some xs => match (xs ++ [nul])[i]? with
      | some v => some (e, .val v)
      | none => none
    | none => none
  | .front x => match e x with
    | some xs => match xs.head? with
      | some v => some (e, .val v)
      | none => none
    | none => none
  | .back x => match e x with
    | some xs => match xs.getLast? with
      | some v => some (e, .val v)
      | none => none
    | none => none
  | .toList x => match e x with
    | some xs => some (e, .vals xs)
    | none => none
  | .findPC x s pos count => match e x, chars nul e s count with
    | some xs, some cs => some (e, .idx (firstMatch xs cs pos))
    | _, _ => none
  | .findC x s pos => match e x, cstr nul e s with
    | some xs, some cs => some (e, .idx (firstMatch xs cs pos))
    | _, _ => none
  | .findStr x y pos => match e x, e y with
    | some xs, some ys => if nul ∈ ys then none else some (e, .idx (firstMatch xs ys pos))
    | _, _ => none
  | .findCh x c => match e x with
    | some xs => some (e, .idx (firstChar xs c))
    | none => none
  | .compare x y => match e x, e y with
    | some xs, some ys => if xs.length < maxLen ∧ ys.length < maxLen then
        some (e, .ord (lexCmp lt xs ys)) else none
    | _, _ => none
  | .compareC x s => match e x, cstr nul e s with
    | some xs, some cs => if xs.length < maxLen ∧ cs.length < maxLen then
        some (e, .ord (lexCmp lt xs cs)) else none
    | _, _ => none
  | .eq x y => match e x, e y with
    | some xs, some ys => some (e, .bool (decide (xs = ys)))
    | _, _ => none
  | .eqGen x y => match e x, e y with
    | some xs, some ys => if xs.length < maxLen ∧ ys.length < maxLen then
        some (e, .bool (decide (xs = ys))) else none
    | _, _ => none
  | .eqC x s => match e x, cstr nul e s with
    | some xs, some cs => if xs.length < maxLen ∧ cs.length < maxLen then
        some (e, .bool (decide (xs = cs))) else none
    | _, _ => none
  | .neC x s => match e x, cstr nul e s with
    | some xs, some cs => if xs.length < maxLen ∧ cs.length < maxLen then
        some (e, .bool (decide (xs ≠ cs))) else none
    | _, _ => none
  | .ne x y => match e x, e y with
    | some xs, some ys => some (e, .bool (decide (xs ≠ ys)))
    | _, _ => none
  | .lt x y => match e x, e y with
    | some xs, some ys => if xs.length < maxLen ∧ ys.length < maxLen then
        some (e, .bool (lexCmp lt xs ys == .lt)) else none
    | _, _ => none
  | .ltC x s => match e x, cstr nul e s with
    | some xs, some cs => if xs.length < maxLen ∧ cs.length < maxLen then
        some (e, .bool (lexCmp lt xs cs == .lt)) else none
    | _, _ => none
  | .cLt s x => match e x, cstr nul e s with
    | some xs, some cs => if xs.length < maxLen ∧ cs.length < maxLen then
        some (e, .bool (lexCmp lt cs xs == .lt)) else none
    | _, _ => none

/-- Meaning of a history: final environment and the list of observations. -/
def specRun (e : Env V) : List (Op V) → Option (Env V × List (Out V))
  | [] => some (e, [])
  | op :: ops => match specStep nul lt e op with
    | none => none
    | some (e', o) => match specRun e' ops with
      | none => none
      | some (e'', os) => some (e'', o :: os)
end

/-- Variables whose contents or lifetime an operation may change. -/
def Op.mutates {V : Type} : Op V → List Nat
  | .new x | .newPC x _ _ | .newC x _ | .newCopy x _ | .newInput x _ | .assignC x _ | .assign x _
  | .append x _ _ | .appendStr x _ | .pushBack x _ | .pushBackFrom x _ _ | .plusEqCh x _
  | .popBack x | .clear x | .set x _ _ | .destroy x => [x]
  | _ => []

end Cest.Str
