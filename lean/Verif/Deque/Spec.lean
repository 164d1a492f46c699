/-
What a user of cest::deque may rely on: variables hold mathematical sequences.
This file does not mention the model.
-/
namespace Cest.Deq

/-- Operations a program may perform on deque variables (named by numbers). -/
inductive Op (V : Type) where
  | new (x : Nat)                     -- deque<T> x;
  | newList (x : Nat) (vs : List V)   -- deque<T> x{...};
  | newCopy (x y : Nat)               -- deque<T> x(y);
  | assign (x y : Nat)                -- x = y;
  | pushBack (x : Nat) (v : V)
  | pushFront (x : Nat) (v : V)
  | pushBackFrom (x y i : Nat)        -- x.push_back(y[i]);   (y may be x)
  | pushFrontFrom (x y i : Nat)       -- x.push_front(y[i]);  (y may be x)
  | popBack (x : Nat)                 -- no effect on an empty deque
  | popFront (x : Nat)
  | clear (x : Nat)
  | set (x i : Nat) (v : V)           -- x[i] = v;
  | destroy (x : Nat)
  | size (x : Nat)
  | empty (x : Nat)
  | get (x i : Nat)                   -- x[i]
  | front (x : Nat)
  | back (x : Nat)
  | toList (x : Nat)                  -- iterate begin..end

/-- Observable results. -/
inductive Out (V : Type) where
  | unit
  | nat (n : Nat)
  | bool (b : Bool)
  | val (v : V)
  | vals (vs : List V)
  deriving DecidableEq

/-- Variables in scope and their contents. -/
abbrev Env (V : Type) := Nat → Option (List V)

def Env.set {V : Type} (e : Env V) (x : Nat) (v : Option (List V)) : Env V :=
  fun y => if y = x then v else e y

/-- No variables in scope. -/
def Env.none {V : Type} : Env V := fun _ => Option.none

variable {V : Type}

/-- Meaning of one operation; `none` when the program violates a precondition of the C++ interface
(variable not alive / already alive, index out of range, front/back of an empty deque). -/
def specStep (e : Env V) : Op V → Option (Env V × Out V)
  | .new x => match e x with
    | none => some (e.set x (some []), .unit)
    | some _ => none
  | .newList x vs => match e x with
    | none => some (e.set x (some vs), .unit)
    | some _ => none
  | .newCopy x y => match e x, e y with
    | none, some ys => some (e.set x (some ys), .unit)
    | _, _ => none
  | .assign x y => match e x, e y with
    | some _, some ys => some (e.set x (some ys), .unit)
    | _, _ => none
  | .pushBack x v => match e x with
    | some xs => some (e.set x (some (xs ++ [v])), .unit)
    | none => none
  | .pushFront x v => match e x with
    | some xs => some (e.set x (some (v :: xs)), .unit)
    | none => none
  | .pushBackFrom x y i => match e x, e y with
    | some xs, some ys => match ys[i]? with
      | some v => some (e.set x (some (xs ++ [v])), .unit)
      | none => none
    | _, _ => none
  | .pushFrontFrom x y i => match e x, e y with
    | some xs, some ys => match ys[i]? with
      | some v => some (e.set x (some (v :: xs)), .unit)
      | none => none
    | _, _ => none
  | .popBack x => match e x with
    | some xs => some (e.set x (some xs.dropLast), .unit)
    | none => none
  | .popFront x => match e x with
    | some xs => some (e.set x (some xs.tail), .unit)
    | none => none
  | .clear x => match e x with
    | some _ => some (e.set x (some []), .unit)
    | none => none
  | .set x i v => match e x with
    | some xs => if i < xs.length then some (e.set x (some (xs.set i v)), .unit) else none
    | none => none
  | .destroy x => match e x with
    | some _ => some (e.set x none, .unit)
    | none => none
  | .size x => match e x with
    | some xs => some (e, .nat xs.length)
    | none => none
  | .empty x => match e x with
    | some xs => some (e, .bool xs.isEmpty)
    | none => none
  | .get x i => match e x with
    | some xs => match xs[i]? with
      | some v => some (e, .val v)
      | none => none
    | none => none
  | .front x => match e x with
    | some xs => match xs.head? with
      | some v => some (e, .val v)
      | none => none
    | none => none
  | .back x => match e x with
    | some xs => match xs.getLast? with
      | some v => some (e, .val v)
      | none => none
    | none => none
  | .toList x => match e x with
    | some xs => some (e, .vals xs)
    | none => none

/-- Meaning of a history: final environment and the list of observations. -/
def specRun (e : Env V) : List (Op V) → Option (Env V × List (Out V))
  | [] => some (e, [])
  | op :: ops => match specStep e op with
    | none => none
    | some (e', o) => match specRun e' ops with
      | none => none
      | some (e'', os) => some (e'', o :: os)

/-- Variables whose contents or lifetime an operation may change. -/
def Op.mutates : Op V → List Nat
  | .new x | .newList x _ | .newCopy x _ | .assign x _ | .pushBack x _ | .pushFront x _
  | .pushBackFrom x _ _ | .pushFrontFrom x _ _ | .popBack x | .popFront x | .clear x | .set x _ _
  | .destroy x => [x]
  | _ => []

/-- Histories that never shrink a deque at its back: no pop_back, clear or copy assignment, and no
iteration (see C14). -/
def Op.growsBack : Op V → Bool
  | .popBack _ | .clear _ | .assign _ _ | .toList _ => false
  | _ => true

/-- Histories without push_back, copy assignment and iteration (initializer lists and copies are allowed). -/
def Op.noPushBack : Op V → Bool
  | .pushBack _ _ | .pushBackFrom _ _ _ | .assign _ _ | .toList _ => false
  | _ => true

/-! ### queue -/

/-- Operations on queue variables. -/
inductive QOp (V : Type) where
  | new (x : Nat)
  | newCopy (x y : Nat)               -- queue<T> x(y.c) / copy construction
  | push (x : Nat) (v : V)
  | pushFrom (x y : Nat)              -- x.push(y.front());  (y may be x)
  | pop (x : Nat)                     -- no effect on an empty queue
  | destroy (x : Nat)
  | size (x : Nat)
  | empty (x : Nat)
  | front (x : Nat)
  | back (x : Nat)

/-- First-in-first-out meaning: a queue is its pending elements, oldest first. -/
def qspecStep (e : Env V) : QOp V → Option (Env V × Out V)
  | .new x => match e x with
    | none => some (e.set x (some []), .unit)
    | some _ => none
  | .newCopy x y => match e x, e y with
    | none, some ys => some (e.set x (some ys), .unit)
    | _, _ => none
  | .push x v => match e x with
    | some xs => some (e.set x (some (xs ++ [v])), .unit)
    | none => none
  | .pushFrom x y => match e x, e y with
    | some xs, some (v :: _) => some (e.set x (some (xs ++ [v])), .unit)
    | _, _ => none
  | .pop x => match e x with
    | some [] => some (e, .unit)
    | some (_ :: xs) => some (e.set x (some xs), .unit)
    | none => none
  | .destroy x => match e x with
    | some _ => some (e.set x none, .unit)
    | none => none
  | .size x => match e x with
    | some xs => some (e, .nat xs.length)
    | none => none
  | .empty x => match e x with
    | some xs => some (e, .bool xs.isEmpty)
    | none => none
  | .front x => match e x with
    | some (v :: _) => some (e, .val v)
    | _ => none
  | .back x => match e x with
    | some xs => match xs.getLast? with
      | some v => some (e, .val v)
      | none => none
    | none => none

def qspecRun (e : Env V) : List (QOp V) → Option (Env V × List (Out V))
  | [] => some (e, [])
  | op :: ops => match qspecStep e op with
    | none => none
    | some (e', o) => match qspecRun e' ops with
      | none => none
      | some (e'', os) => some (e'', o :: os)

end Cest.Deq
