/-
What a user of cest::queue<T, cest::list<T>> may rely on: a queue is its pending elements, oldest first.
This file does not mention the model.
-/
namespace Cest.Lst.Queue
variable {V : Type}

/-- Operations on queue variables. -/
inductive QOp (V : Type) where
  | new (x : Nat)
  | newCopy (x y : Nat)     -- copy construction, and queue(y.c)
  | assign (x y : Nat)
  | destroy (x : Nat)
  | push (x : Nat) (v : V)
  | pop (x : Nat)
  | size (x : Nat)
  | empty (x : Nat)
  | front (x : Nat)
  | back (x : Nat)

inductive QOut (V : Type) where
  | unit
  | nat (n : Nat)
  | bool (b : Bool)
  | val (v : V)
  deriving DecidableEq

abbrev QEnv (V : Type) := Nat → Option (List V)

def QEnv.set (q : QEnv V) (x : Nat) (s : Option (List V)) : QEnv V := fun y => if y = x then s else q y

/-- Meaning of one operation; `none` when a precondition of the interface is violated. -/
def qspecStep (q : QEnv V) : QOp V → Option (QEnv V × QOut V)
  | .new x => match q x with
    | none => some (q.set x (some []), .unit)
    | some _ => none
  | .newCopy x y => match q x, q y with
    | none, some t => some (q.set x (some t), .unit)
    | _, _ => none
  | .assign x y => match q x, q y with
    | some _, some t => if x = y then none else some (q.set x (some t), .unit)   -- for x = y see C25
    | _, _ => none
  | .destroy x => match q x with
    | some _ => some (q.set x none, .unit)
    | none => none
  | .push x v => match q x with
    | some s => some (q.set x (some (s ++ [v])), .unit)
    | none => none
  | .pop x => match q x with
    | some (_ :: s) => some (q.set x (some s), .unit)
    | _ => none
  | .size x => match q x with
    | some s => some (q, .nat s.length)
    | none => none
  | .empty x => match q x with
    | some s => some (q, .bool s.isEmpty)
    | none => none
  | .front x => match q x with
    | some (v :: _) => some (q, .val v)
    | _ => none
  | .back x => match q x with
    | some s => match s.getLast? with
      | some v => some (q, .val v)
      | none => none
    | none => none

def qspecRun (q : QEnv V) : List (QOp V) → Option (QEnv V × List (QOut V))
  | [] => some (q, [])
  | op :: ops => match qspecStep q op with
    | none => none
    | some (q', o) => match qspecRun q' ops with
      | none => none
      | some (q'', os) => some (q'', o :: os)

end Cest.Lst.Queue
