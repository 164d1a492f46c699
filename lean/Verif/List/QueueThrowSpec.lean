import Verif.List.QueueSpec
/-
What a user of cest::queue<T, cest::list<T>> has to pay, and what is seen when operations throw and the exceptions are caught.  Every
operation of a program comes with a number: how many of its allocations and element copies succeed before one throws (`none`: they all
succeed).
This file does not mention the model.
-/
namespace Cest.Lst.Queue
variable {V : Type}

/-- Allocations and element copies of one operation: two for each element that is new in a queue. -/
def qprice (q : QEnv V) : QOp V → Nat
  | .push _ _ => 2
  | .newCopy _ y | .assign _ y => 2 * ((q y).getD []).length
  | _ => 0

/-- Price of a program: the sum of the prices of its operations. -/
def qtotal (q : QEnv V) : List (QOp V) → Nat
  | [] => 0
  | op :: ops => qprice q op + (match qspecStep q op with
    | none => 0
    | some (q', _) => qtotal q' ops)

/-- Effect of one operation in which `k` allocations and element copies succeed and the next one throws: the queues afterwards, and how
many blocks of storage are lost.  `none`: it has no more than `k` of them, so it does not throw. -/
def qspecThrow (q : QEnv V) (op : QOp V) (k : Nat) : Option (QEnv V × Nat) :=
  if k < qprice q op then
    match op with
    | .assign x y => some (q.set x (some (((q y).getD []).take (k / 2))), k % 2)   -- the elements copied so far
    | _ => some (q, k % 2)                                                         -- as before
  else none

/-- A program whose exceptions are all caught: the queues at the end, the observations (`none`: an exception was caught), and the number
of blocks of storage lost. -/
def qspecRunT (q : QEnv V) : List (Option Nat × QOp V) → Option (QEnv V × List (Option (QOut V)) × Nat)
  | [] => some (q, [], 0)
  | (t, op) :: ops =>
    match qspecStep q op with
    | none => none
    | some (q', o) =>
      match t.bind (qspecThrow q op) with
      | none => (qspecRunT q' ops).map fun r => (r.1, some o :: r.2.1, r.2.2)
      | some (q'', n) => (qspecRunT q'' ops).map fun r => (r.1, none :: r.2.1, n + r.2.2)

end Cest.Lst.Queue
