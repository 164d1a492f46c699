import Verif.Deque.Model
import Verif.Deque.Spec
/-
Programs over the deque and queue models.
-/
namespace Cest.Deq
open Cest
variable {V : Type}

/-- One statement of a client program, executed by the model.  The traversal gets enough fuel for one
iteration per element and one more. -/
def runOp (K : Nat) : Op V → DM V (Out V)
  | .new x => do ctor K x; return .unit
  | .newList x vs => do ctorList K x vs; return .unit
  | .newCopy x y => do copyCtor K x y; return .unit
  | .assign x y => do assign K x y; return .unit
  | .pushBack x v => do pushBack K x (.ext v); return .unit
  | .pushFront x v => do pushFront K x (.ext v); return .unit
  | .pushBackFrom x y i => do
      let (a, j) ← locate K y i
      pushBack K x (.cell a j)
      return .unit
  | .pushFrontFrom x y i => do
      let (a, j) ← locate K y i
      pushFront K x (.cell a j)
      return .unit
  | .popBack x => do popBack K x; return .unit
  | .popFront x => do popFront K x; return .unit
  | .clear x => do clear K x; return .unit
  | .set x i v => do set K x i v; return .unit
  | .destroy x => do dtor K x; return .unit
  | .size x => do return .nat (← size x)
  | .empty x => do return .bool (← empty x)
  | .get x i => do return .val (← get K x i)
  | .front x => do return .val (← front x)
  | .back x => do return .val (← back x)
  | .toList x => do
      let n ← size x
      return .vals (← toList K x (n + 1))

/-- A whole client program. -/
def runOps (K : Nat) : List (Op V) → DM V (List (Out V))
  | [] => pure []
  | op :: ops => do
    let o ← runOp K op
    let os ← runOps K ops
    return o :: os

/-- One statement of a program using queues. -/
def runQOp (K : Nat) : QOp V → DM V (Out V)
  | .new x => do qctor K x; return .unit
  | .newCopy x y => do qctorFrom K x y; return .unit
  | .push x v => do qpush K x (.ext v); return .unit
  | .pushFrom x y => do
      let o ← getObj y                  -- y.front() forms a reference (deque.hpp:272)
      let a ← chunkAt o o.fchunk
      qpush K x (.cell a o.front)
      return .unit
  | .pop x => do qpop K x; return .unit
  | .destroy x => do qdtor K x; return .unit
  | .size x => do return .nat (← qsize x)
  | .empty x => do return .bool (← qempty x)
  | .front x => do return .val (← qfront x)
  | .back x => do return .val (← qback x)

def runQOps (K : Nat) : List (QOp V) → DM V (List (Out V))
  | [] => pure []
  | op :: ops => do
    let o ← runQOp K op
    let os ← runQOps K ops
    return o :: os

end Cest.Deq
