import Verif.List.Model
import Verif.List.QueueSpec
/-
Model of cest::queue<T, cest::list<T>> (/repo/include/cest/queue.hpp with list.hpp as the container).
-/
namespace Cest.Lst.Queue
open Cest
variable {V : Type}

/-- queue.hpp:22 `queue()`. -/
def qctor (x : Nat) : LM V Unit := Lst.ctor x
/-- queue.hpp:23-24 `queue(cont)`: copies, since list has no move constructor; also the implicit copy constructor. -/
def qctorFrom (fuel x y : Nat) : LM V Unit := Lst.copyCtor fuel x y
/-- Implicit `operator=`. -/
def qassign (fuel x y : Nat) : LM V Unit := Lst.assign fuel x y
/-- Implicit `~queue`. -/
def qdtor (fuel x : Nat) : LM V Unit := Lst.dtor fuel x
/-- queue.hpp:26 `empty`. -/
def qempty (x : Nat) : LM V Bool := Lst.empty x
/-- queue.hpp:27 `size`. -/
def qsize (x : Nat) : LM V Nat := Lst.size x
/-- queue.hpp:29-30 `front`. -/
def qfront (x : Nat) : LM V V := Lst.front x
/-- queue.hpp:31-32 `back`. -/
def qback (x : Nat) : LM V V := Lst.back x
/-- queue.hpp:34-35 `push`. -/
def qpush (x : Nat) (v : V) : LM V Unit := Lst.pushBack x v
/-- queue.hpp:36 `pop`. -/
def qpop (x : Nat) : LM V Unit := Lst.popFront x

/-- Each operation calls the corresponding member function. -/
def runQOp (fuel : Nat) : QOp V → LM V (QOut V)
  | .new x => do qctor x; pure .unit
  | .newCopy x y => do qctorFrom fuel x y; pure .unit
  | .assign x y => do qassign fuel x y; pure .unit
  | .destroy x => do qdtor fuel x; pure .unit
  | .push x v => do qpush x v; pure .unit
  | .pop x => do qpop x; pure .unit
  | .size x => do let n ← qsize x; pure (.nat n)
  | .empty x => do let b ← qempty x; pure (.bool b)
  | .front x => do let v ← qfront x; pure (.val v)
  | .back x => do let v ← qback x; pure (.val v)

def runQOps (fuel : Nat) : List (QOp V) → LM V (List (QOut V))
  | [] => pure []
  | op :: ops => do
    let o ← runQOp fuel op
    let os ← runQOps fuel ops
    pure (o :: os)

end Cest.Lst.Queue
