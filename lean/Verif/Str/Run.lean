import Verif.Str.Model
import Verif.Str.Spec
/-
Programs over the string model: each operation of the specification is the call of the modelled member.
-/
namespace Cest.Str
open Cest
variable {V : Type} [DecidableEq V]

/-- Evaluation of a pointer argument: `y.c_str() + off` (string.hpp:120). -/
def Arg.eval : Arg V → SM V (Ptr V)
  | .ext a off => pure (.ext a off)
  | .str y off => do
    let o ← getObj y
    return .cell o.p off

/-- Only the sign of `compare` is specified. -/
def sign (r : Int) : Ordering := if r < 0 then .lt else if r = 0 then .eq else .gt

/-- One statement of a client program, executed by the model. -/
def runOp (t : Traits V) : Op V → SM V (Out V)
  | .new x => do ctor t x; return .unit
  | .newPC x s n => do ctorPC t x (← s.eval) n; return .unit
  | .newC x s => do ctorC t x (← s.eval); return .unit
  | .newCopy x y => do copyCtor t x y; return .unit
  | .newInput x cs => do ctorInput t x cs; return .unit
  | .assignC x s => do assignC t x (← s.eval); return .unit
  | .assign x y => do assign t x y; return .unit
  | .append x s n => do append t x (← s.eval) n; return .unit
  | .appendStr x y => do appendStr t x y; return .unit
  | .pushBack x c => do pushBack t x (.ext [c] 0); return .unit
  | .pushBackFrom x y i => do
      let oy ← getObj y               -- y[i] only forms the reference (string.hpp:134)
      pushBack t x (.cell oy.p i)
      return .unit
  | .plusEqCh x c => do plusEqCh t x c; return .unit
  | .popBack x => do popBack t x; return .unit
  | .reserve x n => do reserve t x n; return .unit
  | .clear x => do clear t x; return .unit
  | .set x i c => do set x i c; return .unit
  | .destroy x => do dtor x; return .unit
  | .size x => do return .nat (← size x)
  | .empty x => do return .bool (← empty x)
  | .get x i => do return .val (← get x i)
  | .front x => do return .val (← front x)
  | .back x => do return .val (← back x)
  | .toList x => do return .vals (← toList x)
  | .findPC x s pos n => do return .idx (← findPC t x (← s.eval) pos n)
  | .findC x s pos => do return .idx (← findC t x (← s.eval) pos)
  | .findStr x y pos => do return .idx (← findStr t x y pos)
  | .findCh x c => do return .idx (← findCh x c 0)
  | .compare x y => do return .ord (sign (← compare t x y))
  | .compareC x s => do return .ord (sign (← compareC t x (← s.eval)))
  | .eq x y => do return .bool (← eq t x y)
  | .eqGen x y => do return .bool (← eqGen t x y)
  | .eqC x s => do return .bool (← eqC t x (← s.eval))
  | .neC x s => do return .bool (← neC t x (← s.eval))
  | .ne x y => do return .bool (← ne t x y)
  | .lt x y => do return .bool (← lt t x y)
  | .ltC x s => do return .bool (← ltC t x (← s.eval))
  | .cLt s x => do return .bool (← cLt t (← s.eval) x)

/-- A whole client program. -/
def runOps (t : Traits V) : List (Op V) → SM V (List (Out V))
  | [] => pure []
  | op :: ops => do
    let o ← runOp t op
    let os ← runOps t ops
    return o :: os

end Cest.Str
