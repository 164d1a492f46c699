import Verif.Vector.Model
import Verif.Vector.Spec
/-
Programs over the vector model: each operation of the specification is the call of the modelled member.
-/
namespace Cest.Vec
open Cest
variable {V : Type} [Inhabited V] [BEq V]

/-- One statement of a client program, executed by the model. -/
def runOp : Op V → VM V (Out V)
  | .new x => do ctor x; return .unit
  | .newN x n => do ctorN x n; return .unit
  | .newList x vs => do ctorList x vs; return .unit
  | .newCopy x y => do copyCtor x y; return .unit
  | .newMove x y => do moveCtor x y; return .unit
  | .assign x y => do copyAssign x y; return .unit
  | .moveAssign x y => do moveAssign x y; return .unit
  | .swap x y => do swap x y; return .unit
  | .pushBack x v => do pushBack x (.ext v); return .unit
  | .pushBackFrom x y i => do
      let oy ← getObj y               -- y[i] only forms the reference (vector.hpp:178)
      pushBack x (.cell oy.p i)
      return .unit
  | .popBack x => do popBack x; return .unit
  | .resize x n => do resize x n; return .unit
  | .reserve x n => do reserve x n; return .unit
  | .clear x => do clear x; return .unit
  | .erase x i j => do return .nat (← erase x i j)
  | .set x i v => do set x i v; return .unit
  | .destroy x => do dtor x; return .unit
  | .size x => do return .nat (← size x)
  | .empty x => do return .bool (← empty x)
  | .get x i => do return .val (← get x i)
  | .at_ x i => M.tryCatch (do return .val (← at_ x i)) (fun e =>
      match e with
      | .outOfRange => pure .outOfRange
      | e => M.throw e)
  | .front x => do return .val (← front x)
  | .back x => do return .val (← back x)
  | .toList x => do return .vals (← toList x)
  | .eq x y => do return .bool (← eq x y)

/-- A whole client program. -/
def runOps : List (Op V) → VM V (List (Out V))
  | [] => pure []
  | op :: ops => do
    let o ← runOp op
    let os ← runOps ops
    return o :: os

end Cest.Vec
