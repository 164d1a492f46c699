import Verif.Sptr.Model
import Verif.Sptr.Spec
/-
Client programs over the shared_ptr model.
-/
namespace Cest.Sptr
open Cest
variable {V : Type}

def runOp : Op V → SM V (Out V)
  | .new x => do ctor x; return .unit
  | .make x v => do
      let a ← allocC (.val v)
      ctorPtr x (some a)
      return .unit
  | .makeNull x => do ctorPtr x none; return .unit
  | .copy x y => do ctorCopy x y; return .unit
  | .alias x y z => do
      let p ← get z
      ctorAlias x y p
      return .unit
  | .assign x y => do assign x y; return .unit
  | .destroy x => do dtor x; return .unit
  | .useCount x => do return .count (← useCount x)
  | .get x => do return .val (← star x)
  | .set x v => do starSet x v; return .unit
  | .toBool x => do return .bool (← toBool x)
  | .same x y => do
      let p ← get x
      let q ← get y
      return .bool (p == q)

def runOps : List (Op V) → SM V (List (Out V))
  | [] => pure []
  | op :: ops => do
    let o ← runOp op
    let os ← runOps ops
    return o :: os

end Cest.Sptr
