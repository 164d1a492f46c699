import Verif.Uptr.Model
import Verif.Uptr.Spec
/-
Client programs over the unique_ptr and function models.
-/
namespace Cest.Uptr
open Cest
variable {V A R : Type}

def runOp : Op V → UM V (Out V R)
  | .new x => do ctor x; return .unit
  | .make x v => do makeUnique x v; return .unit
  | .newMove x y => do ctorMove x y; return .unit
  | .moveAssign x y => do moveAssign x y; return .unit
  | .reset x => do reset x none; return .unit
  | .resetNew x v => do
      let a ← allocC v
      reset x (some a)
      return .unit
  | .release r x => do
      let p ← release x
      newObj r (.ptr .raw p)
      return .unit
  | .adopt x r => do
      let p ← getPtr .raw r
      ctorPtr x p
      setPtr .raw r none
      return .unit
  | .resetRaw x r => do
      let p ← getPtr .raw r
      reset x p
      setPtr .raw r none
      return .unit
  | .deleteRaw r => do
      let p ← getPtr .raw r
      del p
      setPtr .raw r none
      return .unit
  | .dropRaw r => do
      let _ ← getPtr .raw r
      delObj r
      return .unit
  | .destroy x => do dtor x; return .unit
  | .set x v => do starSet x v; return .unit
  | .get x => do return .val (← star x)
  | .toBool x => do return .bool (← toBool x)
  | .eq x y => do return .bool (← eq x y)
  | .ne x y => do return .bool (← ne x y)

def runOps : List (Op V) → UM V (List (Out V R))
  | [] => pure []
  | op :: ops => do
    let o ← runOp op
    let os ← runOps ops
    return o :: os

def runFOp (call : V → A → R × V) : FOp V A → UM V (Out V R)
  | .newCallable c v => do newObj c (.val v); return .unit
  | .dropCallable c => do
      let _ ← getVal c
      delObj c
      return .unit
  | .callCallable c a => do return .res (← callVal call c a)
  | .new x c => do funCtor x c; return .unit
  | .call x a => do return .res (← funCall call x a)
  | .newMove x y => do funMove x y; return .unit
  | .moveAssign x y => do funMoveAssign x y; return .unit
  | .destroy x => do funDtor x; return .unit

def runFOps (call : V → A → R × V) : List (FOp V A) → UM V (List (Out V R))
  | [] => pure []
  | op :: ops => do
    let o ← runFOp call op
    let os ← runFOps call ops
    return o :: os

end Cest.Uptr
