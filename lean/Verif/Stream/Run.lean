import Verif.Stream.Model
import Verif.Stream.Spec
/-
Programs over the stream model: each statement of the specification is the call of the modelled function.
-/
namespace Cest.Stream
open Cest
variable {V : Type} [DecidableEq V]

/-- `try { m } catch (const ios_failure&) { }`. -/
def guarded (m : SM V (Out V)) : SM V (Out V) :=
  M.tryCatch m fun e => if e = .iosFailure then pure .failure else M.throw e

/-- One statement of a client program, executed by the model. -/
def runOp (t : Traits V) : Op V → SM V (Out V)
  | .newArr a l => do newArr a l; return .unit
  | .vals a => do return .vals (← getArr a)
  | .newStr y a n => do
      let l ← getArr a
      lift (Str.ctorPC t.toTraits (strId y) (.ext l 0) n)
      return .unit
  | .delStr y => do lift (Str.dtor (strId y)); return .unit
  | .newIS x => do newIS t x; return .unit
  | .newISs x y m => do newISs t x y m; return .unit
  | .newSS x => do newSS t x; return .unit
  | .newSSs x y m => do newSSs t x y m; return .unit
  | .newNull x => do newNull x; return .unit
  | .setStr x y => do setStr t x y; return .unit
  | .get x a i => guarded (do get t x a i; return .unit)
  | .read x a i n => guarded (do read t x a i n; return .unit)
  | .unget x => guarded (do unget t x; return .unit)
  | .gcount x => do return .nat (← gcount x)
  | .clear x s => guarded (do clear x s; return .unit)
  | .setstate x s => guarded (do setstate x s; return .unit)
  | .rdstate x => do return .bits (← rdstate x)
  | .good x => do return .bool (← good x)
  | .eof x => do return .bool (← eof x)
  | .fail x => do return .bool (← fail x)
  | .bool x => do return .bool (← toBool x)
  | .not x => do return .bool (← not x)
  | .mask x => do return .bits (← mask x)
  | .setMask x s => guarded (do setMask x s; return .unit)
  | .destroy x => do destroy x; return .unit
  | .fmemopen x a n => do fmemopen t x a n; return .unit
  | .fread x a i n => guarded (do return .nat (← fread t x a i 1 n))
  | .fclose x => do return .nat (← fclose x)

/-- A whole client program. -/
def runOps (t : Traits V) : List (Op V) → SM V (List (Out V))
  | [] => pure []
  | op :: ops => do
    let o ← runOp t op
    let os ← runOps t ops
    return o :: os

end Cest.Stream
