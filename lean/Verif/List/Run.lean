import Verif.List.Model
import Verif.List.Spec
/-
Running programs (Spec.Op) on the model of cest::list.
-/
namespace Cest.Lst
open Cest
variable {V : Type}

/-- Iterator variables of the program hold node pointers. -/
abbrev Its := Nat → Option Ptr

/-- Use of an iterator variable. -/
def getIt (its : Its) (k : Nat) : LM V Ptr := fun s =>
  match its k with
  | some p => .ok p s
  | none => .ub .noObject

/-- Each operation calls the corresponding member function. -/
def runOp (fuel : Nat) (its : Its) : Op V → LM V (Its × Out V)
  | .new x => do ctor x; pure (its, .unit)
  | .newCopy x y => do copyCtor fuel x y; pure (its, .unit)
  | .assign x y => do assign fuel x y; pure (its, .unit)
  | .destroy x => do dtor fuel x; pure (its, .unit)
  | .clear x => do clear fuel x; pure (its, .unit)
  | .pushBack x v => do pushBack x v; pure (its, .unit)
  | .pushFront x v => do pushFront x v; pure (its, .unit)
  | .emplaceBack x v => do let w ← emplaceBack x v; pure (its, .val w)
  | .emplaceFront x v => do let w ← emplaceFront x v; pure (its, .val w)
  | .popBack x => do popBack x; pure (its, .unit)
  | .popFront x => do popFront x; pure (its, .unit)
  | .insert x k v j => do
    let p ← getIt its k
    let q ← insert x p v
    pure (upd its j (some q), .unit)
  | .emplace x k v j => do
    let p ← getIt its k
    let q ← emplace x p v
    pure (upd its j (some q), .unit)
  | .erase x k j => do
    let p ← getIt its k
    let q ← erase x p
    pure (upd its j (some q), .unit)
  | .begin_ x j => do let p ← begin_ x; pure (upd its j (some p), .unit)
  | .end_ x j => do let p ← end_ x; pure (upd its j (some p), .unit)
  | .inc _ k => do
    let p ← getIt its k
    let q ← inc p
    pure (upd its k (some q), .unit)
  | .dec _ k => do
    let p ← getIt its k
    let q ← dec p
    pure (upd its k (some q), .unit)
  | .deref _ k => do
    let p ← getIt its k
    let v ← deref p
    pure (its, .val v)
  | .set _ k v => do
    let p ← getIt its k
    setVal p v
    pure (its, .unit)
  | .itEq k j => do
    let p ← getIt its k
    let q ← getIt its j
    pure (its, .bool (itEq p q))
  | .size x => do let n ← size x; pure (its, .nat n)
  | .empty x => do let b ← empty x; pure (its, .bool b)
  | .front x => do let v ← front x; pure (its, .val v)
  | .back x => do let v ← back x; pure (its, .val v)
  | .toList x => do let vs ← toList fuel x; pure (its, .vals vs)
  | .toListRev x => do let vs ← toListRev fuel x; pure (its, .vals vs)

/-- A program: the final iterator variables and the observations. -/
def runOps (fuel : Nat) (its : Its) : List (Op V) → LM V (Its × List (Out V))
  | [] => pure (its, [])
  | op :: ops => do
    let r ← runOp fuel its op
    let rs ← runOps fuel r.1 ops
    pure (rs.1, r.2 :: rs.2)

end Cest.Lst
