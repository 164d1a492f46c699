import Verif.FList.Model
import Verif.FList.Spec
/-
Running programs (Spec.Op) on the model of cest::forward_list.
-/
namespace Cest.FL
open Cest
variable {V : Type}

/-- Iterator variables of the program hold node pointers. -/
abbrev Its := Nat → Option Ptr

/-- Use of an iterator variable. -/
def getIt (its : Its) (k : Nat) : FM V Ptr := fun s =>
  match its k with
  | some p => .ok p s
  | none => .ub .noObject

/-- Each operation calls the corresponding member function. -/
def runOp (fuel : Nat) (its : Its) : Op V → FM V (Its × Out V)
  | .new x => do ctor x; pure (its, .unit)
  | .newCopy x y => do copyCtor fuel x y; pure (its, .unit)
  | .assign x y t => do assign fuel x y t; pure (its, .unit)
  | .swap x y => do swap x y; pure (its, .unit)
  | .destroy x => do dtor fuel x; pure (its, .unit)
  | .clear x => do clear fuel x; pure (its, .unit)
  | .pushFront x v => do pushFront x v; pure (its, .unit)
  | .popFront x => do popFront x; pure (its, .unit)
  | .insertAfter _ k v j => do
    let p ← getIt its k
    let q ← insertAfter p v
    pure (upd its j (some q), .unit)
  | .eraseAfter _ k j => do
    let p ← getIt its k
    let q ← eraseAfter p
    pure (upd its j (some q), .unit)
  | .eraseRange _ k m j => do
    let p ← getIt its k
    let l ← getIt its m
    let q ← eraseRange fuel p l
    pure (upd its j (some q), .unit)
  | .before x j => do let p ← before x; pure (upd its j (some p), .unit)
  | .begin_ x j => do let p ← begin_ x; pure (upd its j (some p), .unit)
  | .end_ _ j => pure (upd its j (some end_), .unit)
  | .inc _ k => do
    let p ← getIt its k
    let q ← inc p
    pure (upd its k (some q), .unit)
  | .deref _ k => do
    let p ← getIt its k
    let v ← deref p
    pure (its, .val v)
  | .set _ k v => do
    let p ← getIt its k
    setVal p v
    pure (its, .unit)
  | .itEq k j => do
    let p ← getIt its k
    let q ← getIt its j
    pure (its, .bool (itEq p q))
  | .empty x => do let b ← empty x; pure (its, .bool b)
  | .front x => do let v ← front x; pure (its, .val v)
  | .toList x => do let vs ← toList fuel x; pure (its, .vals vs)

/-- A program: the final iterator variables and the observations. -/
def runOps (fuel : Nat) (its : Its) : List (Op V) → FM V (Its × List (Out V))
  | [] => pure (its, [])
  | op :: ops => do
    let r ← runOp fuel its op
    let rs ← runOps fuel r.1 ops
    pure (rs.1, r.2 :: rs.2)

end Cest.FL
