import Verif.Tree.Model
import Verif.Tree.Spec
/-
Running programs (Spec.Op) on the model of cest::set / cest::map.
-/
namespace Cest.Tree
open Cest
variable {V K : Type}

/-- Iterator variables of the program hold (possibly null) node pointers. -/
abbrev Its := Nat → Option (Option Nat)

/-- Use of an iterator variable. -/
def getIt (its : Its) (k : Nat) : TM V (Option Nat) := fun s =>
  match its k with
  | some p => .ok p s
  | none => .ub .noObject

/-- Each operation calls the corresponding member function. -/
def runOp (g : Cfg V K) (fuel : Nat) (its : Its) : Op V K → TM V (Its × Out V)
  | .new x => do ctor x; pure (its, .unit)
  | .newCopy x y => do copyCtor g fuel x y; pure (its, .unit)
  | .assign x y => do assign g fuel x y; pure (its, .unit)
  | .destroy x => do dtor fuel x; pure (its, .unit)
  | .clear x => do clear fuel x; pure (its, .unit)
  | .insert x v j => do
    let r ← insert g fuel x v
    pure (upd its j (some r.1), .bool r.2)
  | .insertHint x h v j => do
    let p ← getIt its h
    let q ← insertHint g fuel x p v
    pure (upd its j (some q), .unit)
  | .find x k j => do let p ← find g fuel x k; pure (upd its j (some p), .unit)
  | .begin_ x j => do let p ← begin_ x; pure (upd its j (some p), .unit)
  | .end_ x j => do let p ← end_ x; pure (upd its j (some p), .unit)
  | .inc _ k => do
    let p ← getIt its k
    let q ← inc g fuel p
    pure (upd its k (some q), .unit)
  | .deref _ k => do
    let p ← getIt its k
    let v ← getX p
    pure (its, .val v)
  | .write _ k v => do
    let p ← getIt its k
    setX p v
    pure (its, .unit)
  | .itEq k j => do
    let p ← getIt its k
    let q ← getIt its j
    pure (its, .bool (itEq p q))
  | .size x => do let n ← size x; pure (its, .nat n)
  | .empty x => do let b ← empty x; pure (its, .bool b)
  | .toList x => do let vs ← toList g fuel x; pure (its, .vals vs)

/-- A program: the final iterator variables and the observations. -/
def runOps (g : Cfg V K) (fuel : Nat) (its : Its) : List (Op V K) → TM V (Its × List (Out V))
  | [] => pure (its, [])
  | op :: ops => do
    let r ← runOp g fuel its op
    let rs ← runOps g fuel r.1 ops
    pure (rs.1, r.2 :: rs.2)

end Cest.Tree
