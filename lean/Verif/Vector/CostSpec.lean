import Verif.Vector.Spec
/-
How many element copies, element assignments and allocations a user of cest::vector should expect.
This file does not mention the model.
-/
namespace Cest.Vec
variable {V : Type} [Inhabited V] [BEq V]

/-- Price of one operation: constant for `push_back`, nothing for operations that only look, remove the
last element, exchange or destroy, linear in the sizes involved for the others. -/
def price (e : Env V) : Op V → Nat
  | .pushBack _ _ | .pushBackFrom _ _ _ => 4
  | .newN _ n => 2 * n + 1
  | .newList _ vs => 4 * vs.length
  | .newCopy _ y => 2 * ((e y).getD []).length + 1
  | .assign x y => ((e x).getD []).length + 2 * ((e y).getD []).length + 1
  | .resize x n => if n ≤ ((e x).getD []).length then 0 else 2 * n + 1
  | .reserve x _ => ((e x).getD []).length + 1
  | .erase x _ j => ((e x).getD []).length - j
  | .set _ _ _ => 1
  | _ => 0

/-- Price of a history: the sum of the prices of its operations. -/
def total (e : Env V) : List (Op V) → Nat
  | [] => 0
  | op :: ops => price e op + (match specStep e op with
    | none => 0
    | some (e', _) => total e' ops)

end Cest.Vec
