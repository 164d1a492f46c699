import Verif.Tree.Spec
/-
The price of a program over cest::set and cest::map.
This file does not mention the model.
-/
namespace Cest.Tree
variable {V K : Type}

/-- Number of assignments `k->second = …` in a program. -/
def writes : List (Op V K) → Nat
  | [] => 0
  | .write _ _ _ :: ops => 1 + writes ops
  | _ :: ops => writes ops

/-- Each element ever created costs an allocation and two copies (`e.next` elements have been created when
`e` is reached), each assignment to a mapped value one; nothing else has a price. -/
def price (e : Env V) (ops : List (Op V K)) : Nat := 3 * e.next + writes ops

end Cest.Tree
