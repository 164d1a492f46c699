import Verif.FList.Spec
/-
The price of a program over cest::forward_list.
This file does not mention the model.
-/
namespace Cest.FL
variable {V : Type}

/-- Number of assignments `*k = v` in a program. -/
def writes : List (Op V) → Nat
  | [] => 0
  | .set _ _ _ :: ops => 1 + writes ops
  | _ :: ops => writes ops

/-- Each element ever created costs an allocation and a copy (`e.next` elements have been created when
`e` is reached), each assignment through an iterator one; nothing else has a price. -/
def price (e : Env V) (ops : List (Op V)) : Nat := 2 * e.next + writes ops

end Cest.FL
