import Verif.Deque.Spec
/-
How many allocations, element copies and element assignments a user of cest::deque and cest::queue should
expect.
This file does not mention the model.
-/
namespace Cest.Deq
variable {V : Type}

/-- Price of one deque operation: constant for creating an empty deque and for each `push_back` and
`push_front`, linear in the number of elements copied for the others that create elements. -/
def price (e : Env V) : Op V → Nat
  | .new _ => 2
  | .newList _ vs => 2 + 3 * vs.length
  | .newCopy _ y => 2 + 3 * ((e y).getD []).length
  | .assign _ y => 3 * ((e y).getD []).length
  | .pushBack _ _ | .pushFront _ _ | .pushBackFrom _ _ _ | .pushFrontFrom _ _ _ => 3
  | .set _ _ _ => 1
  | _ => 0

/-- Price of a history: the sum of the prices of its operations. -/
def total (e : Env V) : List (Op V) → Nat
  | [] => 0
  | op :: ops => price e op + (match specStep e op with
    | none => 0
    | some (e', _) => total e' ops)

/-- Price of one queue operation. -/
def qprice (e : Env V) : QOp V → Nat
  | .new _ => 2
  | .newCopy _ y => 2 + 3 * ((e y).getD []).length
  | .push _ _ | .pushFrom _ _ => 3
  | _ => 0

/-- Price of a history of queues. -/
def qtotal (e : Env V) : List (QOp V) → Nat
  | [] => 0
  | op :: ops => qprice e op + (match qspecStep e op with
    | none => 0
    | some (e', _) => qtotal e' ops)

end Cest.Deq
