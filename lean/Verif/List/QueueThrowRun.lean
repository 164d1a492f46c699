import Verif.List.Queue
/-
Running programs that catch exceptions on the model of cest::queue<T, cest::list<T>>.
-/
namespace Cest.Lst.Queue
open Cest
variable {V : Type}

/-- Each operation is run as `try { op } catch (...) {}`, with the given number of allocations and copies that succeed. -/
def runQT (fuel : Nat) : List (Option Nat × QOp V) → LM V (List (Option (QOut V)))
  | [] => pure []
  | (t, op) :: ops => fun s =>
    match runQOp fuel op { s with thr := t } with
    | .ok r s' => (do
        let rs ← runQT fuel ops
        pure (some r :: rs) : LM V _) { s' with thr := none }
    | .throw _ s' => (do
        let rs ← runQT fuel ops
        pure (none :: rs) : LM V _) { s' with thr := none }
    | .ub u => .ub u
    | .timeout => .timeout

end Cest.Lst.Queue
