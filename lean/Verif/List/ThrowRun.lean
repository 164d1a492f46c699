import Verif.List.Run
/-
Running programs that catch exceptions on the model of cest::list.
-/
namespace Cest.Lst
open Cest
variable {V : Type}

/-- Each operation is run as `try { op } catch (...) {}`, with the given number of allocations and copies
that succeed.  When it throws, the iterator variables keep their values. -/
def runT (fuel : Nat) (its : Its) : List (Option Nat × Op V) → LM V (Its × List (Option (Out V)))
  | [] => pure (its, [])
  | (t, op) :: ops => fun s =>
    match runOp fuel its op { s with thr := t } with
    | .ok r s' => (do
        let rs ← runT fuel r.1 ops
        pure (rs.1, some r.2 :: rs.2) : LM V _) { s' with thr := none }
    | .throw _ s' => (do
        let rs ← runT fuel its ops
        pure (rs.1, none :: rs.2) : LM V _) { s' with thr := none }
    | .ub u => .ub u
    | .timeout => .timeout

end Cest.Lst
