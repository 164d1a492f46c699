import Verif.Tree.Run
import Verif.Tree.OomSpec
/-
Running programs whose exceptions are caught on the model of cest::set / cest::map.
-/
namespace Cest.Tree
open Cest
variable {V K : Type}

/-- Each operation is run as `try { op } catch (...) {}`, with the given number of allocations and copies
that succeed.  When it throws, the iterator variables keep their values. -/
def runT (g : Cfg V K) (fuel : Nat) (its : Its) : List (Option Nat × Op V K) → TM V (Its × List (Option (Out V)))
  | [] => pure (its, [])
  | (t, op) :: ops => fun s =>
    match runOp g fuel its op { s with thr := t } with
    | .ok r s' => (do
        let rs ← runT g fuel r.1 ops
        pure (rs.1, some r.2 :: rs.2) : TM V _) { s' with thr := none }
    | .throw _ s' => (do
        let rs ← runT g fuel its ops
        pure (rs.1, none :: rs.2) : TM V _) { s' with thr := none }
    | .ub u => .ub u
    | .timeout => .timeout

end Cest.Tree
