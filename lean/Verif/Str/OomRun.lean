import Verif.Str.Run
import Verif.Str.OomSpec
/-
Running programs whose exceptions are caught on the model of cest::basic_string.
-/
namespace Cest.Str
open Cest
variable {V : Type} [DecidableEq V]

/-- Each operation is run as `try { op } catch (...) {}`, with the given number of allocations that succeed. -/
def runT (t : Traits V) : List (Option Nat × Op V) → SM V (List (Option (Out V)))
  | [] => pure []
  | (k, op) :: ops => fun s =>
    match runOp t op { s with thr := k } with
    | .ok o s' => (do
        let os ← runT t ops
        pure (some o :: os) : SM V _) { s' with thr := none }
    | .throw _ s' => (do
        let os ← runT t ops
        pure (none :: os) : SM V _) { s' with thr := none }
    | .ub u => .ub u
    | .timeout => .timeout

end Cest.Str
