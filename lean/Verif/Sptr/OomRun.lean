import Verif.Sptr.Run
/-
Running programs that catch exceptions on the model of cest::shared_ptr.
-/
namespace Cest.Sptr
open Cest
variable {V : Type}

/-- Each operation is run as `try { op } catch (...) {}`, with the given number of allocations that succeed. -/
def runT : List (Option Nat × Op V) → SM V (List (Option (Out V)))
  | [] => pure []
  | (t, op) :: ops => fun s =>
    match runOp op { s with thr := t } with
    | .ok o s' => (do
        let os ← runT ops
        pure (some o :: os) : SM V _) { s' with thr := none }
    | .throw _ s' => (do
        let os ← runT ops
        pure (none :: os) : SM V _) { s' with thr := none }
    | .ub u => .ub u
    | .timeout => .timeout

end Cest.Sptr
