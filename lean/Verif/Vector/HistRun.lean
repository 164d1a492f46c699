import Verif.Vector.Run
/-
Running programs that catch exceptions on the model of cest::vector.
-/
namespace Cest.Vec
open Cest
variable {V : Type} [Inhabited V] [BEq V]

/-- Each operation is run as `try { op } catch (...) {}`, with the given number of allocations and copies
that succeed. -/
def runT : List (Option Nat × Op V) → VM V (List (Option (Out V)))
  | [] => pure []
  | (t, op) :: ops => fun s =>
    match runOp op { s with thr := t } with
    | .ok o s' => (do
        let os ← runT ops
        pure (some o :: os) : VM V _) { s' with thr := none }
    | .throw _ s' => (do
        let os ← runT ops
        pure (none :: os) : VM V _) { s' with thr := none }
    | .ub u => .ub u
    | .timeout => .timeout

end Cest.Vec
