import Verif.Deque.Run
/-
Running programs that catch exceptions on the model of cest::deque.
-/
namespace Cest.Deq
open Cest
variable {V : Type}

/-- Each operation is run as `try { op } catch (...) {}`, with the given number of allocations and copies
that succeed. -/
def runT (K : Nat) : List (Option Nat × Op V) → DM V (List (Option (Out V)))
  | [] => pure []
  | (t, op) :: ops => fun s =>
    match runOp K op { s with thr := t } with
    | .ok o s' => (do
        let os ← runT K ops
        pure (some o :: os) : DM V _) { s' with thr := none }
    | .throw _ s' => (do
        let os ← runT K ops
        pure (none :: os) : DM V _) { s' with thr := none }
    | .ub u => .ub u
    | .timeout => .timeout

end Cest.Deq
