import Verif.Deque.Run
/-
Running programs that catch exceptions on the model of cest::queue.
-/
namespace Cest.Deq
open Cest
variable {V : Type}

/-- The operations are those of /repo/include/cest/queue.hpp:22-36. Each is run as `try { op } catch (...) {}`, with the given number of allocations and copies that succeed. -/
def runQT (K : Nat) : List (Option Nat × QOp V) → DM V (List (Option (Out V)))
  | [] => pure []
  | (t, op) :: ops => fun s =>
    match runQOp K op { s with thr := t } with
    | .ok o s' => (do
        let os ← runQT K ops
        pure (some o :: os) : DM V _) { s' with thr := none }
    | .throw _ s' => (do
        let os ← runQT K ops
        pure (none :: os) : DM V _) { s' with thr := none }
    | .ub u => .ub u
    | .timeout => .timeout

end Cest.Deq
