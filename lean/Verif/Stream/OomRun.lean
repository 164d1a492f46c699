import Verif.Stream.Run
import Verif.Stream.OomSpec
/-
Running programs whose exceptions are caught on the model of the streams.
-/
namespace Cest.Stream
open Cest
variable {V : Type} [DecidableEq V]

/-- The machine state with the countdown of the allocations set. -/
def SSt.arm (s : SSt V) (k : Option Nat) : SSt V := { s with strs := { s.strs with thr := k } }

/-- Each statement is run as `try { op } catch (...) {}`, with the given number of allocations that succeed. -/
def runT (t : Traits V) : List (Option Nat × Op V) → SM V (List (Option (Out V)))
  | [] => pure []
  | (k, op) :: ops => fun s =>
    match runOp t op (s.arm k) with
    | .ok o s' => (do
        let os ← runT t ops
        pure (some o :: os) : SM V _) (s'.arm none)
    | .throw _ s' => (do
        let os ← runT t ops
        pure (none :: os) : SM V _) (s'.arm none)
    | .ub u => .ub u
    | .timeout => .timeout

end Cest.Stream
