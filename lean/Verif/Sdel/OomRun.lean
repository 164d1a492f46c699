import Verif.Sdel.Model
/-
Running programs that catch exceptions on the model of shared_ptr with deleters.
-/
namespace Cest.Sdel
open Cest
variable {V D : Type}

/-- Set the number of allocations that succeed before one fails. -/
def DSt.arm (t : Option Nat) (s : DSt V D) : DSt V D := { s with st := { s.st with thr := t } }

/-- Each operation is run as `try { op } catch (...) {}`, with the given number of allocations that succeed. -/
def runT (frees : Nat → Bool) (virt : Bool) : List (Option Nat × Op V D) → DM V D (List (Option (Out V D)))
  | [] => pure []
  | (t, op) :: ops => fun s =>
    match runOp frees virt op (s.arm t) with
    | .ok o s' => (do
        let os ← runT frees virt ops
        pure (some o :: os) : DM V D _) (s'.arm none)
    | .throw _ s' => (do
        let os ← runT frees virt ops
        pure (none :: os) : DM V D _) (s'.arm none)
    | .ub u => .ub u
    | .timeout => .timeout

end Cest.Sdel
