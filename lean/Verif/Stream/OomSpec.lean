import Verif.Stream.WideSpec
/-
What a user of cest's input string streams sees when storage runs out and the exception is caught.  Every statement of
a program comes with a number: how many of its allocations succeed before one fails (`none`: they all succeed).  This
file does not mention the model.
-/
namespace Cest.Stream
variable {V : Type} [DecidableEq V]

/-- The stream whose buffer a statement gives new storage, and its capacity.  `c` are the capacities before. -/
def grows (nul : V) (e : Env V) (c : Nat → Nat) : Op V → Option (Nat × Nat)
  | .newIS x | .newSS x => some (x, 1)
  | .newISs x y _ | .newSSs x y _ => (e.str y).map fun l => (x, l.length + 1)
  | .fmemopen x _ n => some (x, n + 1)
  | .setStr x y => (e.str y).bind fun l =>
      if c x < (l.takeWhile (· ≠ nul)).length + 1 then some (x, (l.takeWhile (· ≠ nul)).length + 1) else none
  | _ => none

/-- The capacities after a statement. -/
def capsAfter (nul : V) (e : Env V) (c : Nat → Nat) (op : Op V) : Nat → Nat :=
  match grows nul e c op with
  | some (x, n) => fun z => if z = x then n else c z
  | none => c

/-- The number of allocations of a statement.  `fmemopen` allocates the stream, a temporary string and the buffer. -/
def allocs (nul : V) (e : Env V) (c : Nat → Nat) (op : Op V) : Nat :=
  match op with
  | .newStr .. => 1
  | .fmemopen .. => 3
  | op => if (grows nul e c op).isSome then 1 else 0

/-- What a statement comes to in which `k` allocations succeed and the next one fails. -/
inductive Upset where
  | none        -- it makes no more than `k` allocations
  | caught      -- it throws, and everything is as before
  | broken      -- outside this specification

def upset (nul : V) (e : Env V) (c : Nat → Nat) (op : Op V) (k : Nat) : Upset :=
  if allocs nul e c op ≤ k then .none
  else match op with
    | .newIS _ | .newSS _ | .setStr .. => .broken
    | _ => .caught

/-- A program whose exceptions are all caught: the variables at the end, the capacities of the streams, and the
observations (`none`: the statement ran out of storage). -/
def specRunT (nul : V) (eofLike : V → Bool) (e : Env V) (c : Nat → Nat) :
    List (Option Nat × Op V) → Option (Env V × (Nat → Nat) × List (Option (Out V)))
  | [] => some (e, c, [])
  | (k, op) :: ops =>
    match specStepW nul eofLike e op with
    | none => none
    | some (e', o) =>
      match k.elim .none (upset nul e c op) with
      | .none => (specRunT nul eofLike e' (capsAfter nul e c op) ops).map fun r => (r.1, r.2.1, some o :: r.2.2)
      | .caught => (specRunT nul eofLike e c ops).map fun r => (r.1, r.2.1, none :: r.2.2)
      | .broken => none

end Cest.Stream
