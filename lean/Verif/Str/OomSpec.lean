import Verif.Str.Spec
/-
What a user of cest::basic_string sees when storage runs out and the exception is caught, and what
`capacity()` is.  Every operation of a program comes with a number: how many of its allocations succeed before
one fails (`none`: they all succeed).  This file does not mention the model.
-/
namespace Cest.Str
variable {V : Type} [DecidableEq V]

/-- The capacity a string gets that is constructed from a single-pass range of `n ≥ 1` characters: the least of
2, 6, 14, 30, … that is enough. -/
def inputCap (n : Nat) : Nat := 2 ^ (Nat.log2 (n + 1) + 1) - 2

/-- The string to which an operation gives new storage, and its new capacity.  `c` are the capacities before. -/
def grows (nul : V) (e : Env V) (c : Nat → Nat) : Op V → Option (Nat × Nat)
  | .new x => some (x, 1)
  | .newPC x _ n => some (x, n + 1)
  | .newC x s => (cstr nul e s).map fun cs => (x, cs.length + 1)
  | .newCopy x y => (e y).map fun ys => (x, ys.length + 1)
  | .newInput x cs => some (x, inputCap cs.length)
  | .assignC x s => (cstr nul e s).bind fun cs =>
      if c x < cs.length + 1 then some (x, cs.length + 1) else none
  | .assign x y => (e y).bind fun ys =>
      if c x < ys.length + 1 then some (x, ys.length + 1) else none
  | .append x _ n => (e x).bind fun xs =>
      if c x < xs.length + n then some (x, xs.length + n) else none
  | .appendStr x y => (e x).bind fun xs => (e y).bind fun ys =>
      if c x < xs.length + ys.length then some (x, xs.length + ys.length) else none
  | .pushBack x _ | .pushBackFrom x _ _ | .plusEqCh x _ => (e x).bind fun xs =>
      if c x < xs.length + 1 then some (x, 2 * c x) else none
  | .reserve x n => if c x < n then some (x, n) else none
  | _ => none

/-- The capacities after an operation. -/
def capsAfter (nul : V) (e : Env V) (c : Nat → Nat) (op : Op V) : Nat → Nat :=
  match grows nul e c op with
  | some (x, n) => fun y => if y = x then n else c y
  | none => c

/-- The number of allocations of an operation. -/
def allocs (nul : V) (e : Env V) (c : Nat → Nat) (op : Op V) : Nat :=
  match grows nul e c op with
  | none => 0
  | some _ => match op with
    | .newInput _ cs => Nat.log2 (cs.length + 1)
    | _ => 1

/-- What an operation comes to in which `k` allocations succeed and the next one fails. -/
inductive Upset where
  | none        -- it makes no more than `k` allocations
  | caught      -- it throws, and everything is as before
  | broken      -- outside this specification: see C81 and C114

def upset (nul : V) (e : Env V) (c : Nat → Nat) (op : Op V) (k : Nat) : Upset :=
  if allocs nul e c op ≤ k then .none
  else match op with
    | .new _ | .assignC .. | .assign .. => .broken
    | .newInput .. => if k = 0 then .caught else .broken
    | _ => .caught

/-- A program whose exceptions are all caught: the strings at the end, their capacities, and the observations
(`none`: an exception was caught). -/
def specRunT (nul : V) (lt : V → V → Bool) (e : Env V) (c : Nat → Nat) :
    List (Option Nat × Op V) → Option (Env V × (Nat → Nat) × List (Option (Out V)))
  | [] => some (e, c, [])
  | (t, op) :: ops =>
    match specStep nul lt e op with
    | none => none
    | some (e', o) =>
      match t.elim .none (upset nul e c op) with
      | .none => (specRunT nul lt e' (capsAfter nul e c op) ops).map fun r => (r.1, r.2.1, some o :: r.2.2)
      | .caught => (specRunT nul lt e c ops).map fun r => (r.1, r.2.1, none :: r.2.2)
      | .broken => none

end Cest.Str
