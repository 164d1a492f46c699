import Verif.Uptr.Spec
/-
What a program that uses cest::unique_ptr and cest::function and catches exceptions may rely on.  This file
does not mention the model.

An operation is given with a number: so many of its allocations succeed, and the next one throws.
-/
namespace Cest.Uptr
variable {V A R : Type}

/-- Does the operation allocate an object? -/
def Op.creates : Op V → Bool
  | .make _ _ => true
  | .resetNew _ _ => true
  | _ => false
def FOp.creates : FOp V A → Bool
  | .new _ _ => true
  | _ => false

/-- A program whose exceptions are all caught (observation `none`).  An operation that throws has no effect. -/
def specRunT (e : Env V) : List (Option Nat × Op V) → Option (Env V × List (Option (Out V R)))
  | [] => some (e, [])
  | (t, op) :: ops => match specStep (R := R) e op with
    | none => none
    | some (e', o) =>
      if t = some 0 ∧ op.creates = true then (specRunT e ops).map fun r => (r.1, none :: r.2)
      else (specRunT e' ops).map fun r => (r.1, some o :: r.2)

def fspecRunT (call : V → A → R × V) (e : Env V) :
    List (Option Nat × FOp V A) → Option (Env V × List (Option (Out V R)))
  | [] => some (e, [])
  | (t, op) :: ops => match fspecStep call e op with
    | none => none
    | some (e', o) =>
      if t = some 0 ∧ op.creates = true then (fspecRunT call e ops).map fun r => (r.1, none :: r.2)
      else (fspecRunT call e' ops).map fun r => (r.1, some o :: r.2)

end Cest.Uptr
