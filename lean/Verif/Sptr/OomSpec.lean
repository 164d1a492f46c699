import Verif.Sptr.Spec
/-
What a program that uses cest::shared_ptr and catches exceptions may rely on.  This file does not mention the
model.

An operation is given with a number: so many of its allocations succeed, and the next one throws.
-/
namespace Cest.Sptr
variable {V : Type}

/-- What an operation leaves when an allocation fails: the state, and the object that is lost.  `none` if it
does not make so many allocations.  `shared_ptr<T> x(new T{v})` allocates the object and the group; if the
second allocation fails the object is lost (C85). -/
def upset (s : State V) (k : Nat) : Op V → Option (State V × List (Nat × V))
  | .make _ v => match k with
    | 0 => some (s, [])
    | 1 => some ({ s with next := s.next + 1 }, [(s.next, v)])
    | _ => none
  | .makeNull _ => match k with
    | 0 => some (s, [])
    | _ => none
  | _ => none

/-- A program whose exceptions are all caught: final state, observations (`none`: an exception was caught),
lost objects with their values. -/
def specRunT (s : State V) : List (Option Nat × Op V) → Option (State V × List (Option (Out V)) × List (Nat × V))
  | [] => some (s, [], [])
  | (t, op) :: ops => match specStep s op with
    | none => none
    | some (s', o) => match t.bind (fun k => upset s k op) with
      | none => (specRunT s' ops).map fun r => (r.1, some o :: r.2.1, r.2.2)
      | some (s'', l) => (specRunT s'' ops).map fun r => (r.1, none :: r.2.1, l ++ r.2.2)

/-- All operations of the program are supported in the state they are applied to. -/
def SupportedT (s : State V) : List (Option Nat × Op V) → Prop
  | [] => True
  | (t, op) :: ops => Supported s op ∧ match specStep s op with
    | none => True
    | some (s', _) => match t.bind (fun k => upset s k op) with
      | none => SupportedT s' ops
      | some (s'', _) => SupportedT s'' ops

end Cest.Sptr
