import Verif.Sdel.Spec
/-
What a program that uses shared_ptr with deleters and catches exceptions may rely on.  This file does not
mention the model.

An operation is given with a number: so many of its allocations succeed, and the next one throws.
-/
namespace Cest.Sdel
variable {V D : Type}

/-- An object that nobody manages: its address, the type it was created with, its content. -/
abbrev Lost (V : Type) := Nat × Nat × Content V

/-- The state in which one more object has been created, managed by nobody. -/
def State.orphan (s : State V D) (y : Nat) (c : Content V) : State V D :=
  { s with
    objs := fun o => if o = s.next then some (y, c) else s.objs o
    next := s.next + 1 }

/-- What an operation leaves when an allocation fails: the state, and the object that is lost.  `none` if it
does not make so many allocations.  A constructor allocates the group, and `new` the object before it; if the
group cannot be allocated the object is lost and the deleter, if one was given, is not called (C112). -/
def upset (s : State V D) (k : Nat) : Op V D → Option (State V D × List (Lost V))
  | .make _ y c | .makeDel _ y (some c) _ _ => match k with
    | 0 => some (s, [])
    | 1 => some (s.orphan y c, [(s.next, y, c)])
    | _ => none
  | .makeDel _ _ none _ _ => match k with
    | 0 => some (s, [])
    | _ => none
  | _ => none

/-- A program whose exceptions are all caught: final state, observations (`none`: an exception was caught),
lost objects. -/
def specRunT (frees : Nat → Bool) (s : State V D) :
    List (Option Nat × Op V D) → Option (State V D × List (Option (Out V D)) × List (Lost V))
  | [] => some (s, [], [])
  | (t, op) :: ops => match specStep frees s op with
    | none => none
    | some (s', o) => match t.bind (fun k => upset s k op) with
      | none => (specRunT frees s' ops).map fun r => (r.1, some o :: r.2.1, r.2.2)
      | some (s'', l) => (specRunT frees s'' ops).map fun r => (r.1, none :: r.2.1, l ++ r.2.2)

/-- All operations of the program are supported in the state they are applied to. -/
def SupportedT (frees : Nat → Bool) (virt : Bool) (s : State V D) : List (Option Nat × Op V D) → Prop
  | [] => True
  | (t, op) :: ops => Supported virt s op ∧ match specStep frees s op with
    | none => True
    | some (s', _) => match t.bind (fun k => upset s k op) with
      | none => SupportedT frees virt s' ops
      | some (s'', _) => SupportedT frees virt s'' ops

end Cest.Sdel
