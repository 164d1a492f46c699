import Verif.List.Spec
/-
What a user of cest::list sees when operations may throw and the exceptions are caught.  Every operation
of a program comes with a number: how many of its allocations and element copies succeed before one
throws (`none`: they all succeed).  A new element takes an allocation, then a copy.
This file does not mention the model.
-/
namespace Cest.Lst
variable {V : Type}

/-- Effect of one operation in which `k` allocations and element copies succeed and the next one throws:
what the lists and iterators are afterwards, and how many blocks of storage are lost.
`none`: it has no more than `k` of them, so it does not throw. -/
def specThrow (e : Env V) (op : Op V) (k : Nat) : Option (Env V × Nat) :=
  match op with
  | .pushBack .. | .pushFront .. | .emplaceBack .. | .emplaceFront .. | .insert .. | .emplace .. =>
    if k = 0 then some (e, 0)            -- allocation failed: nothing happened
    else if k = 1 then some (e.bump 1, 1) -- copy failed: the new block is lost
    else none
  | .set .. => if k = 0 then some (e, 0) else none
  | .newCopy _ y => match e.lists y with
    | some t => if k < 2 * t.length then some (e.bump ((k + 1) / 2), k % 2) else none
    | none => none
  | .assign x y => match e.lists y with
    | some t =>
      if k < 2 * t.length then
        some ((e.setL x (some (number e.next ((t.map Prod.snd).take (k / 2))))).bump ((k + 1) / 2), k % 2)
      else none
    | none => none
  | _ => none

/-- A program whose exceptions are all caught: final environment, observations (`none`: an exception was
caught), and the number of blocks of storage lost. -/
def specRunT (e : Env V) : List (Option Nat × Op V) → Option (Env V × List (Option (Out V)) × Nat)
  | [] => some (e, [], 0)
  | (t, op) :: ops =>
    match specStep e op with
    | none => none
    | some (e', o) =>
      match t.bind (specThrow e op) with
      | none => (specRunT e' ops).map fun r => (r.1, some o :: r.2.1, r.2.2)
      | some (e'', n) => (specRunT e'' ops).map fun r => (r.1, none :: r.2.1, n + r.2.2)

end Cest.Lst
