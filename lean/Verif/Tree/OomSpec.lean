import Verif.Tree.Spec
/-
What a user of cest::set and cest::map sees when storage runs out and the exception is caught.  Every operation
of a program comes with a number: how many of its allocations and element copies succeed before one throws
(`none`: they all succeed).  A new element takes an allocation, then two copies.
This file does not mention the model.
-/
namespace Cest.Tree
variable {V K : Type}

/-- What an operation comes to in which `k` allocations and element copies succeed and the next one throws. -/
inductive Upset (V : Type) where
  | none                      -- it has no more than `k` of them, so it does not throw
  | caught (e : Env V)        -- it throws, and leaves this
  | broken                    -- copying an element into a new node throws: outside this specification, see C79

/-- Copying the elements `t` of one container to another: with `k` operations that succeed, after `k / 3` elements
there is no storage for the next. -/
def upsetCopy (t : Seq V) (k : Nat) (left : Env V) : Upset V :=
  if k < 3 * t.length then (if k % 3 = 0 then .caught left else .broken) else .none

def upset (g : Cfg V K) (e : Env V) (op : Op V K) (k : Nat) : Upset V :=
  match op with
  | .insert x v _ | .insertHint x _ v _ => match e.sets x with
    | some s => match lookup g s (g.key v) with
      | some _ => .none                       -- nothing to be created
      | none => if k = 0 then .caught e else if k < 3 then .broken else .none
    | none => .none
  | .write .. => if k = 0 then .caught e else .none
  | .newCopy _ y => match e.sets y with
    | some t => upsetCopy t k (e.bump (k / 3))  -- there is no new container
    | none => .none
  | .assign x y => match e.sets y with
    | some t => upsetCopy t k      -- the elements copied so far
        ((e.setL x (some (number e.next ((t.map Prod.snd).take (k / 3))))).bump (k / 3))
    | none => .none
  | _ => .none

/-- A program whose exceptions are all caught: final environment and observations (`none`: an exception was caught). -/
def specRunT [DecidableEq K] (g : Cfg V K) (e : Env V) :
    List (Option Nat × Op V K) → Option (Env V × List (Option (Out V)))
  | [] => some (e, [])
  | (t, op) :: ops =>
    match specStep g e op with
    | none => none
    | some (e', o) =>
      match t.elim .none (upset g e op) with
      | .none => (specRunT g e' ops).map fun r => (r.1, some o :: r.2)
      | .caught e'' => (specRunT g e'' ops).map fun r => (r.1, none :: r.2)
      | .broken => none

end Cest.Tree
