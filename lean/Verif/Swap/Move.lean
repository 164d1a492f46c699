import Verif.Core.Mem
/-
Model of nary::swap and nary::swapr (/repo/include/cest/swap.hpp) that keeps track of moves: moving from an object leaves it without
a value, and the arguments may name the same object more than once.  Assigning an object to itself by move loses its value, which is the
worst a move assignment may do.
-/
namespace Cest.Nary.Move
open Cest
variable {R T : Type} [DecidableEq R]

/-- The objects: `none` is an object that was moved from. -/
abbrev Objs (R T : Type) := R → Option T

/-- `T tmp = std::move(r)` (swap.hpp:24, 45). -/
def take (r : R) : M (Objs R T) (Option T) := fun s => .ok (s r) fun q => if q = r then none else s q

/-- `r = std::move(tmp)`, where `tmp` is none of the objects. -/
def fill (r : R) (v : Option T) : M (Objs R T) Unit := fun s => .ok () fun q => if q = r then v else s q

/-- `r = std::move(r')`. -/
def move (r r' : R) : M (Objs R T) Unit := fun s =>
  if r = r' then .ok () fun q => if q = r then none else s q
  else .ok () fun q => if q = r then s r' else if q = r' then none else s q

/-- The left fold over the references and `tmp` (swap.hpp:26-30). -/
def foldL (tmp : Option T) (r : R) : List R → M (Objs R T) Unit
  | [] => fill r tmp
  | r' :: rs => do
    move r r'
    foldL tmp r' rs

/-- `swap(x, xs...)` (swap.hpp:14, 16-32). -/
def swap : List R → M (Objs R T) Unit
  | [] => pure ()
  | r :: rs => do
    let tmp ← take r
    foldL tmp r rs

/-- The right fold (swap.hpp:47-51): the operands on the right first. -/
def foldR (r : R) : List R → M (Objs R T) Unit
  | [] => pure ()
  | r' :: rs => do
    foldR r' rs
    move r' r

/-- `swapr(x, xs...)` (swap.hpp:34-53). -/
def swapr : List R → M (Objs R T) Unit
  | [] => pure ()
  | [_] => pure ()
  | r :: r' :: rs => do
    let tmp ← take ((r' :: rs).getLast (by simp))
    foldR r (r' :: rs)
    fill r tmp

end Cest.Nary.Move
