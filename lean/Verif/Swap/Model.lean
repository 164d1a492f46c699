import Verif.Core.Mem
/-
Model of nary::swap and nary::swapr (/repo/include/cest/swap.hpp), over abstract references: `get r` and
`set r v` read and assign the object a reference `r` designates.  Moving from an object leaves its value
readable (this holds for the pointers and scalars cest uses it with); the exception specification and the
`enable_if` constraints are not modelled.
-/
namespace Cest.Nary
open Cest
variable {S R T : Type}

/-- swap.hpp:26-30: the left fold `(... + wrap{xs})` over the references followed by `tmp`:
`w + w'` assigns `w.x = w'.x` and continues with `w'`. -/
def foldL (get : R → M S T) (set : R → T → M S Unit) (tmp : T) (r : R) : List R → M S Unit
  | [] => set r tmp
  | r' :: rs => do
    let v ← get r'
    set r v
    foldL get set tmp r' rs

/-- swap.hpp:14, 16-32 `swap(x, xs...)`. -/
def swap (get : R → M S T) (set : R → T → M S Unit) : List R → M S Unit
  | [] => pure ()
  | r :: rs => do
    let tmp ← get r
    foldL get set tmp r rs

/-- swap.hpp:47-51: the right fold `(wrap{xs} + ...)` over `tmp` followed by the references:
the sub-fold to the right is evaluated first, then `w + w'` assigns `w'.x = w.x`, where `w'` is the
leftmost operand of the sub-fold. -/
def foldR (get : R → M S T) (set : R → T → M S Unit) (r : R) : List R → M S Unit
  | [] => pure ()
  | r' :: rs => do
    foldR get set r' rs
    let v ← get r
    set r' v

/-- swap.hpp:34-53 `swapr(x, xs...)`: `tmp` is a copy of the last argument. -/
def swapr (get : R → M S T) (set : R → T → M S Unit) : List R → M S Unit
  | [] => pure ()
  | [_] => pure ()
  | r :: r' :: rs => do
    let tmp ← get ((r' :: rs).getLast (by simp))
    foldR get set r (r' :: rs)
    set r tmp

end Cest.Nary
