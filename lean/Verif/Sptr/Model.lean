import Verif.Core.Mem
/-
Model of cest::shared_ptr (/repo/include/cest/shared_ptr.hpp).

A block of the machine is either an object of type `V` created by `new`, or a control block.

Simplifications.
* The deleter is `delete` of the managed object (shared_ptr.hpp:14-23, the default); the pointee's
  destructor has no effect on other variables.
* `long count_` is an unbounded integer.
* Aliasing construction takes its pointer from another shared_ptr's `get()`.
* `get_deleter`, `operator[]` of the array form and stream output are not modelled.
-/
namespace Cest.Sptr
open Cest

/-- Members `ptr_` and `pctrl_` (shared_ptr.hpp:114-115). -/
structure Obj where
  ptr : Option Nat
  ctrl : Option Nat
  deriving DecidableEq

/-- Dynamically created objects: a pointee, or a control block (shared_ptr.hpp:46-63: `count_`, `ptr_`). -/
inductive Cell (V : Type) where
  | val (v : V)
  | ctrl (count : Int) (managed : Option Nat)

abbrev SSt (V : Type) := St Obj (Cell V)
abbrev SM (V : Type) := M (SSt V)

variable {V : Type}

/-- Access to a control block through `pctrl_`. -/
def getCtrl (c : Option Nat) : SM V (Nat × Int × Option Nat) := do
  let a ← deref c
  match ← getC a with
  | .ctrl n m => return (a, n, m)
  | .val _ => M.ub .dangling

/-- `delete p` of a pointee. -/
def del : Option Nat → SM V Unit
  | none => pure ()
  | some a => do
    match ← getC a with
    | .val _ => freeC a
    | .ctrl _ _ => M.ub .badFree

/-- shared_ptr.hpp:72-73 `shared_ptr()` and `shared_ptr(nullptr)`: both members null. -/
def ctor (x : Nat) : SM V Unit := newObj x ⟨none, none⟩

/-- shared_ptr.hpp:75-77 `shared_ptr(Y* ptr)`: `new ctrl_derived` with count 1 (48, 58). -/
def ctorPtr (x : Nat) (p : Option Nat) : SM V Unit := do
  let c ← allocC (.ctrl 1 p)
  newObj x ⟨p, some c⟩

/-- `++pctrl_->count_`. -/
def incr (c : Option Nat) : SM V Unit := do
  let (a, n, m) ← getCtrl c
  setC a (.ctrl (n + 1) m)

/-- shared_ptr.hpp:83-84 copy constructor. -/
def ctorCopy (x y : Nat) : SM V Unit := do
  let r ← getObj y
  newObj x ⟨r.ptr, r.ctrl⟩
  incr r.ctrl

/-- shared_ptr.hpp:86-88 aliasing constructor. -/
def ctorAlias (x y : Nat) (p : Option Nat) : SM V Unit := do
  let r ← getObj y
  newObj x ⟨p, r.ctrl⟩
  incr r.ctrl

/-- shared_ptr.hpp:59 `ctrl_derived::destroy`: `del_(ptr_)`. -/
def destroy (m : Option Nat) : SM V Unit := del m

/-- shared_ptr.hpp:90-97 destructor. -/
def dtor (x : Nat) : SM V Unit := do
  let r ← getObj x
  match r.ctrl with
  | none => delObj x
  | some _ => do
    let (a, n, m) ← getCtrl r.ctrl
    setC a (.ctrl (n - 1) m)
    if n - 1 = 0 then do
      destroy m
      freeC a
      delObj x
    else delObj x

/-- shared_ptr.hpp:99-101 `use_count`. -/
def useCount (x : Nat) : SM V Int := do
  let r ← getObj x
  match r.ctrl with
  | none => return 0
  | some _ => do
    let (_, n, _) ← getCtrl r.ctrl
    return n

/-- shared_ptr.hpp:103 `get`. -/
def get (x : Nat) : SM V (Option Nat) := do return (← getObj x).ptr

/-- shared_ptr.hpp:105-106 `*x` (read). -/
def star (x : Nat) : SM V V := do
  let r ← getObj x
  let a ← deref r.ptr
  match ← getC a with
  | .val v => return v
  | .ctrl _ _ => M.ub .dangling

/-- shared_ptr.hpp:105-106 `*x = v`. -/
def starSet (x : Nat) (v : V) : SM V Unit := do
  let r ← getObj x
  let a ← deref r.ptr
  match ← getC a with
  | .val _ => setC a (.val v)
  | .ctrl _ _ => M.ub .dangling

/-- shared_ptr.hpp:108 `operator bool`. -/
def toBool (x : Nat) : SM V Bool := do return (← getObj x).ptr.isSome

/-- Copy assignment.  shared_ptr.hpp declares none, so `shared_ptr` (137-146) and its base (42-116) have
the implicitly-declared one, which assigns the members `ptr_` and `pctrl_` one by one. -/
def assign (x y : Nat) : SM V Unit := do
  let r ← getObj y
  let _ ← getObj x
  setObj x ⟨r.ptr, r.ctrl⟩

end Cest.Sptr
