import Verif.Core.Mem
/-
Model of cest::unique_ptr (/repo/include/cest/memory.hpp) and cest::function
(/repo/include/cest/functional.hpp).

`V` is the pointee type.  A block of the machine is one object created by `new`.

Simplifications.
* `delete` ends the lifetime of the object and releases its storage in one step; the pointee's destructor
  has no effect on other variables.
* Raw pointers held by the client (results of `release`, arguments of constructor and `reset`) are
  variables of kind `raw`.
* `unique_ptr<U>` to `unique_ptr<T>` conversion is the case `U = T`.
* The relational operators on addresses (memory.hpp:107-133) and stream output are not modelled.
-/
namespace Cest.Uptr
open Cest

/-- What a pointer variable is. -/
inductive Kind where
  | up        -- unique_ptr (or the unique_ptr inside a cest::function)
  | raw       -- T* of the client
  deriving DecidableEq

/-- A named variable: a pointer, or a callable object of the client (functional.hpp). -/
inductive Obj (V : Type) where
  | ptr (k : Kind) (p : Option Nat)
  | val (v : V)

abbrev USt (V : Type) := St (Obj V) V
abbrev UM (V : Type) := M (USt V)

variable {V : Type}

/-- Value of member `ptr_` (memory.hpp:18) or of a raw pointer variable. -/
def getPtr (k : Kind) (x : Nat) : UM V (Option Nat) := do
  match ← getObj x with
  | .ptr k' p => if k' = k then return p else M.ub .noObject
  | .val _ => M.ub .noObject
/-- Assignment to it. -/
def setPtr (k : Kind) (x : Nat) (p : Option Nat) : UM V Unit := do
  let _ ← getPtr k x
  setObj x (.ptr k p)

/-- `delete p`; deleting null has no effect. -/
def del : Option Nat → UM V Unit
  | none => pure ()
  | some a => freeC a

/-- memory.hpp:31-33 `unique_ptr()`. -/
def ctor (x : Nat) : UM V Unit := newObj x (.ptr .up none)
/-- memory.hpp:35-37 `unique_ptr(T*)`. -/
def ctorPtr (x : Nat) (p : Option Nat) : UM V Unit := newObj x (.ptr .up p)
/-- memory.hpp:63-68 `release`. -/
def release (x : Nat) : UM V (Option Nat) := do
  let p ← getPtr .up x
  setPtr .up x none
  return p
/-- memory.hpp:39-42 move constructor. -/
def ctorMove (x y : Nat) : UM V Unit := do
  let p ← release y
  ctorPtr x p
/-- memory.hpp:44-49 move assignment: `swap(other.ptr_, ptr_)`. -/
def moveAssign (x y : Nat) : UM V Unit := do
  let tmp ← getPtr .up y
  let p ← getPtr .up x
  setPtr .up y p
  setPtr .up x tmp
/-- memory.hpp:53-57 destructor. -/
def dtor (x : Nat) : UM V Unit := do
  let p ← getPtr .up x
  if p.isSome then del p
  delObj x
/-- memory.hpp:61 `get`. -/
def get (x : Nat) : UM V (Option Nat) := getPtr .up x
/-- memory.hpp:70-78 `reset`. -/
def reset (x : Nat) (n : Option Nat) : UM V Unit := do
  let p ← getPtr .up x
  setPtr .up x n
  if p.isSome then del p
/-- memory.hpp:80-85 `*p` (read). -/
def star (x : Nat) : UM V V := do
  let a ← deref (← getPtr .up x)
  getC a
/-- memory.hpp:84-85 `*p = v`. -/
def starSet (x : Nat) (v : V) : UM V Unit := do
  let a ← deref (← getPtr .up x)
  setC a v
/-- memory.hpp:87 `operator bool`. -/
def toBool (x : Nat) : UM V Bool := do return (← getPtr .up x).isSome
/-- memory.hpp:93-98 `operator==`. -/
def eq (x y : Nat) : UM V Bool := do
  let a ← get x
  let b ← get y
  return a == b
/-- memory.hpp:100-105 `operator!=`. -/
def ne (x y : Nat) : UM V Bool := do
  let a ← get x
  let b ← get y
  return a != b
/-- memory.hpp:135-139 `make_unique` (the result is constructed in place). -/
def makeUnique (x : Nat) (v : V) : UM V Unit := do
  let a ← allocC v
  ctorPtr x (some a)

/-! ### function (functional.hpp)

A callable object has type `V`; calling it with arguments `A` gives a result `R` and its new state. -/

variable {A R : Type}

/-- Value of a callable variable of the client. -/
def getVal (c : Nat) : UM V V := do
  match ← getObj c with
  | .val v => return v
  | .ptr _ _ => M.ub .noObject

/-- A direct call `c(a)` of a callable variable of the client. -/
def callVal (call : V → A → R × V) (c : Nat) (a : A) : UM V R := do
  let v ← getVal c
  setObj c (.val (call v a).2)
  return (call v a).1

/-- functional.hpp:60-63 / 76-79 `function(F&& f)`: `impl_f` is created on the heap and initialises its
member by copying (functional.hpp:25 `f_(f)`: `f` is an lvalue there). -/
def funCtor (x c : Nat) : UM V Unit := do
  let v ← getVal c
  makeUnique x v

/-- functional.hpp:56-58 / 72-74 `operator()`: virtual call on the heap object (functional.hpp:27-29). -/
def funCall (call : V → A → R × V) (x : Nat) (a : A) : UM V R := do
  let p ← deref (← getPtr .up x)
  let v ← getC p
  setC p (call v a).2
  return (call v a).1

/-- Implicit move constructor, move assignment and destructor of `function` (member `f_`,
functional.hpp:53). -/
def funMove (x y : Nat) : UM V Unit := ctorMove x y
def funMoveAssign (x y : Nat) : UM V Unit := moveAssign x y
def funDtor (x : Nat) : UM V Unit := dtor x

end Cest.Uptr
