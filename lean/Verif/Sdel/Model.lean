import Verif.Core.Mem
import Verif.Sdel.Spec
/-
Model of cest::shared_ptr with deleters, arrays and pointers to derived classes
(/repo/include/cest/shared_ptr.hpp).  `Sptr/Model.lean` has the members that do not depend on the deleter.

Simplifications.
* Of the specification file only the client-side types are used: `Content`, `Op`, `Out`, `Call`.
* A deleter is a type number and a value; calling it appends to a log and, if its type is one that
  deletes, releases the object.  Deleters neither throw nor touch shared_ptr variables.
* A dynamically created object records the type it was created with (0 is `T`).  `delete` of a `T*` whose
  object has another type is undefined unless the destructor is virtual (`virt`).
* `long count_` is an unbounded integer.
-/
namespace Cest.Sdel
open Cest

/-- Members `ptr_` and `pctrl_` (shared_ptr.hpp:114-115). -/
structure Obj where
  ptr : Option Nat
  ctrl : Option Nat

/-- The type `ctrl_derived<U, Deleter>` of a control block and its member `del_` (shared_ptr.hpp:55-63):
`def_del<T>`, `def_del<T[]>` (65-66) or a deleter of the client. -/
inductive Del (D : Type) where
  | one
  | arr
  | user (k : Nat) (d : D)

/-- A created object or array (with the type it was created with), or a control block: `count_` (52), the
type `U` of `ptr_`, `ptr_` (61) and `del_` (62). -/
inductive Cell (V D : Type) where
  | obj (y : Nat) (c : Content V)
  | ctrl (count : Int) (u : Nat) (managed : Option Nat) (del : Del D)

/-- The machine, and the log of the calls of the client's deleters. -/
structure DSt (V D : Type) where
  st : St Obj (Cell V D)
  log : List (Call D)

def DSt.init {V D : Type} : DSt V D := ⟨St.init, []⟩

abbrev DM (V D : Type) := M (DSt V D)

variable {V D : Type}

/-- A machine operation that does not touch the log. -/
def lift {α : Type} (m : M (St Obj (Cell V D)) α) : DM V D α := fun s =>
  match m s.st with
  | .ok a t => .ok a { s with st := t }
  | .throw e t => .throw e { s with st := t }
  | .ub u => .ub u
  | .timeout => .timeout

/-- Access to a control block through `pctrl_`. -/
def getCtrl (c : Option Nat) : DM V D (Nat × Int × Nat × Option Nat × Del D) := do
  let a ← deref c
  match ← lift (getC a) with
  | .ctrl n u m d => return (a, n, u, m, d)
  | .obj _ _ => M.ub .dangling

section
variable (frees : Nat → Bool) (virt : Bool)

/-- `default_delete<T>::operator()` (shared_ptr.hpp:22): `delete ptr` with `ptr` of type `T*`. -/
def delOne : Option Nat → DM V D Unit
  | none => pure ()
  | some a => do
    match ← lift (getC a) with
    | .obj y (.one _) => if y = 0 ∨ virt = true then lift (freeC a) else M.ub .badFree
    | _ => M.ub .badFree

/-- `default_delete<T[]>::operator()` (shared_ptr.hpp:33-34): `delete [] ptr`. -/
def delArr : Option Nat → DM V D Unit
  | none => pure ()
  | some a => do
    match ← lift (getC a) with
    | .obj 0 (.arr _) => lift (freeC a)
    | _ => M.ub .badFree

/-- Record a deleter call (for the statements; no counterpart in the code). -/
def logCall (c : Call D) : DM V D Unit := fun s => .ok () { s with log := s.log ++ [c] }

/-- A call of a deleter of the client. -/
def callDel (k : Nat) (d : D) (p : Option Nat) : DM V D Unit := do
  logCall ⟨k, d, p⟩
  match p with
  | none => pure ()
  | some a =>
    if frees k then do
      match ← lift (getC a) with
      | .obj _ _ => lift (freeC a)
      | .ctrl _ _ _ _ => M.ub .badFree
    else pure ()

/-- shared_ptr.hpp:59 `ctrl_derived::destroy`: `del_(ptr_)`. -/
def destroy (m : Option Nat) : Del D → DM V D Unit
  | .one => delOne virt m
  | .arr => delArr m
  | .user k d => callDel frees k d m

/-- shared_ptr.hpp:75-77 `shared_ptr(Y* ptr)` for `T` and for `T[]`: the deleter is `def_del<Td>`. -/
def ctorPtr (x y : Nat) (p : Option Nat) (arr : Bool) : DM V D Unit := do
  let c ← lift (allocC (.ctrl 1 y p (if arr then .arr else .one)))
  lift (newObj x ⟨p, some c⟩)

/-- shared_ptr.hpp:79-81 `shared_ptr(Y* ptr, Deleter del)`. -/
def ctorDel (x y : Nat) (p : Option Nat) (k : Nat) (d : D) : DM V D Unit := do
  let c ← lift (allocC (.ctrl 1 y p (.user k d)))
  lift (newObj x ⟨p, some c⟩)

/-- shared_ptr.hpp:83-84 copy constructor. -/
def ctorCopy (x z : Nat) : DM V D Unit := do
  let r ← lift (getObj z)
  lift (newObj x ⟨r.ptr, r.ctrl⟩)
  let (a, n, u, m, d) ← getCtrl r.ctrl
  lift (setC a (.ctrl (n + 1) u m d))

/-- shared_ptr.hpp:90-97 destructor. -/
def dtor (x : Nat) : DM V D Unit := do
  let r ← lift (getObj x)
  match r.ctrl with
  | none => lift (delObj x)
  | some _ => do
    let (a, n, u, m, d) ← getCtrl r.ctrl
    lift (setC a (.ctrl (n - 1) u m d))
    if n - 1 = 0 then do
      destroy frees virt m d
      lift (freeC a)
      lift (delObj x)
    else lift (delObj x)
end

/-- shared_ptr.hpp:99-101 `use_count`. -/
def useCount (x : Nat) : DM V D Int := do
  let r ← lift (getObj x)
  match r.ctrl with
  | none => return 0
  | some _ => do
    let (_, n, _) ← getCtrl r.ctrl
    return n

/-- shared_ptr.hpp:118-132 `get_deleter<Deleter>(p)` for a `Deleter` that can be called with a `T*`: a
`dynamic_cast` of `pctrl_` to `ctrl_derived<T, Deleter>`, null for a null pointer.  The result is the
deleter pointed to. -/
def getDeleter (x k : Nat) : DM V D (Option D) := do
  let r ← lift (getObj x)
  match r.ctrl with
  | none => return none
  | some _ => do
    let (_, _, u, _, d) ← getCtrl r.ctrl
    match d with
    | .user k' d => return if u = 0 ∧ k' = k then some d else none
    | _ => return none

/-- shared_ptr.hpp:105 `*x` (read). -/
def star (x : Nat) : DM V D V := do
  let r ← lift (getObj x)
  let a ← deref r.ptr
  match ← lift (getC a) with
  | .obj _ (.one v) => return v
  | .obj _ (.arr (v :: _)) => return v
  | _ => M.ub .dangling

/-- Element `i` of the array a pointer points to (pointer arithmetic and access). -/
def elem (vs : List V) (i : Int) : Option V := if i < 0 then none else vs[i.toNat]?

/-- shared_ptr.hpp:159-161 `x[i]` (read): `get()[i]`. -/
def index (x : Nat) (i : Int) : DM V D V := do
  let r ← lift (getObj x)
  let a ← deref r.ptr
  match ← lift (getC a) with
  | .obj _ (.arr vs) => match elem vs i with
    | some v => return v
    | none => M.ub .oob
  | _ => M.ub .dangling

/-- shared_ptr.hpp:159-161 `x[i] = v`. -/
def indexSet (x : Nat) (i : Int) (v : V) : DM V D Unit := do
  let r ← lift (getObj x)
  let a ← deref r.ptr
  match ← lift (getC a) with
  | .obj y (.arr vs) => match elem vs i with
    | some _ => lift (setC a (.obj y (.arr (vs.set i.toNat v))))
    | none => M.ub .oob
  | _ => M.ub .dangling

/-! ### Client programs -/

def Content.isArr : Content V → Bool
  | .one _ => false
  | .arr _ => true

def runOp (frees : Nat → Bool) (virt : Bool) : Op V D → DM V D (Out V D)
  | .make x y c => do
      let a ← lift (allocC (.obj y c))
      ctorPtr x y (some a) c.isArr
      return .unit
  | .makeDel x y (some c) k d => do
      let a ← lift (allocC (.obj y c))
      ctorDel x y (some a) k d
      return .unit
  | .makeDel x y none k d => do ctorDel x y none k d; return .unit
  | .copy x z => do ctorCopy x z; return .unit
  | .destroy x => do dtor frees virt x; return .unit
  | .useCount x => do return .count (← useCount x)
  | .getDel x k => do return .del (← getDeleter x k)
  | .get x => do return .val (← star x)
  | .idx x i => do return .val (← index x i)
  | .idxSet x i v => do indexSet x i v; return .unit

def runOps (frees : Nat → Bool) (virt : Bool) : List (Op V D) → DM V D (List (Out V D))
  | [] => pure []
  | op :: ops => do
    let o ← runOp frees virt op
    let os ← runOps frees virt ops
    return o :: os

end Cest.Sdel
