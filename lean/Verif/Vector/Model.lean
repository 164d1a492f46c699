import Verif.Core.Mem
/-
Model of cest::vector  (/repo/include/cest/vector.hpp).

Simplifications: the allocator member is stateless and omitted; `std::move_if_noexcept` and
`std::forward` are modelled as copies (same value effect; may throw like a copy); iterators are offsets
into the vector's own storage.
-/
namespace Cest.Vec
open Cest

/-- Data members m_size, m_capacity, m_p (vector.hpp:219-221). -/
structure Obj where
  size : Nat
  cap : Nat
  p : Option Nat
  deriving DecidableEq, Repr

/-- Machine states for vector programs. -/
abbrev VSt (V : Type) := St Obj (Blk V)
abbrev VM (V : Type) := M (VSt V)

/-- A `const T&` argument: either an object outside any vector, or slot `i` of some storage. -/
inductive Ref (V : Type) where
  | ext (v : V)
  | cell (p : Option Nat) (i : Nat)

variable {V : Type}

/-- Reading through the reference (happens when the callee copies it). -/
def Ref.read : Ref V → VM V V
  | .ext v => pure v
  | .cell p i => load p i

/-- vector.hpp:31 `vector()`. -/
def ctor (x : Nat) : VM V Unit := newObj x ⟨0, 0, none⟩

/-- vector.hpp:33-40 `swap`: member-wise exchange (allocator omitted). -/
def swap (x y : Nat) : VM V Unit := do
  let a ← getObj x
  let b ← getObj y
  setObj x { a with size := b.size }
  let b ← getObj y
  setObj y { b with size := a.size }
  let a ← getObj x
  let b ← getObj y
  setObj x { a with cap := b.cap }
  let b ← getObj y
  setObj y { b with cap := a.cap }
  let a ← getObj x
  let b ← getObj y
  setObj x { a with p := b.p }
  let b ← getObj y
  setObj y { b with p := a.p }

/-- vector.hpp:108-122 `reserve`. The new storage `q` is not released if an element copy throws,
exactly as in the source. -/
def reserve (x n : Nat) : VM V Unit := do
  let o ← getObj x
  if n > o.cap then
    let q ← allocArr n
    forN (fun i => do
      let v ← load o.p i
      constructAt (some q) i v) 0 o.size
    if 0 ≠ o.cap then
      destroyN o.p 0 o.size
      freeArr o.p o.cap
    setObj x { o with p := some q, cap := n }
  else pure ()

/-- vector.hpp:181-185 `clear`. -/
def clear (x : Nat) : VM V Unit := do
  let o ← getObj x
  destroyN o.p 0 o.size
  setObj x { o with size := 0 }

/-- vector.hpp:72-76 `~vector`. -/
def dtor (x : Nat) : VM V Unit := do
  clear x
  let o ← getObj x
  if 0 ≠ o.cap then freeArr o.p o.cap
  delObj x

/-- vector.hpp:189-193 (and 199-203): the growth step of `push_back`. -/
def grow (x : Nat) : VM V Unit := do
  let o ← getObj x
  if 0 = o.cap then reserve x 1
  else if o.cap = o.size then reserve x (o.cap * 2)
  else pure ()

/-- vector.hpp:187-195 `push_back(const value_type&)`; also 197-205 (rvalue overload, same effect).
`m_size` is incremented before the element is constructed, and the referenced value is read after a
possible reallocation. -/
def pushBack (x : Nat) (r : Ref V) : VM V Unit := do
  grow x
  let o ← getObj x
  setObj x { o with size := o.size + 1 }
  let v ← r.read
  constructAt o.p o.size v

/-- vector.hpp:42-48 copy constructor. It delegates to `vector()`, so if the body throws the
destructor runs. -/
def copyCtor (x y : Nat) : VM V Unit := do
  ctor x
  M.onThrow (do
    let oy ← getObj y
    reserve x oy.cap
    let oy ← getObj y
    let o ← getObj x
    setObj x { o with size := oy.size }
    let o ← getObj x
    forN (fun i => do
      let v ← load oy.p i
      constructAt o.p i v) 0 o.size) (dtor x)

/-- vector.hpp:50-53 move constructor. -/
def moveCtor (x y : Nat) : VM V Unit := do
  ctor x
  swap x y

/-- vector.hpp:55-63 `vector(count)`: value-initialised elements. Not delegating: if it throws, no
destructor runs (the variable just never comes to life). -/
def ctorN [Inhabited V] (x n : Nat) : VM V Unit := do
  ctor x
  M.onThrow (do
    reserve x n
    let o ← getObj x
    setObj x { o with size := n }
    let o ← getObj x
    forN (fun i => constructAt o.p i default) 0 o.size) (delObj x)

/-- vector.hpp:69 the loop over the initializer list. -/
def pushAll (x : Nat) : List V → VM V Unit
  | [] => pure ()
  | v :: vs => do pushBack x (.ext v); pushAll x vs

/-- vector.hpp:65-70 initializer-list constructor. -/
def ctorList (x : Nat) (vs : List V) : VM V Unit := do
  ctor x
  M.onThrow (pushAll x vs) (delObj x)

/-- vector.hpp:78-82 move assignment (exchanges contents). -/
def moveAssign (x y : Nat) : VM V Unit := swap x y

/-- vector.hpp:84-102 copy assignment. -/
def copyAssign (x y : Nat) : VM V Unit := do
  let oy ← getObj y
  reserve x oy.cap
  let oy ← getObj y
  let o ← getObj x
  if oy.size ≥ o.size then
    forN (fun i => do
      let v ← load oy.p i
      store o.p i v) 0 o.size
    forN (fun i => do
      let v ← load oy.p i
      constructAt o.p i v) o.size (oy.size - o.size)
  else
    forN (fun i => do
      let v ← load oy.p i
      store o.p i v) 0 oy.size
    destroyN o.p oy.size (o.size - oy.size)
  let oy ← getObj y
  let o ← getObj x
  setObj x { o with size := oy.size }

/-- vector.hpp:105 `empty`. -/
def empty (x : Nat) : VM V Bool := do return (← getObj x).size == 0
/-- vector.hpp:106 `size`. -/
def size (x : Nat) : VM V Nat := do return (← getObj x).size
/-- vector.hpp:107 `capacity`. -/
def capacity (x : Nat) : VM V Nat := do return (← getObj x).cap
/-- vector.hpp:147-148 `data`. -/
def data (x : Nat) : VM V (Option Nat) := do return (← getObj x).p

/-- vector.hpp:124-135 `resize`. -/
def resize [Inhabited V] (x n : Nat) : VM V Unit := do
  let o ← getObj x
  if n > o.size then
    reserve x n
    let o ← getObj x
    forN (fun i => constructAt o.p i default) o.size (n - o.size)
  else if n < o.size then
    destroyN o.p n (o.size - n)
  let o ← getObj x
  setObj x { o with size := n }

/-- vector.hpp:162 `pop_back`. On an empty vector `--m_size` wraps and the access is out of range. -/
def popBack (x : Nat) : VM V Unit := do
  let o ← getObj x
  if o.size = 0 then M.ub .precond
  setObj x { o with size := o.size - 1 }
  destroyN o.p (o.size - 1) 1

/-- vector.hpp:164-176 `at` (both overloads), result read as a value. -/
def at_ (x i : Nat) : VM V V := do
  let o ← getObj x
  if i ≥ o.size then M.throw .outOfRange
  load o.p i

/-- vector.hpp:178-179 `operator[]`, read. -/
def get (x i : Nat) : VM V V := do
  let o ← getObj x
  load o.p i

/-- vector.hpp:178 `v[i] = val`. -/
def set (x i : Nat) (v : V) : VM V Unit := do
  let o ← getObj x
  store o.p i v

/-- vector.hpp:143-144 `front`. -/
def front (x : Nat) : VM V V := do
  let o ← getObj x
  load o.p 0

/-- vector.hpp:145-146 `back` (`*(end()-1)`). -/
def back (x : Nat) : VM V V := do
  let o ← getObj x
  if o.size = 0 then M.ub .oob
  load o.p (o.size - 1)

/-- Traversal `for (it = begin(); it != end(); ++it)` collecting `*it` (vector.hpp:137-142). -/
def collect (p : Option Nat) (i : Nat) : Nat → VM V (List V)
  | 0 => pure []
  | n+1 => do
    let v ← load p i
    let vs ← collect p (i+1) n
    return v :: vs
def toList (x : Nat) : VM V (List V) := do
  let o ← getObj x
  collect o.p 0 o.size

/-- vector.hpp:207-217 `erase(begin()+i, begin()+j)`, returning the offset of the resulting iterator.
With `j` beyond the end the first loop runs past the storage, and a negative `last - first` makes the
destruction count meaningless: both are undefined behaviour. -/
def erase (x i j : Nat) : VM V Nat := do
  let o ← getObj x
  if j > o.size ∨ i > j then M.ub .precond
  forN (fun k => do
    let v ← load o.p (j + k)
    store o.p (i + k) v) 0 (o.size - j)
  destroyN o.p (o.size - (j - i)) (j - i)
  setObj x { o with size := o.size - (j - i) }
  return i

/-- `std::equal` over two element ranges. -/
def equalLoop [BEq V] (p q : Option Nat) (i : Nat) : Nat → VM V Bool
  | 0 => pure true
  | n+1 => do
    let a ← load p i
    let b ← load q i
    if a == b then equalLoop p q (i+1) n else return false

/-- vector.hpp:225-229 `operator==`. -/
def eq [BEq V] (x y : Nat) : VM V Bool := do
  let a ← getObj x
  let b ← getObj y
  if a.size == b.size then equalLoop a.p b.p 0 a.size else return false

end Cest.Vec
