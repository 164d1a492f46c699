import Verif.Core.Mem
/-
Model of cest::list  (/repo/include/cest/list.hpp).

Simplifications: the allocator member is stateless and omitted; `std::move`/`std::forward` arguments are
modelled as values (`emplace` builds one value from its arguments); `const_iterator`/`iterator` are both
the node pointer they wrap.  Pointer-chasing loops take fuel.
-/
namespace Cest.Lst
open Cest

/-- `node_base*`: null, the sentinel `&m_node` inside list variable `x`, or an allocated node. -/
inductive Ptr where
  | null
  | head (x : Nat)
  | node (a : Nat)
  deriving DecidableEq, Repr

/-- Data members m_node.next, m_node.prev, m_size (list.hpp:48-49, 293-294). -/
structure Obj where
  next : Ptr
  prev : Ptr
  size : Nat
  deriving DecidableEq, Repr

/-- An allocated node: links and, while its lifetime lasts, the value (list.hpp:48-56). -/
structure Cell (V : Type) where
  next : Ptr
  prev : Ptr
  val : Option V

abbrev LSt (V : Type) := St Obj (Cell V)
abbrev LM (V : Type) := M (LSt V)

variable {V : Type}

/-- `p->next`. -/
def getNext : Ptr → LM V Ptr
  | .null => M.ub .null
  | .head x => do let o ← getObj x; pure o.next
  | .node a => do let c ← getC a; pure c.next

/-- `p->prev`. -/
def getPrev : Ptr → LM V Ptr
  | .null => M.ub .null
  | .head x => do let o ← getObj x; pure o.prev
  | .node a => do let c ← getC a; pure c.prev

/-- `p->next = q`. -/
def setNext (p q : Ptr) : LM V Unit :=
  match p with
  | .null => M.ub .null
  | .head x => do let o ← getObj x; setObj x { o with next := q }
  | .node a => do let c ← getC a; setC a { c with next := q }

/-- `p->prev = q`. -/
def setPrev (p q : Ptr) : LM V Unit :=
  match p with
  | .null => M.ub .null
  | .head x => do let o ← getObj x; setObj x { o with prev := q }
  | .node a => do let c ← getC a; setC a { c with prev := q }

/-- `static_cast<node*>(p)->value` read; the sentinel has no value member. -/
def getVal : Ptr → LM V V
  | .null => M.ub .null
  | .head _ => M.ub .oob
  | .node a => do
    let c ← getC a
    match c.val with
    | some v => pure v
    | none => M.ub .deadRead

/-- Assignment through `static_cast<node*>(p)->value`. -/
def setVal (p : Ptr) (v : V) : LM V Unit :=
  match p with
  | .null => M.ub .null
  | .head _ => M.ub .oob
  | .node a => do
    let c ← getC a
    match c.val with
    | some _ => do tick .elem; setC a { c with val := some v }
    | none => M.ub .deadRead

/-- `m_node_alloc.allocate(1)`. -/
def allocNode : LM V Nat := allocC ⟨.null, .null, none⟩

/-- `std::construct_at(new_node, v)` (list.hpp:48-49, 54): links point to the node itself. -/
def constructNode (a : Nat) (v : V) : LM V Unit := do
  let c ← getC a
  match c.val with
  | some _ => M.ub .liveConstruct
  | none => do
    tick .elem
    setC a ⟨.node a, .node a, some v⟩

/-- `std::destroy_at(&tmp->value)`. -/
def destroyVal : Ptr → LM V Unit
  | .null => M.ub .null
  | .head _ => M.ub .oob
  | .node a => do
    let c ← getC a
    match c.val with
    | some _ => setC a { c with val := none }
    | none => M.ub .deadDestroy

/-- `m_node_alloc.deallocate(tmp, 1)`. -/
def freeNode : Ptr → LM V Unit
  | .null => M.ub .badFree
  | .head _ => M.ub .badFree
  | .node a => do
    let c ← getC a
    match c.val with
    | some _ => M.ub .liveFree
    | none => freeC a

/-- list.hpp:139 `list()` (sentinel links to itself, list.hpp:48-49). -/
def ctor (x : Nat) : LM V Unit := newObj x ⟨.head x, .head x, 0⟩

/-- list.hpp:170-172 `begin`. -/
def begin_ (x : Nat) : LM V Ptr := getNext (.head x)
/-- list.hpp:174-176 `end`. -/
def end_ (x : Nat) : LM V Ptr := do let _ ← getObj x; pure (.head x)
/-- list.hpp:66-68, 108-110 `*it`. -/
def deref (p : Ptr) : LM V V := getVal p
/-- list.hpp:74-76, 116-118 `++it`. -/
def inc (p : Ptr) : LM V Ptr := getNext p
/-- list.hpp:82-84, 124-126 `--it`. -/
def dec (p : Ptr) : LM V Ptr := getPrev p
/-- list.hpp:90-92, 132-134 `it == it'`. -/
def itEq (p q : Ptr) : Bool := p == q

/-- list.hpp:179 `empty`. -/
def empty (x : Nat) : LM V Bool := do let o ← getObj x; pure (o.size == 0)
/-- list.hpp:181 `size`. -/
def size (x : Nat) : LM V Nat := do let o ← getObj x; pure o.size
/-- list.hpp:160-161 `front`. -/
def front (x : Nat) : LM V V := do let p ← begin_ x; deref p
/-- list.hpp:163-168 `back`. -/
def back (x : Nat) : LM V V := do let p ← end_ x; let p ← dec p; deref p

/-- Loop of `clear` (list.hpp:191-196). -/
def clearLoop (x : Nat) : Nat → Ptr → LM V Unit
  | 0, _ => M.timeout
  | fuel+1, curr =>
    if curr = .head x then pure ()
    else do
      let nx ← getNext curr
      destroyVal curr
      freeNode curr
      clearLoop x fuel nx

/-- list.hpp:188-200 `clear`. -/
def clear (fuel x : Nat) : LM V Unit := do
  let curr ← getNext (.head x)
  clearLoop x fuel curr
  setNext (.head x) (.head x)
  setPrev (.head x) (.head x)
  let o ← getObj x
  setObj x { o with size := 0 }

/-- list.hpp:140 `~list`. -/
def dtor (fuel x : Nat) : LM V Unit := do
  clear fuel x
  delObj x

/-- list.hpp:212-232 `insert(pos, const T&)`. -/
def insert (x : Nat) (p : Ptr) (v : V) : LM V Ptr := do
  let n ← allocNode
  constructNode n v
  setNext (.node n) p
  let pp ← getPrev p
  setPrev (.node n) pp
  let pp ← getPrev p
  setNext pp (.node n)
  setPrev p (.node n)
  let o ← getObj x
  setObj x { o with size := o.size + 1 }
  pure (.node n)

/-- list.hpp:238-254 `emplace` and list.hpp:234-236 `insert(pos, value_type&&)`; the same steps with a
value built from the arguments. -/
def emplace (x : Nat) (p : Ptr) (v : V) : LM V Ptr := do
  let n ← allocNode
  constructNode n v
  setNext (.node n) p
  let pp ← getPrev p
  setPrev (.node n) pp
  let pp ← getPrev p
  setNext pp (.node n)
  setPrev p (.node n)
  let o ← getObj x
  setObj x { o with size := o.size + 1 }
  pure (.node n)

/-- list.hpp:40-46 `m_unhook`. -/
def unhook (p : Ptr) : LM V Unit := do
  let nx ← getNext p
  let pv ← getPrev p
  setNext pv nx
  setPrev nx pv

/-- list.hpp:256-274 `erase`. -/
def erase (x : Nat) (p : Ptr) : LM V Ptr := do
  let o ← getObj x
  setObj x { o with size := o.size - 1 }
  let ret ← getNext p
  unhook p
  destroyVal p
  freeNode p
  pure ret

/-- list.hpp:202-205 `push_back`. -/
def pushBack (x : Nat) (v : V) : LM V Unit := do
  let e ← end_ x
  let _ ← insert x e v
  pure ()
/-- list.hpp:206-210 `push_front`. -/
def pushFront (x : Nat) (v : V) : LM V Unit := do
  let b ← begin_ x
  let _ ← insert x b v
  pure ()
/-- list.hpp:276-281 `emplace_front`. -/
def emplaceFront (x : Nat) (v : V) : LM V V := do
  let b ← begin_ x
  let _ ← emplace x b v
  front x
/-- list.hpp:283-288 `emplace_back`. -/
def emplaceBack (x : Nat) (v : V) : LM V V := do
  let e ← end_ x
  let _ ← emplace x e v
  back x
/-- list.hpp:290 `pop_back`. -/
def popBack (x : Nat) : LM V Unit := do
  let p ← getPrev (.head x)
  let _ ← erase x p
  pure ()
/-- list.hpp:291 `pop_front`. -/
def popFront (x : Nat) : LM V Unit := do
  let p ← begin_ x
  let _ ← erase x p
  pure ()

/-- `for (it = other.cbegin(); it != other.cend(); ++it) push_back(*it)` (list.hpp:144-145, 151-152). -/
def copyLoop (x y : Nat) : Nat → Ptr → LM V Unit
  | 0, _ => M.timeout
  | fuel+1, it => do
    let e ← end_ y
    if it = e then pure ()
    else do
      let v ← deref it
      pushBack x v
      let it ← inc it
      copyLoop x y fuel it

/-- list.hpp:142-146 copy constructor; delegates, so an exception runs the destructor. -/
def copyCtor (fuel x y : Nat) : LM V Unit := do
  ctor x
  M.onThrow (do
    let b ← begin_ y
    copyLoop x y fuel b) (dtor fuel x)

/-- list.hpp:148-154 `operator=`. -/
def assign (fuel x y : Nat) : LM V Unit := do
  clear fuel x
  let b ← begin_ y
  copyLoop x y fuel b

/-- Client traversal `for (it = begin(); it != end(); ++it) …*it…`. -/
def walk (x : Nat) : Nat → Ptr → LM V (List V)
  | 0, _ => M.timeout
  | fuel+1, it => do
    let e ← end_ x
    if it = e then pure []
    else do
      let v ← deref it
      let it ← inc it
      let vs ← walk x fuel it
      pure (v :: vs)

/-- Client traversal `for (it = end(); it != begin();) { --it; …*it… }`. -/
def walkBack (x : Nat) : Nat → Ptr → LM V (List V)
  | 0, _ => M.timeout
  | fuel+1, it => do
    let b ← begin_ x
    if it = b then pure []
    else do
      let it ← dec it
      let v ← deref it
      let vs ← walkBack x fuel it
      pure (v :: vs)

def toList (fuel x : Nat) : LM V (List V) := do
  let b ← begin_ x
  walk x fuel b

def toListRev (fuel x : Nat) : LM V (List V) := do
  let e ← end_ x
  walkBack x fuel e

end Cest.Lst
