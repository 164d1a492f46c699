import Verif.Core.Mem
/-
Model of cest::forward_list  (/repo/include/cest/forward_list.hpp).

Simplifications: the allocator member is stateless and omitted; `std::move` arguments are modelled as
values; `const_iterator`/`iterator` are both the node pointer they wrap.  Pointer-chasing loops take fuel.
-/
namespace Cest.FL
open Cest

/-- `node_base*`: null, `&m_front` inside list variable `x`, or an allocated node. -/
inductive Ptr where
  | null
  | head (x : Nat)
  | node (a : Nat)
  deriving DecidableEq, Repr

/-- Data member m_front.next (forward_list.hpp:27, 204). -/
structure Obj where
  next : Ptr
  deriving DecidableEq, Repr

/-- An allocated node (forward_list.hpp:27-32). -/
structure Cell (V : Type) where
  next : Ptr
  val : Option V

abbrev FSt (V : Type) := St Obj (Cell V)
abbrev FM (V : Type) := M (FSt V)

variable {V : Type}

/-- `p->next`. -/
def getNext : Ptr → FM V Ptr
  | .null => M.ub .null
  | .head x => do let o ← getObj x; pure o.next
  | .node a => do let c ← getC a; pure c.next

/-- `p->next = q`. -/
def setNext (p q : Ptr) : FM V Unit :=
  match p with
  | .null => M.ub .null
  | .head x => do let o ← getObj x; setObj x { o with next := q }
  | .node a => do let c ← getC a; setC a { c with next := q }

/-- `static_cast<node*>(p)->value` read; `m_front` has no value member. -/
def getVal : Ptr → FM V V
  | .null => M.ub .null
  | .head _ => M.ub .oob
  | .node a => do
    let c ← getC a
    match c.val with
    | some v => pure v
    | none => M.ub .deadRead

/-- Assignment through `static_cast<node*>(p)->value`. -/
def setVal (p : Ptr) (v : V) : FM V Unit :=
  match p with
  | .null => M.ub .null
  | .head _ => M.ub .oob
  | .node a => do
    let c ← getC a
    match c.val with
    | some _ => do tick .elem; setC a { c with val := some v }
    | none => M.ub .deadRead

/-- `m_node_alloc.allocate(1)`. -/
def allocNode : FM V Nat := allocC ⟨.null, none⟩

/-- `std::construct_at(new_node, v, n)` (forward_list.hpp:29-30). -/
def constructNode (a : Nat) (v : V) (n : Ptr) : FM V Unit := do
  let c ← getC a
  match c.val with
  | some _ => M.ub .liveConstruct
  | none => do
    tick .elem
    setC a ⟨n, some v⟩

/-- `std::destroy_at(&tmp->value)`. -/
def destroyVal : Ptr → FM V Unit
  | .null => M.ub .null
  | .head _ => M.ub .oob
  | .node a => do
    let c ← getC a
    match c.val with
    | some _ => setC a { c with val := none }
    | none => M.ub .deadDestroy

/-- `m_node_alloc.deallocate(tmp, 1)`. -/
def freeNode : Ptr → FM V Unit
  | .null => M.ub .badFree
  | .head _ => M.ub .badFree
  | .node a => do
    let c ← getC a
    match c.val with
    | some _ => M.ub .liveFree
    | none => freeC a

/-- forward_list.hpp:99 default constructor, forward_list.hpp:27 `next = nullptr`. -/
def ctor (x : Nat) : FM V Unit := newObj x ⟨.null⟩

/-- forward_list.hpp:128-130 `begin`. -/
def begin_ (x : Nat) : FM V Ptr := getNext (.head x)
/-- forward_list.hpp:131-133 `end`. -/
def end_ : Ptr := .null
/-- forward_list.hpp:134 `before_begin`. -/
def before (x : Nat) : FM V Ptr := do let _ ← getObj x; pure (.head x)
/-- forward_list.hpp:42-44, 76-78 `*it`. -/
def deref (p : Ptr) : FM V V := getVal p
/-- forward_list.hpp:50-52, 84-86 `++it`. -/
def inc (p : Ptr) : FM V Ptr := getNext p
/-- forward_list.hpp:58-60, 92-94 `it == it'`. -/
def itEq (p q : Ptr) : Bool := p == q
/-- forward_list.hpp:137 `empty`. -/
def empty (x : Nat) : FM V Bool := do let b ← begin_ x; pure (itEq b end_)

/-- forward_list.hpp:139-153 `insert_after` (both overloads). -/
def insertAfter (p : Ptr) (v : V) : FM V Ptr := do
  let n ← allocNode
  let nx ← getNext p
  constructNode n v nx
  setNext p (.node n)
  pure (.node n)

/-- Loop of `erase_after(first, last)` (forward_list.hpp:165-170). -/
def eraseLoop (l : Ptr) : Nat → Ptr → FM V Unit
  | 0, _ => M.timeout
  | fuel+1, curr =>
    if curr = l then pure ()
    else do
      let nx ← getNext curr
      destroyVal curr
      freeNode curr
      eraseLoop l fuel nx

/-- forward_list.hpp:159-174 `erase_after(first, last)`. -/
def eraseRange (fuel : Nat) (p l : Ptr) : FM V Ptr := do
  let curr ← getNext p
  eraseLoop l fuel curr
  setNext p l
  pure l

/-- forward_list.hpp:176-186 `erase_after(pos)`. -/
def eraseAfter (p : Ptr) : FM V Ptr := do
  let curr ← getNext p
  let nx ← getNext curr
  setNext p nx
  destroyVal curr
  freeNode curr
  getNext p

/-- forward_list.hpp:155 `clear`. -/
def clear (fuel x : Nat) : FM V Unit := do
  let b ← before x
  let _ ← eraseRange fuel b end_
  pure ()

/-- forward_list.hpp:119 `~forward_list`. -/
def dtor (fuel x : Nat) : FM V Unit := do
  let b ← before x
  let _ ← eraseRange fuel b end_
  delObj x

/-- forward_list.hpp:157 `pop_front`. -/
def popFront (x : Nat) : FM V Unit := do
  let b ← before x
  let _ ← eraseAfter b
  pure ()

/-- forward_list.hpp:188-194 `push_front`. -/
def pushFront (x : Nat) (v : V) : FM V Unit := do
  let b ← before x
  let _ ← insertAfter b v
  pure ()

/-- forward_list.hpp:196-202 `front`. -/
def front (x : Nat) : FM V V := do
  let p ← getNext (.head x)
  getVal p

/-- Loop of the copy constructor (forward_list.hpp:104-109). -/
def copyLoop : Nat → Ptr → Ptr → FM V Unit
  | 0, _, _ => M.timeout
  | fuel+1, src, dst => do
    let nf ← getNext src
    if nf = .null then pure ()
    else do
      let n ← allocNode
      let v ← getVal nf
      constructNode n v .null
      setNext dst (.node n)
      let src ← getNext src
      let dst ← getNext dst
      copyLoop fuel src dst

/-- forward_list.hpp:100-110 copy constructor (not delegating: if it throws, no destructor runs; the
variable just ceases to exist). -/
def copyCtor (fuel x y : Nat) : FM V Unit := do
  ctor x
  M.onThrow (copyLoop fuel (.head y) (.head x)) (delObj x)

/-- forward_list.hpp:121-123 `swap`. -/
def swap (x y : Nat) : FM V Unit := do
  let a ← getObj x
  let b ← getObj y
  setObj x { a with next := b.next }
  let b ← getObj y
  setObj y { b with next := a.next }

/-- forward_list.hpp:112-117 `operator=`; `t` is the stack slot of the local variable `tmp`. -/
def assign (fuel x y t : Nat) : FM V Unit := do
  copyCtor fuel t y
  swap x t
  dtor fuel t

/-- Client traversal `for (it = begin(); it != end(); ++it) …*it…`. -/
def walk : Nat → Ptr → FM V (List V)
  | 0, _ => M.timeout
  | fuel+1, it =>
    if it = end_ then pure []
    else do
      let v ← deref it
      let it ← inc it
      let vs ← walk fuel it
      pure (v :: vs)

def toList (fuel x : Nat) : FM V (List V) := do
  let b ← begin_ x
  walk fuel b

end Cest.FL
