import Verif.Core.Mem

/-!
The containers with a user's allocator (C159, C160).

The other models take the allocator to be `std::allocator`, whose objects are all equal.  Here an allocator is a value of
some type `A`, equal values can free each other's storage, and the heap remembers for every block the allocator
and the number of elements it was requested with.  What is left out instead is the elements: of each container only the members that
say which storage it owns are kept, and the operations that do not allocate or deallocate are there only as far as they
change the size.  A request for storage may fail (C161); elements do not throw (C131, C138, C141, C142 are about that).
The vector of chunk pointers inside a deque has a `std::allocator` of its own and is represented by the list of its elements;
its requests do not fail here (C84).
-/
namespace Cest.Alloc
open Cest

/-- What a program gets from its allocator type: the result of the `i`-th default construction `Allocator()`, and whether
`deallocate` tolerates a null pointer (the requirements for allocators do not allow the call; `std::allocator` does in practice). -/
structure Env (A : Type) where
  dflt : Nat → A
  nullOk : Bool

/-- A block: address, the allocator it came from, number of elements. -/
abbrev Blk (A : Type) := Nat × A × Nat

/-- Live blocks, next unused address, number of allocators default-constructed so far, number of requests so far, and which
requests fail. -/
structure Heap (A : Type) where
  blk : Nat → Option (A × Nat)
  next : Nat
  made : Nat
  reqs : Nat
  fail : Nat → Bool

abbrev HM (A : Type) := M (Heap A)

variable {A : Type} [DecidableEq A]

/-- `alloc.allocate(n)`; a request that fails throws `std::bad_alloc`. -/
def allocate (a : A) (n : Nat) : HM A Nat := fun h =>
  if h.fail h.reqs then .throw .badAlloc { h with reqs := h.reqs + 1 }
  else .ok h.next { h with blk := fun p => if p = h.next then some (a, n) else h.blk p, next := h.next + 1, reqs := h.reqs + 1 }

/-- `alloc.deallocate(p, n)`: `p` must come from `allocate(n)` of an equal allocator and not have been deallocated. -/
def deallocate (env : Env A) (a : A) (p : Option Nat) (n : Nat) : HM A Unit := fun h =>
  match p with
  | none => if env.nullOk then .ok () h else .ub .badFree
  | some q => if h.blk q = some (a, n) then .ok () { h with blk := fun p => if p = q then none else h.blk p } else .ub .badFree

/-- `Allocator()`. -/
def newAlloc (env : Env A) : HM A A := fun h => .ok (env.dflt h.made) { h with made := h.made + 1 }

/-! ### vector -/

/-- m_size, m_capacity, m_p, m_alloc (vector.hpp:219-222). -/
structure Vec (A : Type) where
  size : Nat
  cap : Nat
  p : Option Nat
  alloc : A

/-- `vector()` (vector.hpp:31). -/
def vDefault (env : Env A) : HM A (Vec A) := do return { size := 0, cap := 0, p := none, alloc := ← newAlloc env }

/-- `reserve(new_cap)` (vector.hpp:108-122). -/
def vReserve (env : Env A) (x : Vec A) (newCap : Nat) : HM A (Vec A) :=
  if x.cap < newCap then do
    let p ← allocate x.alloc newCap
    if x.cap ≠ 0 then deallocate env x.alloc x.p x.cap
    return { x with p := some p, cap := newCap }
  else pure x

/-- `push_back(value)` (vector.hpp:187-205). -/
def vPush (env : Env A) (x : Vec A) : HM A (Vec A) := do
  let x ← if x.cap = 0 then vReserve env x 1 else if x.cap = x.size then vReserve env x (x.cap * 2) else pure x
  return { x with size := x.size + 1 }

/-- `n` calls of `push_back`. -/
def vPushN (env : Env A) (x : Vec A) : Nat → HM A (Vec A)
  | 0 => pure x
  | n + 1 => do vPushN env (← vPush env x) n

/-- `vector(const vector&)` (vector.hpp:42-48). -/
def vCopy (env : Env A) (y : Vec A) : HM A (Vec A) := do
  let x ← vReserve env (← vDefault env) y.cap
  return { x with size := y.size }

/-- `vector(count, alloc)` (vector.hpp:55-63). -/
def vCount (env : Env A) (n : Nat) (a : A) : HM A (Vec A) := do
  let x ← vReserve env { size := 0, cap := 0, p := none, alloc := a } n
  return { x with size := n }

/-- `vector(init, alloc)` (vector.hpp:65-70).  The constructor does not delegate: when `push_back` throws, no destructor runs. -/
def vInit (env : Env A) (n : Nat) (a : A) : HM A (Vec A) := vPushN env { size := 0, cap := 0, p := none, alloc := a } n

/-- `~vector()` (vector.hpp:72-76). -/
def vDestroy (env : Env A) (x : Vec A) : HM A Unit := if x.cap ≠ 0 then deallocate env x.alloc x.p x.cap else pure ()

/-- `operator=(const vector&)` (vector.hpp:84-102). -/
def vAssign (env : Env A) (x y : Vec A) : HM A (Vec A) := do
  let x ← vReserve env x y.cap
  return { x with size := y.size }

/-- `resize(count)` (vector.hpp:124-135). -/
def vResize (env : Env A) (x : Vec A) (n : Nat) : HM A (Vec A) := do
  let x ← if x.size < n then vReserve env x n else pure x
  return { x with size := n }

/-! ### string -/

/-- m_alloc, m_size, m_capacity, m_p (string.hpp:293-296). -/
structure Str (A : Type) where
  size : Nat
  cap : Nat
  p : Option Nat
  alloc : A

/-- `basic_string(alloc)` (string.hpp:40-48); noexcept. -/
def sAlloc (a : A) : HM A (Str A) := M.noexcept do return { size := 0, cap := 1, p := some (← allocate a 2), alloc := a }

/-- `basic_string()` (string.hpp:37-38); the allocator's default constructor is noexcept, hence this one is too. -/
def sDefault (env : Env A) : HM A (Str A) := do sAlloc (← newAlloc env)

/-- `basic_string(s, count, alloc)` (string.hpp:50-60); also `basic_string(s, alloc)`, where `count` is the length (:62-63). -/
def sPtr (n : Nat) (a : A) : HM A (Str A) := do
  return { size := n, cap := n + 1, p := some (← allocate a (n + 2)), alloc := a }

/-- `basic_string(const basic_string&)` (string.hpp:65) of a string with `n` characters before its first terminator. -/
def sCopy (env : Env A) (n : Nat) : HM A (Str A) := do sPtr n (← newAlloc env)

/-- The second loop of the constructor from iterators (string.hpp:85-101), `n` characters to go; `len` and `capacity` are its variables. -/
def sRangeLoop (env : Env A) : Nat → Nat → Nat → Str A → HM A (Nat × Str A)
  | 0, len, _, x => pure (len, x)
  | n + 1, len, capacity, x =>
    if len = capacity then do
      let capacity := (len + 1) * 2
      let another ← allocate x.alloc (capacity + 1)
      deallocate env x.alloc x.p (x.cap + 1)
      sRangeLoop env n (len + 1) capacity { x with p := some another, cap := capacity }
    else sRangeLoop env n (len + 1) capacity x

/-- `basic_string(beg, end, alloc)` from input iterators (string.hpp:67-104): m_capacity is 0 and m_p null, so the first loop
does nothing; the terminator is written at the end. -/
def sRange (env : Env A) (n : Nat) (a : A) : HM A (Str A) := do
  let (len, x) ← sRangeLoop env n 0 0 { size := 0, cap := 0, p := none, alloc := a }
  match x.p with
  | none => M.ub .null
  | some _ => return { x with size := len }

/-- `~basic_string()` (string.hpp:106). -/
def sDestroy (env : Env A) (x : Str A) : HM A Unit := deallocate env x.alloc x.p (x.cap + 1)

/-- `reserve(new_cap)` (string.hpp:241-253). -/
def sReserve (env : Env A) (x : Str A) (newCap : Nat) : HM A (Str A) :=
  if x.cap < newCap then do
    let p ← allocate x.alloc (newCap + 1)
    deallocate env x.alloc x.p (x.cap + 1)
    return { x with p := some p, cap := newCap }
  else pure x

/-- `push_back(ch)` (string.hpp:180-185). -/
def sPush (env : Env A) (x : Str A) : HM A (Str A) := do
  let x ← if x.cap < x.size + 1 then sReserve env x (x.cap * 2) else pure x
  return { x with size := x.size + 1 }

/-- `append(s, count)` (string.hpp:187-209). -/
def sAppend (env : Env A) (x : Str A) (count : Nat) : HM A (Str A) :=
  let len := count + x.size
  if len ≤ x.cap then pure { x with size := len }
  else do
    let p ← allocate x.alloc (len + 1)
    deallocate env x.alloc x.p (x.cap + 1)
    return { x with p := some p, size := len, cap := len }

/-- `operator=(s)` (string.hpp:219-235) for `count` characters; also of a string (:237-239).  For what is left in the string when
`allocate` throws see `step`. -/
def sAssign (env : Env A) (x : Str A) (count : Nat) : HM A (Str A) := do
  let x ← if x.cap < count + 1 then do
      deallocate env x.alloc x.p (x.cap + 1)
      let p ← allocate x.alloc (count + 2)
      pure { x with p := some p, cap := count + 1 }
    else pure x
  return { x with size := count }

/-! ### the containers made of nodes -/

/-- The nodes of a `list`, `forward_list`, `set` or `map` and its `m_node_alloc` (list.hpp:293-295, forward_list.hpp:204-205,
set.hpp:268-273, map.hpp:326-331). -/
structure Nodes (A : Type) where
  nodes : List Nat
  alloc : A

/-- The default constructors (list.hpp:139, forward_list.hpp:99, set.hpp:100, map.hpp:160). -/
def nDefault (env : Env A) : HM A (Nodes A) := do return { nodes := [], alloc := ← newAlloc env }

/-- One new node after the first `i` (list.hpp:212-254, forward_list.hpp:139-153, set.hpp:219, map.hpp:283). -/
def nInsert (x : Nodes A) (i : Nat) : HM A (Nodes A) := do
  let q ← allocate x.alloc 1
  return { x with nodes := x.nodes.take i ++ q :: x.nodes.drop i }

/-- Deallocating nodes one by one. -/
def nFree (env : Env A) (a : A) : List Nat → HM A Unit
  | [] => pure ()
  | q :: l => do deallocate env a (some q) 1; nFree env a l

/-- `clear()` and the destructors (list.hpp:140,188-200, forward_list.hpp:119,155,159-174, set.hpp:108,130-145, map.hpp:161,193-208). -/
def nClear (env : Env A) (x : Nodes A) : HM A (Nodes A) := do
  nFree env x.alloc x.nodes
  return { x with nodes := [] }

/-- `erase(pos)`, `pop_back`, `pop_front`, `erase_after(pos)`: the node after the first `i` (list.hpp:256-291,
forward_list.hpp:157,176-186). -/
def nErase (env : Env A) (x : Nodes A) (i : Nat) : HM A (Nodes A) := do
  nFree env x.alloc ((x.nodes.drop i).take 1)
  return { x with nodes := x.nodes.take i ++ x.nodes.drop (i + 1) }

/-- `n` nodes more, in a constructor that delegates: when `insert` throws, the destructor runs. -/
def nInsertN (env : Env A) (x : Nodes A) : Nat → HM A (Nodes A)
  | 0 => pure x
  | n + 1 => do nInsertN env (← M.onThrow (nInsert x x.nodes.length) (nFree env x.alloc x.nodes)) n

/-- The copy constructors of list, set and map (list.hpp:142-146, set.hpp:102-106, map.hpp:163-167). -/
def nCopy (env : Env A) (y : Nodes A) : HM A (Nodes A) := do nInsertN env (← nDefault env) y.nodes.length

/-- `n` nodes more, in a constructor that does not delegate: when `allocate` throws, no destructor runs. -/
def fInsertN (x : Nodes A) : Nat → HM A (Nodes A)
  | 0 => pure x
  | n + 1 => do fInsertN (← nInsert x x.nodes.length) n

/-- `forward_list(const forward_list&)` (forward_list.hpp:100-110). -/
def fCopy (env : Env A) (y : Nodes A) : HM A (Nodes A) := do fInsertN (← nDefault env) y.nodes.length

/-- `forward_list::swap(x)` (forward_list.hpp:121-123): the chains, not the allocators. -/
def fSwap (x y : Nodes A) : Nodes A × Nodes A := ({ x with nodes := y.nodes }, { y with nodes := x.nodes })

/-- `forward_list::operator=` (forward_list.hpp:112-117): copy into a temporary, swap, destroy the temporary. -/
def fAssign (env : Env A) (x y : Nodes A) : HM A (Nodes A) := do
  let tmp ← fCopy env y
  let (x, tmp) := fSwap x tmp
  let _ ← nClear env tmp
  return x

/-! ### deque -/

/-- m_chunks, m_front, m_back, m_front_chunk, m_back_chunk, m_size, m_alloc (deque.hpp:347-353). -/
structure Dq (A : Type) where
  chunks : List Nat
  front : Nat
  back : Nat
  frontChunk : Nat
  backChunk : Nat
  size : Nat
  alloc : A

/-- `++` and `--` on size_t (pop_back and pop_front do pass 0, see C11). -/
def inc (n : Nat) : Nat := (n + 1) % 2 ^ 64
def dec (n : Nat) : Nat := (n + 2 ^ 64 - 1) % 2 ^ 64

/-- `deque()` (deque.hpp:153-161); `C` is CHUNK_SIZE. -/
def dDefault (env : Env A) (C : Nat) : HM A (Dq A) := do
  let a ← newAlloc env
  let p ← allocate a C
  return { chunks := [p], front := C / 2, back := C / 2 - 1, frontChunk := 0, backChunk := 0, size := 0, alloc := a }

/-- `push_back(value)` (deque.hpp:213-223, 326-345). -/
def dPushBack (C : Nat) (x : Dq A) : HM A (Dq A) :=
  if x.back = C - 1 then
    if x.backChunk = x.chunks.length - 1 then do
      let p ← allocate x.alloc C
      return { x with chunks := x.chunks ++ [p], backChunk := inc x.backChunk, back := 0, size := x.size + 1 }
    else pure { x with back := 0, size := x.size + 1 }
  else pure { x with back := x.back + 1, size := x.size + 1 }

/-- `push_front(value)` (deque.hpp:201-211, 301-324). -/
def dPushFront (C : Nat) (x : Dq A) : HM A (Dq A) :=
  if x.front = 0 then
    if x.frontChunk = 0 then do
      let p ← allocate x.alloc C
      return { x with chunks := p :: x.chunks, backChunk := inc x.backChunk, front := C - 1, size := x.size + 1 }
    else pure { x with frontChunk := x.frontChunk - 1, front := C - 1, size := x.size + 1 }
  else pure { x with front := x.front - 1, size := x.size + 1 }

/-- `pop_back()` (deque.hpp:225-237). -/
def dPopBack (C : Nat) (x : Dq A) : Dq A :=
  if x.size = 0 then x
  else if x.back = 0 then { x with back := C - 1, backChunk := dec x.backChunk, size := x.size - 1 }
  else { x with back := x.back - 1, size := x.size - 1 }

/-- `pop_front()` (deque.hpp:239-251). -/
def dPopFront (C : Nat) (x : Dq A) : Dq A :=
  if x.size = 0 then x
  else if x.front = C - 1 then { x with front := 0, frontChunk := inc x.frontChunk, size := x.size - 1 }
  else { x with front := x.front + 1, size := x.size - 1 }

/-- `clear()` (deque.hpp:190-199): keeps the chunks. -/
def dClear (C : Nat) (x : Dq A) : Dq A :=
  { x with front := C / 2, back := C / 2 - 1, frontChunk := x.chunks.length / 2, backChunk := x.chunks.length / 2, size := 0 }

/-- Deallocating chunks one by one. -/
def dFree (env : Env A) (C : Nat) (a : A) : List Nat → HM A Unit
  | [] => pure ()
  | q :: l => do deallocate env a (some q) C; dFree env C a l

/-- `n` calls of `push_back` in a constructor that delegates: when one throws, the destructor runs. -/
def dPushN (env : Env A) (C : Nat) (x : Dq A) : Nat → HM A (Dq A)
  | 0 => pure x
  | n + 1 => do dPushN env C (← M.onThrow (dPushBack C x) (dFree env C x.alloc x.chunks)) n

/-- `deque(const deque&)` (deque.hpp:163-167). -/
def dCopy (env : Env A) (C : Nat) (y : Dq A) : HM A (Dq A) := do dPushN env C (← dDefault env C) y.size

/-- `deque(init, alloc)` (deque.hpp:169-173): `alloc` is not used. -/
def dInit (env : Env A) (C : Nat) (n : Nat) (_ : A) : HM A (Dq A) := do dPushN env C (← dDefault env C) n

/-- `~deque()` (deque.hpp:175-180). -/
def dDestroy (env : Env A) (C : Nat) (x : Dq A) : HM A Unit := dFree env C x.alloc x.chunks

/-! ### programs -/

/-- A variable. -/
inductive Obj (A : Type) where
  | vec (x : Vec A)
  | str (x : Str A)
  | nodes (x : Nodes A)
  | dq (x : Dq A)

/-- Its destructor. -/
def destroyObj (env : Env A) (C : Nat) : Obj A → HM A Unit
  | .vec x => vDestroy env x
  | .str x => sDestroy env x
  | .nodes x => do let _ ← nClear env x
  | .dq x => dDestroy env C x

/-- Heap and variables. -/
structure St (A : Type) where
  heap : Heap A
  objs : List (Nat × Obj A)

/-- One statement of a program; `o`, `src` are names of variables. -/
inductive Op (A : Type) where
  | vDefault (o : Nat) | vCopy (o src : Nat) | vMove (o src : Nat) | vCount (o n : Nat) (a : A) | vInit (o n : Nat) (a : A)
  | vPush (o : Nat) | vPop (o : Nat) | vReserve (o n : Nat) | vResize (o n : Nat) | vClear (o : Nat) | vErase (o n : Nat)
  | vAssign (o src : Nat) | vSwap (o src : Nat)  -- `swap`, and move assignment (vector.hpp:78-82)
  | sDefault (o : Nat) | sAlloc (o : Nat) (a : A) | sPtr (o n : Nat) (a : A) | sCopy (o n : Nat) | sRange (o n : Nat) (a : A)
  | sPush (o : Nat) | sAppend (o n : Nat) | sAssign (o n : Nat) | sReserve (o n : Nat) | sClear (o : Nat) | sPop (o : Nat)
  | nDefault (o : Nat) | nCopy (o src : Nat) | fCopy (o src : Nat) | nInsert (o i : Nat) | nErase (o i : Nat) | nClear (o : Nat)
  | nAssign (o src : Nat)   -- `operator=` of list, set and map
  | fAssign (o src : Nat) | fSwap (o src : Nat)  -- those of forward_list
  | dDefault (o : Nat) | dCopy (o src : Nat) | dInit (o n : Nat) (a : A) | dPushBack (o : Nat) | dPushFront (o : Nat)
  | dPopBack (o : Nat) | dPopFront (o : Nat) | dClear (o : Nat) | dAssign (o src : Nat)
  | destroy (o : Nat)

abbrev PM (A : Type) := M (St A)

/-- An operation on the heap. -/
def lift {α : Type} (f : HM A α) : PM A α := fun s =>
  match f s.heap with
  | .ok a h => .ok a { s with heap := h }
  | .throw e h => .throw e { s with heap := h }
  | .ub u => .ub u
  | .timeout => .timeout

/-- The variable `o`. -/
def get (o : Nat) : PM A (Obj A) := fun s =>
  match s.objs.lookup o with
  | some x => .ok x s
  | none => .ub .noObject

/-- The variable without it. -/
def St.drop (s : St A) (o : Nat) : St A := { s with objs := s.objs.filter fun e => e.1 ≠ o }

def put (o : Nat) (x : Obj A) : PM A Unit := fun s => .ok () { (s.drop o) with objs := (o, x) :: (s.drop o).objs }
def remove (o : Nat) : PM A Unit := fun s => .ok () (s.drop o)

/-- A variable of the right class; a program that names another one is not well formed. -/
def getVec (o : Nat) : PM A (Vec A) := do match ← get o with | .vec x => pure x | _ => M.ub .noObject
def getStr (o : Nat) : PM A (Str A) := do match ← get o with | .str x => pure x | _ => M.ub .noObject
def getNodes (o : Nat) : PM A (Nodes A) := do match ← get o with | .nodes x => pure x | _ => M.ub .noObject
def getDq (o : Nat) : PM A (Dq A) := do match ← get o with | .dq x => pure x | _ => M.ub .noObject

/-- A new variable. -/
def create (o : Nat) (x : PM A (Obj A)) : PM A Unit := fun s =>
  match s.objs.lookup o with
  | some _ => .ub .objectExists
  | none => (do put o (← x)) s

def need (b : Prop) [Decidable b] : PM A Unit := if b then pure () else M.ub .precond

/-- `n` calls of `push_back` of a list (of `insert` of a set or map). -/
def nPushLoop (o : Nat) : Nat → PM A Unit
  | 0 => pure ()
  | n + 1 => do
    let x ← getNodes o
    put o (.nodes (← lift (nInsert x x.nodes.length)))
    nPushLoop o n

/-- `n` calls of `push_back` of a deque. -/
def dPushLoop (C : Nat) (o : Nat) : Nat → PM A Unit
  | 0 => pure ()
  | n + 1 => do
    put o (.dq (← lift (dPushBack C (← getDq o))))
    dPushLoop C o n

/-- The effect of a statement. -/
def step (env : Env A) (C : Nat) : Op A → PM A Unit
  | .vDefault o => create o do return .vec (← lift (vDefault env))
  | .vCopy o src => create o do return .vec (← lift (vCopy env (← getVec src)))
  | .vMove o src => do  -- `vector()`, then `swap` (vector.hpp:50-53)
    create o do return .vec (← lift (vDefault env))
    let x ← getVec o
    let y ← getVec src
    put o (.vec y)
    put src (.vec x)
  | .vCount o n a => create o do return .vec (← lift (vCount env n a))
  | .vInit o n a => create o do return .vec (← lift (vInit env n a))
  | .vPush o => do put o (.vec (← lift (vPush env (← getVec o))))
  | .vPop o => do
    let x ← getVec o
    need (x.size ≠ 0)
    put o (.vec { x with size := x.size - 1 })
  | .vReserve o n => do put o (.vec (← lift (vReserve env (← getVec o) n)))
  | .vResize o n => do put o (.vec (← lift (vResize env (← getVec o) n)))
  | .vClear o => do put o (.vec { ← getVec o with size := 0 })
  | .vErase o n => do
    let x ← getVec o
    need (n ≤ x.size)
    put o (.vec { x with size := x.size - n })
  | .vAssign o src => do put o (.vec (← lift (vAssign env (← getVec o) (← getVec src))))
  | .vSwap o src => do
    let x ← getVec o
    let y ← getVec src
    put o (.vec y)
    put src (.vec x)
  | .sDefault o => create o do return .str (← lift (sDefault env))
  | .sAlloc o a => create o do return .str (← lift (sAlloc a))
  | .sPtr o n a => create o do return .str (← lift (sPtr n a))
  | .sCopy o n => create o do return .str (← lift (sCopy env n))
  | .sRange o n a => create o do return .str (← lift (sRange env n a))
  | .sPush o => do put o (.str (← lift (sPush env (← getStr o))))
  | .sAppend o n => do put o (.str (← lift (sAppend env (← getStr o) n)))
  | .sAssign o n => do
    let x ← getStr o
    -- when `allocate` throws, m_capacity is already changed and m_p already deallocated (string.hpp:225-227)
    put o (.str (← M.onThrow (lift (sAssign env x n)) (put o (.str { x with cap := n + 1 }))))
  | .sReserve o n => do put o (.str (← lift (sReserve env (← getStr o) n)))
  | .sClear o => do put o (.str { ← getStr o with size := 0 })
  | .sPop o => do
    let x ← getStr o
    need (x.size ≠ 0)
    put o (.str { x with size := x.size - 1 })
  | .nDefault o => create o do return .nodes (← lift (nDefault env))
  | .nCopy o src => create o do return .nodes (← lift (nCopy env (← getNodes src)))
  | .fCopy o src => create o do return .nodes (← lift (fCopy env (← getNodes src)))
  | .nInsert o i => do put o (.nodes (← lift (nInsert (← getNodes o) i)))
  | .nErase o i => do
    let x ← getNodes o
    need (i < x.nodes.length)
    put o (.nodes (← lift (nErase env x i)))
  | .nClear o => do put o (.nodes (← lift (nClear env (← getNodes o))))
  | .nAssign o src => do
    put o (.nodes (← lift (nClear env (← getNodes o))))
    let y ← getNodes src
    nPushLoop o y.nodes.length
  | .fAssign o src => do put o (.nodes (← lift (fAssign env (← getNodes o) (← getNodes src))))
  | .fSwap o src => do
    let x ← getNodes o
    let y ← getNodes src
    put o (.nodes (fSwap x y).1)
    put src (.nodes (fSwap x y).2)
  | .dDefault o => create o do return .dq (← lift (dDefault env C))
  | .dCopy o src => create o do return .dq (← lift (dCopy env C (← getDq src)))
  | .dInit o n a => create o do return .dq (← lift (dInit env C n a))
  | .dPushBack o => do put o (.dq (← lift (dPushBack C (← getDq o))))
  | .dPushFront o => do put o (.dq (← lift (dPushFront C (← getDq o))))
  | .dPopBack o => do put o (.dq (dPopBack C (← getDq o)))
  | .dPopFront o => do put o (.dq (dPopFront C (← getDq o)))
  | .dClear o => do put o (.dq (dClear C (← getDq o)))
  | .dAssign o src => do
    put o (.dq (dClear C (← getDq o)))
    let y ← getDq src
    dPushLoop C o y.size
  | .destroy o => do
    lift (destroyObj env C (← get o))
    remove o

/-- The statements in order; the program catches `std::bad_alloc` and goes on. -/
def run (env : Env A) (C : Nat) : List (Op A) → PM A Unit
  | [] => pure ()
  | op :: l => do M.tryCatch (step env C op) (fun _ => pure ()); run env C l

/-- Nothing yet; the requests `i` with `fail i` will fail. -/
def St.start (fail : Nat → Bool) : St A := { heap := { blk := fun _ => none, next := 0, made := 0, reqs := 0, fail }, objs := [] }

/-- Nothing yet, and storage does not run out. -/
def St.init : St A := St.start fun _ => false

end Cest.Alloc
