import Verif.Core.Mem
/-
Model of cest::deque (/repo/include/cest/deque.hpp) and cest::queue (/repo/include/cest/queue.hpp).

`K` is CHUNK_SIZE (deque.hpp:9, value 1024); the theorems hold for every `K ≥ 2`.

Simplifications.
* The allocator member is stateless and omitted.
* `m_chunks`, a cest::vector<T*>, is the list of its elements together with its capacity: cest::vector
  is modelled and verified on its own (Vector/*).  Reading beyond its size is undefined behaviour.
* `m_back_chunk` is a size_t that may be decremented below 0 (deque.hpp:231) and incremented again
  (deque.hpp:310).  It is represented by the integer of which the size_t is the residue modulo 2^64
  (`-1` for SIZE_MAX); see `residue_*` below.  The other size_t members never go below 0.
* `std::move(value)` overloads have the effect of the copying ones.
* An iterator's `m_ppchunk`, the address of an element of `m_chunks`, is the index of that element.
-/
namespace Cest.Deq
open Cest

/-- Data members (deque.hpp:348-353). -/
structure Obj where
  front : Nat
  back : Nat
  fchunk : Nat
  bchunk : Int
  size : Nat
  ccap : Nat            -- m_chunks.capacity()
  chunks : List Nat     -- m_chunks: the chunks' storage
  deriving DecidableEq, Repr

/-- The size_t represented by an integer. -/
def residue (b : Int) : Nat := (b % 2^64).toNat

/-- Machine states for deque programs. -/
abbrev DSt (V : Type) := St Obj (Blk V)
abbrev DM (V : Type) := M (DSt V)

/-- A `const T&` argument: an object outside any deque, or slot `i` of a chunk. -/
inductive Ref (V : Type) where
  | ext (v : V)
  | cell (a i : Nat)

variable {V : Type}

/-- Reading through the reference (happens when the callee copies it). -/
def Ref.read : Ref V → DM V V
  | .ext v => pure v
  | .cell a i => load (some a) i

/-- `m_chunks[i]` (vector.hpp:178, unchecked). -/
def chunkAt (o : Obj) (i : Int) : DM V Nat :=
  if 0 ≤ i then
    match o.chunks[i.toNat]? with
    | some a => pure a
    | none => M.ub .oob
  else M.ub .oob

/-- `m_chunks.push_back(p)` (vector.hpp:187-195): may throw when the vector must grow. -/
def chunksPush (x a : Nat) : DM V Unit := do
  let o ← getObj x
  if o.ccap = o.chunks.length then
    tick .badAlloc
    setObj x { o with ccap := if o.ccap = 0 then 1 else o.ccap * 2, chunks := o.chunks ++ [a] }
  else
    setObj x { o with chunks := o.chunks ++ [a] }

/-- deque.hpp:153-161 `deque()`.  If it throws, no destructor runs. -/
def ctor (K x : Nat) : DM V Unit := do
  newObj x ⟨0, 0, 0, 0, 0, 0, []⟩      -- m_chunks default-constructed; the other members not yet set
  M.onThrow (do
    let a ← allocArr K
    let o ← getObj x
    setObj x { o with front := K / 2, back := K / 2 - 1 }
    chunksPush x a
    let o ← getObj x
    setObj x { o with fchunk := 0, bchunk := 0, size := 0 }) (delObj x)

/-- deque.hpp:286-297 `&(*this)[pos]`: chunk and slot. -/
def locate (K x pos : Nat) : DM V (Nat × Nat) := do
  let o ← getObj x
  let a ← chunkAt o (o.fchunk + (o.front + pos) / K : Nat)
  return (a, (o.front + pos) % K)

/-- deque.hpp:286-297 `operator[]`, read. -/
def get (K x pos : Nat) : DM V V := do
  let (a, i) ← locate K x pos
  load (some a) i

/-- deque.hpp:286-291 `d[pos] = v`. -/
def set (K x pos : Nat) (v : V) : DM V Unit := do
  let (a, i) ← locate K x pos
  store (some a) i v

/-- deque.hpp:284 `size`. -/
def size (x : Nat) : DM V Nat := do return (← getObj x).size
/-- deque.hpp:283 `empty`. -/
def empty (x : Nat) : DM V Bool := do return (← getObj x).size == 0

/-- deque.hpp:190-199 `clear`. -/
def clear (K x : Nat) : DM V Unit := do
  let n ← size x
  forN (fun i => do
    let (a, j) ← locate K x i
    destroyAt (some a) j) 0 n
  let o ← getObj x
  setObj x { o with
    front := K / 2, back := K / 2 - 1,
    fchunk := o.chunks.length / 2, bchunk := (o.chunks.length / 2 : Nat), size := 0 }

/-- deque.hpp:178-179: the loop releasing the chunks. -/
def freeChunks (K : Nat) : List Nat → DM V Unit
  | [] => pure ()
  | a :: as => do freeArr (some a) K; freeChunks K as

/-- deque.hpp:175-180 `~deque`. -/
def dtor (K x : Nat) : DM V Unit := do
  clear K x
  let o ← getObj x
  freeChunks K o.chunks
  delObj x

/-- deque.hpp:301-324 `push_front_helper`; line 309 rotates the new chunk to the front. -/
def pushFrontHelper (K x : Nat) : DM V Unit := do
  let o ← getObj x
  if o.front = 0 then
    if o.fchunk = 0 then
      let a ← allocArr K
      chunksPush x a
      let o ← getObj x
      match o.chunks.getLast? with
      | none => M.ub .oob
      | some l => setObj x { o with chunks := l :: o.chunks.dropLast, bchunk := o.bchunk + 1 }
    else
      setObj x { o with fchunk := o.fchunk - 1 }
    let o ← getObj x
    setObj x { o with front := K - 1 }
  else
    setObj x { o with front := o.front - 1 }
  let o ← getObj x
  setObj x { o with size := o.size + 1 }

/-- deque.hpp:326-345 `push_back_helper`. -/
def pushBackHelper (K x : Nat) : DM V Unit := do
  let o ← getObj x
  if o.back = K - 1 then
    if o.bchunk = (o.chunks.length : Int) - 1 then
      let a ← allocArr K
      chunksPush x a
      let o ← getObj x
      setObj x { o with bchunk := o.bchunk + 1 }
    let o ← getObj x
    setObj x { o with back := 0 }
  else
    setObj x { o with back := o.back + 1 }
  let o ← getObj x
  setObj x { o with size := o.size + 1 }

/-- deque.hpp:201-211 `push_front`: the element is constructed after all members were updated. -/
def pushFront (K x : Nat) (r : Ref V) : DM V Unit := do
  pushFrontHelper K x
  let o ← getObj x
  let a ← chunkAt o o.fchunk
  let v ← r.read
  constructAt (some a) o.front v

/-- deque.hpp:213-223 `push_back`. -/
def pushBack (K x : Nat) (r : Ref V) : DM V Unit := do
  pushBackHelper K x
  let o ← getObj x
  let a ← chunkAt o o.bchunk
  let v ← r.read
  constructAt (some a) o.back v

/-- deque.hpp:225-237 `pop_back`. -/
def popBack (K x : Nat) : DM V Unit := do
  let e ← empty x
  if !e then
    let o ← getObj x
    let a ← chunkAt o o.bchunk
    destroyAt (some a) o.back
    if o.back = 0 then setObj x { o with back := K - 1, bchunk := o.bchunk - 1, size := o.size - 1 }
    else setObj x { o with back := o.back - 1, size := o.size - 1 }
  else pure ()

/-- deque.hpp:239-251 `pop_front`. -/
def popFront (K x : Nat) : DM V Unit := do
  let e ← empty x
  if !e then
    let o ← getObj x
    let a ← chunkAt o o.fchunk
    destroyAt (some a) o.front
    if o.front = K - 1 then setObj x { o with front := 0, fchunk := o.fchunk + 1, size := o.size - 1 }
    else setObj x { o with front := o.front + 1, size := o.size - 1 }
  else pure ()

/-- deque.hpp:271-276 `front`. -/
def front (x : Nat) : DM V V := do
  let o ← getObj x
  let a ← chunkAt o o.fchunk
  load (some a) o.front

/-- deque.hpp:277-282 `back`. -/
def back (x : Nat) : DM V V := do
  let o ← getObj x
  let a ← chunkAt o o.bchunk
  load (some a) o.back

/-- deque.hpp:165-166 and 185-186: `for (i = 0; i < other.size(); ++i) push_back(other[i])`.
`n` bounds the number of iterations by the size on entry; when `other` is `*this` the loop of
`operator=` sees the size after `clear`. -/
def pushFrom (K x y i : Nat) : Nat → DM V Unit
  | 0 => pure ()
  | n+1 => do
    let (a, j) ← locate K y i
    pushBack K x (.cell a j)
    pushFrom K x y (i+1) n

/-- deque.hpp:163-167 copy constructor; it delegates, so the destructor runs if the body throws. -/
def copyCtor (K x y : Nat) : DM V Unit := do
  ctor K x
  M.onThrow (do
    let n ← size y
    pushFrom K x y 0 n) (dtor K x)

/-- deque.hpp:172: pushing the elements of an initializer list. -/
def pushAll (K x : Nat) : List V → DM V Unit
  | [] => pure ()
  | v :: vs => do pushBack K x (.ext v); pushAll K x vs

/-- deque.hpp:169-173 initializer-list constructor (delegating). -/
def ctorList (K x : Nat) (vs : List V) : DM V Unit := do
  ctor K x
  M.onThrow (pushAll K x vs) (dtor K x)

/-- deque.hpp:182-188 `operator=`. -/
def assign (K x y : Nat) : DM V Unit := do
  clear K x
  let n ← size y
  pushFrom K x y 0 n

/-! ### Iterators (deque.hpp:36-151; `const_iter` has the same members) -/

/-- `m_p` = slot `off` of chunk `blk` (`off = K` is one past its end); `m_ppchunk = &m_chunks[idx]`. -/
structure It where
  blk : Nat
  off : Nat
  idx : Int
  deriving DecidableEq, Repr

/-- deque.hpp:253-261 `begin`. -/
def begin_ (x : Nat) : DM V It := do
  let o ← getObj x
  let a ← chunkAt o o.fchunk
  return ⟨a, o.front, o.fchunk⟩

/-- deque.hpp:262-270 `end`. -/
def end_ (x : Nat) : DM V It := do
  let o ← getObj x
  let a ← chunkAt o o.bchunk
  return ⟨a, o.back + 1, o.bchunk⟩

/-- deque.hpp:46-55 `operator++`: reads `*m_ppchunk`, also of the following chunk. -/
def It.inc (K x : Nat) (it : It) : DM V It := do
  let o ← getObj x
  let a ← chunkAt o it.idx
  if it.blk = a ∧ it.off = K - 1 then
    let b ← chunkAt o (it.idx + 1)
    return ⟨b, 0, it.idx + 1⟩
  else if it.off < K then return { it with off := it.off + 1 }
  else M.ub .oob

/-- deque.hpp:61-70 `operator--`: at the start of a chunk it goes to the start of the previous one. -/
def It.dec (x : Nat) (it : It) : DM V It := do
  let o ← getObj x
  let a ← chunkAt o it.idx
  if it.blk = a ∧ it.off = 0 then
    let b ← chunkAt o (it.idx - 1)
    return ⟨b, 0, it.idx - 1⟩
  else if 0 < it.off then return { it with off := it.off - 1 }
  else M.ub .oob

/-- deque.hpp:76-78 `operator==`: compares `m_p` only. -/
def It.beq (a b : It) : Bool := a.blk == b.blk && a.off == b.off

/-- deque.hpp:44 `*it`. -/
def It.deref (it : It) : DM V V := load (some it.blk) it.off

/-- deque.hpp:80-86 `operator-`, with its `__x.m_ppchunk - __x.m_ppchunk`.  Subtracting pointers into
different chunks would be undefined. -/
def It.sub (K x : Nat) (a b : It) : DM V Int := do
  let o ← getObj x
  let ca ← chunkAt o a.idx
  let cb ← chunkAt o b.idx
  if a.blk = ca ∧ b.blk = cb then
    return (K : Int) * (a.idx - a.idx - 1) + (a.off - 0) + (0 + K - b.off)
  else M.ub .precond

/-- `for (it = begin(); it != end(); ++it)` collecting `*it`. -/
def collect (K x : Nat) (e : It) : Nat → It → DM V (List V)
  | 0, _ => M.timeout
  | fuel+1, it =>
    if it.beq e then pure []
    else do
      let v ← it.deref
      let it' ← it.inc K x
      let vs ← collect K x e fuel it'
      return v :: vs
def toList (K x fuel : Nat) : DM V (List V) := do
  let b ← begin_ x
  let e ← end_ x
  collect K x e fuel b

/-! ### queue (queue.hpp): a deque `c` used through push_back / pop_front only -/

/-- queue.hpp:21 `queue()`. -/
def qctor (K x : Nat) : DM V Unit := ctor K x
/-- queue.hpp:22-23 `queue(cont)`: copies (deque has no move constructor). -/
def qctorFrom (K x y : Nat) : DM V Unit := copyCtor K x y
/-- queue.hpp:25 `empty`. -/
def qempty (x : Nat) : DM V Bool := empty x
/-- queue.hpp:26 `size`. -/
def qsize (x : Nat) : DM V Nat := size x
/-- queue.hpp:28-29 `front`. -/
def qfront (x : Nat) : DM V V := front x
/-- queue.hpp:30-31 `back`. -/
def qback (x : Nat) : DM V V := back x
/-- queue.hpp:33-34 `push`. -/
def qpush (K x : Nat) (r : Ref V) : DM V Unit := pushBack K x r
/-- queue.hpp:35 `pop`. -/
def qpop (K x : Nat) : DM V Unit := popFront K x
/-- Implicit `~queue`. -/
def qdtor (K x : Nat) : DM V Unit := dtor K x

/-! ### The integer representation of `m_back_chunk` is exact

Incrementing, decrementing, indexing and the comparison of deque.hpp:330 commute with taking the
residue, as long as the integers stay in `[-1, 2^64 - 1)` (fewer than 2^64 - 1 chunks). -/

theorem residue_inc (b : Int) : residue (b + 1) = (residue b + 1) % 2^64 := by
  unfold residue; omega
theorem residue_dec (b : Int) : residue (b - 1) = (residue b + (2^64 - 1)) % 2^64 := by
  unfold residue; omega
theorem residue_eq {b : Int} {n : Nat} (h1 : -1 ≤ b) (h2 : b < 2^64 - 1) (hn : n < 2^64 - 1) (h0 : 0 < n) :
    residue b = n - 1 ↔ b = (n : Int) - 1 := by
  unfold residue; omega
theorem residue_index {b : Int} {n : Nat} (h1 : -1 ≤ b) (h2 : b < 2^64 - 1) (hn : n < 2^64 - 1) :
    residue b < n ↔ (0 ≤ b ∧ b.toNat < n) := by
  unfold residue; omega

end Cest.Deq
