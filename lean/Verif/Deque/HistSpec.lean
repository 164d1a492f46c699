import Verif.Deque.Spec
/-
What a user of cest::deque sees when operations may throw and the exceptions are caught, together with the
storage a deque uses.  Every operation of a program comes with a number: how many of its allocations and
element copies succeed before one throws (`none`: they all succeed).  `K` is the number of elements of a
chunk.
This file does not mention the model.
-/
namespace Cest.Deq
variable {V : Type}

/-- Storage of a deque: the slots of all chunks are numbered in order; `first` is the slot of the first
element, `chunks` the number of chunks, `room` the number of chunks the table of chunks has room for. -/
structure Lay where
  first : Nat
  chunks : Nat
  room : Nat
  deriving DecidableEq

abbrev Lays := Nat → Lay

def Lays.set (l : Lays) (x : Nat) (a : Lay) : Lays := fun y => if y = x then a else l y

/-- An empty deque starts in the middle of its only chunk. -/
def Lay.init (K : Nat) : Lay := ⟨K / 2, 1, 1⟩

/-- One chunk more; the table doubles when it is full. -/
def Lay.more (l : Lay) : Lay :=
  { l with chunks := l.chunks + 1, room := if l.room = l.chunks then l.room * 2 else l.room }

/-- Is the slot behind the last of `size` elements behind the last chunk? -/
def Lay.backFull (K : Nat) (l : Lay) (size : Nat) : Bool := l.first + size == l.chunks * K

/-- `push_back` to `size` elements; `none`: the last element ends a chunk that is not the last one, which
push_back does not cope with (C11). -/
def Lay.pushB (K : Nat) (l : Lay) (size : Nat) : Option Lay :=
  if l.backFull K size then some l.more
  else if (l.first + size) % K = 0 then none
  else some l

/-- `n` times. -/
def Lay.pushBs (K : Nat) (l : Lay) (size : Nat) : Nat → Option Lay
  | 0 => some l
  | n+1 => match l.pushB K size with
    | some l' => l'.pushBs K (size + 1) n
    | none => none

/-- `push_front`. -/
def Lay.pushF (K : Nat) (l : Lay) : Lay :=
  if l.first = 0 then { l.more with first := K - 1 } else { l with first := l.first - 1 }

/-- `clear` starts again in the middle of the middle chunk. -/
def Lay.clear (K : Nat) (l : Lay) : Lay := { l with first := K * (l.chunks / 2) + K / 2 }

/-- Storage after an operation that does not throw; `none`: the operation is outside what cest::deque does
correctly (push_back as above, iteration when the last element ends a chunk (C14), self-assignment (C12)). -/
def layAfter (K : Nat) (e : Env V) (l : Lays) : Op V → Option Lays
  | .new x => some (l.set x (Lay.init K))
  | .newList x vs => ((Lay.init K).pushBs K 0 vs.length).map (l.set x)
  | .newCopy x y => ((Lay.init K).pushBs K 0 ((e y).getD []).length).map (l.set x)
  | .assign x y =>
    if x = y then none
    else (((l x).clear K).pushBs K 0 ((e y).getD []).length).map (l.set x)
  | .pushBack x _ | .pushBackFrom x _ _ => ((l x).pushB K ((e x).getD []).length).map (l.set x)
  | .pushFront x _ | .pushFrontFrom x _ _ => some (l.set x ((l x).pushF K))
  | .popFront x => some (if ((e x).getD []).length = 0 then l else l.set x { l x with first := (l x).first + 1 })
  | .clear x => some (l.set x ((l x).clear K))
  | .toList x => if ((l x).first + ((e x).getD []).length) % K = 0 then none else some l
  | _ => some l

/-- The outcome of an operation in which an allocation or element copy throws. -/
inductive Upset (V : Type) where
  | none                                              -- it does not make so many
  | caught (e : Env V) (l : Lays) (lost : Nat)        -- contents and storage afterwards, chunks lost
  | broken                                            -- a deque that must not be used or destroyed any more

/-- One push with `a` allocations and then an element copy. -/
inductive Push where
  | ok (k : Nat)           -- what is left of the number
  | caught (lost : Nat)
  | broken

/-- Number of allocations of a push: none, or a chunk, or a chunk and a table. -/
def Lay.allocs (l : Lay) (newChunk : Bool) : Nat :=
  if newChunk then (if l.room = l.chunks then 2 else 1) else 0

/-- If the chunk cannot be allocated nothing happens; if the table cannot grow the chunk is lost; if the
copy throws, the deque counts an element that does not exist (C82). -/
def push (a k : Nat) : Push :=
  if k < a then .caught k else if k = a then .broken else .ok (k - (a + 1))

/-- `n` calls of push_back. -/
inductive Pushes where
  | ok
  | caught (size : Nat) (l : Lay) (lost : Nat)       -- elements and storage when it threw
  | broken

def pushes (K : Nat) (l : Lay) (size : Nat) : Nat → Nat → Pushes
  | 0, _ => .ok
  | n+1, k => match push (l.allocs (l.backFull K size)) k with
    | .caught m => .caught size l m
    | .broken => .broken
    | .ok k' => match l.pushB K size with
      | some l' => pushes K l' (size + 1) n k'
      | none => .broken

/-- A constructor that makes two allocations and then calls push_back `n` times.  The destructor releases
what was built. -/
def building (K : Nat) (e : Env V) (l : Lays) (n k : Nat) : Upset V :=
  if k < 2 then .caught e l k
  else match pushes K (Lay.init K) 0 n (k - 2) with
    | .ok => .none
    | .caught _ _ m => .caught e l m
    | .broken => .broken

def pushing (e : Env V) (l : Lays) (a k : Nat) : Upset V :=
  match push a k with
  | .ok _ => .none
  | .caught m => .caught e l m
  | .broken => .broken

/-- What happens when `k` allocations and element copies of the operation succeed and the next one throws. -/
def upset (K : Nat) (e : Env V) (l : Lays) (k : Nat) : Op V → Upset V
  | .new _ => building K e l 0 k
  | .newList _ vs => building K e l vs.length k
  | .newCopy _ y => building K e l ((e y).getD []).length k
  | .assign x y =>
    match pushes K ((l x).clear K) 0 ((e y).getD []).length k with
    | .ok => .none
    | .caught i l' m => .caught (e.set x (some (((e y).getD []).take i))) (l.set x l') m
    | .broken => .broken
  | .pushBack x _ | .pushBackFrom x _ _ =>
    pushing e l ((l x).allocs ((l x).backFull K ((e x).getD []).length)) k
  | .pushFront x _ | .pushFrontFrom x _ _ => pushing e l ((l x).allocs ((l x).first == 0)) k
  | .set .. => if k = 0 then .caught e l 0 else .none
  | _ => .none

/-- A program whose exceptions are all caught: final contents and storage, observations (`none`: an
exception was caught), chunks lost.  The program has no meaning (`none`) if a deque breaks. -/
def specRunT (K : Nat) (e : Env V) (l : Lays) :
    List (Option Nat × Op V) → Option (Env V × Lays × List (Option (Out V)) × Nat)
  | [] => some (e, l, [], 0)
  | (t, op) :: ops =>
    match specStep e op, layAfter K e l op with
    | some (e', o), some l' =>
      match (match t with | none => Upset.none | some k => upset K e l k op) with
      | .none => (specRunT K e' l' ops).map fun r => (r.1, r.2.1, some o :: r.2.2.1, r.2.2.2)
      | .caught e'' l'' n => (specRunT K e'' l'' ops).map fun r => (r.1, r.2.1, none :: r.2.2.1, n + r.2.2.2)
      | .broken => none
    | _, _ => none

end Cest.Deq
