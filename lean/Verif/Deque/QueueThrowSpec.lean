import Verif.Deque.HistSpec
/-
What a user of cest::queue (over cest::deque) sees when storage runs out and the exceptions are caught, together with the storage the queues
use.  Every operation of a program comes with a number: how many of its allocations and element copies succeed before one throws (`none`:
they all succeed).  `K` is the number of elements of a chunk.
This file does not mention the model.
-/
namespace Cest.Deq
variable {V : Type}

/-- `push` to `size` elements: a chunk more when the last one is full. -/
def Lay.grow (K : Nat) (l : Lay) (size : Nat) : Lay := if l.backFull K size then l.more else l

/-- `n` times. -/
def Lay.fill (K : Nat) (l : Lay) (size : Nat) : Nat → Lay
  | 0 => l
  | n+1 => (l.grow K size).fill K (size + 1) n

/-- Storage after an operation that does not throw.  Every operation has one: the fault of push_back (C11) never meets a queue. -/
def qlay (K : Nat) (e : Env V) (l : Lays) : QOp V → Lays
  | .new x => l.set x (Lay.init K)
  | .newCopy x y => l.set x ((Lay.init K).fill K 0 ((e y).getD []).length)
  | .push x _ | .pushFrom x _ => l.set x ((l x).grow K ((e x).getD []).length)
  | .pop x => if ((e x).getD []).length = 0 then l else l.set x { l x with first := (l x).first + 1 }
  | _ => l

/-- What happens when `k` allocations and element copies of the operation succeed and the next one throws. -/
def qupset (K : Nat) (e : Env V) (l : Lays) (k : Nat) : QOp V → Upset V
  | .new _ => building K e l 0 k
  | .newCopy _ y => building K e l ((e y).getD []).length k
  | .push x _ | .pushFrom x _ => pushing e l ((l x).allocs ((l x).backFull K ((e x).getD []).length)) k
  | _ => .none

/-- A program whose exceptions are all caught: the queues and their storage at the end, the observations (`none`: an exception was caught),
chunks lost.  The program has no meaning (`none`) if it violates a precondition or the copy of an element throws (C82). -/
def qspecRunT (K : Nat) (e : Env V) (l : Lays) :
    List (Option Nat × QOp V) → Option (Env V × Lays × List (Option (Out V)) × Nat)
  | [] => some (e, l, [], 0)
  | (t, op) :: ops =>
    match qspecStep e op with
    | some (e', o) =>
      match t.elim Upset.none fun k => qupset K e l k op with
      | .none => (qspecRunT K e' (qlay K e l op) ops).map fun r => (r.1, r.2.1, some o :: r.2.2.1, r.2.2.2)
      | .caught e'' l'' n => (qspecRunT K e'' l'' ops).map fun r => (r.1, r.2.1, none :: r.2.2.1, n + r.2.2.2)
      | .broken => none
    | none => none

end Cest.Deq
