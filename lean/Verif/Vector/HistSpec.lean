import Verif.Vector.Spec
/-
What a user of cest::vector sees when operations may throw and the exceptions are caught, together with
the capacities.  Every operation of a program comes with a number: how many of its allocations and element
copies succeed before one throws (`none`: they all succeed).
This file does not mention the model.
-/
namespace Cest.Vec
variable {V : Type}

/-- Capacities of the variables. -/
abbrev Caps := Nat → Nat

def Caps.set (c : Caps) (x n : Nat) : Caps := fun y => if y = x then n else c y

/-- The capacity of a vector of `size` elements and capacity `cap` after one more `push_back`: storage for
one element first, twice as much whenever it is full. -/
def pushCap (cap size : Nat) : Nat := if cap = 0 then 1 else if cap = size then cap * 2 else cap

/-- The same after `n` of them. -/
def pushCaps (cap size : Nat) : Nat → Nat
  | 0 => cap
  | n+1 => pushCaps (pushCap cap size) (size + 1) n

/-- Capacities after an operation that does not throw. -/
def capsAfter (e : Env V) (c : Caps) : Op V → Caps
  | .new x => c.set x 0
  | .newN x n => c.set x n
  | .newList x vs => c.set x (pushCaps 0 0 vs.length)
  | .newCopy x y => c.set x (c y)
  | .newMove x y => (c.set x (c y)).set y 0
  | .assign x y => c.set x (max (c x) (c y))
  | .moveAssign x y | .swap x y => (c.set x (c y)).set y (c x)
  | .pushBack x _ | .pushBackFrom x _ _ => match e x with
    | some xs => c.set x (pushCap (c x) xs.length)
    | none => c
  | .resize x n | .reserve x n => c.set x (max (c x) n)
  | _ => c

/-- The outcome of an operation in which an allocation or element copy throws. -/
inductive Upset (V : Type) where
  | none                                              -- it does not make so many
  | caught (e : Env V) (c : Caps) (lost : Nat)        -- contents and capacities afterwards, blocks lost
  | broken                                            -- a vector that must not be used or destroyed any more

/-- Moving `size` elements to storage for `n`: an allocation, then a copy for each element.  If a copy
throws the new storage is lost. -/
def reserveUpset (e : Env V) (c : Caps) (size cap n k : Nat) (next : Nat → Upset V) : Upset V :=
  if cap < n then
    if k = 0 then .caught e c 0
    else if k ≤ size then .caught e c 1
    else next (k - (size + 1))
  else next k

/-- Blocks lost when a constructor that appends `n` elements to `size` elements in storage for `cap` throws:
all it has, as no destructor runs. -/
def appendLost (cap size : Nat) : Nat → Nat → Option Nat
  | 0, _ => none
  | n+1, k =>
    if cap = 0 then
      if k = 0 then some 0 else if k = 1 then some 1 else appendLost 1 (size + 1) n (k - 2)
    else if cap = size then
      if k = 0 then some 1
      else if k ≤ size then some 2
      else if k = size + 1 then some 1
      else appendLost (cap * 2) (size + 1) n (k - (size + 2))
    else if k = 0 then some 1
    else appendLost cap (size + 1) n (k - 1)

/-- What happens when `k` allocations and element copies of the operation succeed and the next one throws. -/
def upset (e : Env V) (c : Caps) (k : Nat) : Op V → Upset V
  | .newN _ n =>
    if n = 0 then .none else if k = 0 then .caught e c 0 else if k ≤ n then .caught e c 1 else .none
  | .newList _ vs => match appendLost 0 0 vs.length k with
    | some n => .caught e c n
    | Option.none => .none
  | .newCopy _ y => match e y with
    | some ys => if c y = 0 then .none else if k = 0 then .caught e c 0
      else if k ≤ ys.length then .broken else .none
    | Option.none => .none
  | .assign x y => match e x, e y with
    | some xs, some ys => reserveUpset e c xs.length (c x) (c y) k fun k =>
        if ys.length ≤ k then .none
        else if k ≤ xs.length then
          .caught (e.set x (some (ys.take k ++ xs.drop k))) (c.set x (max (c x) (c y))) 0
        else .broken
    | _, _ => .none
  | .pushBack x _ | .pushBackFrom x _ _ => match e x with
    | some xs => reserveUpset e c xs.length (c x) (xs.length + 1) k fun k => if k = 0 then .broken else .none
    | Option.none => .none
  | .resize x n => match e x with
    | some xs =>
      if n ≤ xs.length then .none else
      reserveUpset e c xs.length (c x) n k fun k =>
        if k = 0 then .caught e (c.set x (max (c x) n)) 0
        else if k < n - xs.length then .broken else .none
    | Option.none => .none
  | .reserve x n => match e x with
    | some xs => reserveUpset e c xs.length (c x) n k fun _ => .none
    | Option.none => .none
  | .erase x i j => match e x with
    | some xs =>
      if k < xs.length - j then
        .caught (e.set x (some (xs.take i ++ (xs.drop j).take k ++ xs.drop (i + k)))) c 0
      else .none
    | Option.none => .none
  | .set .. => if k = 0 then .caught e c 0 else .none
  | _ => .none

variable [Inhabited V] [BEq V]

/-- A program whose exceptions are all caught: final contents and capacities, observations (`none`: an
exception was caught), blocks of storage lost.  The program has no meaning (`none`) if a vector breaks. -/
def specRunT (e : Env V) (c : Caps) :
    List (Option Nat × Op V) → Option (Env V × Caps × List (Option (Out V)) × Nat)
  | [] => some (e, c, [], 0)
  | (t, op) :: ops =>
    match specStep e op with
    | none => none
    | some (e', o) =>
      match (match t with | none => Upset.none | some k => upset e c k op) with
      | .none => (specRunT e' (capsAfter e c op) ops).map fun r => (r.1, r.2.1, some o :: r.2.2.1, r.2.2.2)
      | .caught e'' c'' n => (specRunT e'' c'' ops).map fun r => (r.1, r.2.1, none :: r.2.2.1, n + r.2.2.2)
      | .broken => none

end Cest.Vec
