import Verif.Tree.Order
/-
What a user of cest::set and cest::map may rely on: a variable holds finitely many elements in increasing
order; each element has an identity (assigned in order of creation) by which iterators designate it.
This file does not mention the model.
-/
namespace Cest.Tree

/-- An iterator designates an element, or is the past-the-end iterator. -/
inductive It where
  | elem (id : Nat)
  | end_
  deriving DecidableEq, Repr

/-- Contents: identities and values in increasing order. -/
abbrev Seq (V : Type) := List (Nat × V)

/-- Containers and iterator variables in scope, and the next unused identity. -/
structure Env (V : Type) where
  sets : Nat → Option (Seq V)
  its : Nat → Option It
  next : Nat

def Env.none {V : Type} : Env V := ⟨fun _ => Option.none, fun _ => Option.none, 0⟩

variable {V K : Type}

def Env.setL (e : Env V) (x : Nat) (s : Option (Seq V)) : Env V :=
  { e with sets := fun y => if y = x then s else e.sets y }
def Env.setI (e : Env V) (k : Nat) (i : It) : Env V :=
  { e with its := fun j => if j = k then some i else e.its j }
def Env.bump (e : Env V) (n : Nat) : Env V := { e with next := e.next + n }

/-- Give identities `i, i+1, …` to the values. -/
def number (i : Nat) : List V → Seq V
  | [] => []
  | v :: vs => (i, v) :: number (i+1) vs

/-- The element whose key is equivalent to `k`, if any. -/
def lookup (g : Cfg V K) (s : Seq V) (k : K) : Option (Nat × V) :=
  s.find? (fun e => g.equiv (g.key e.2) k)

/-- Put a new element between the smaller and the larger ones. -/
def insSorted (g : Cfg V K) (s : Seq V) (e : Nat × V) : Seq V :=
  s.filter (fun d => g.lt d.2 e.2) ++ e :: s.filter (fun d => g.lt e.2 d.2)

/-- What follows the element with identity `a`. -/
def after (a : Nat) : Seq V → Option (Seq V)
  | [] => none
  | (b, _) :: t => if b = a then some t else after a t

/-- The element with identity `a`. -/
def valOf (a : Nat) (s : Seq V) : Option V := (s.find? (fun e => e.1 == a)).map Prod.snd

/-- Iterator to the first of some elements. -/
def first : Seq V → It
  | [] => .end_
  | (a, _) :: _ => .elem a

/-- Replace the value of element `a`. -/
def setVal (a : Nat) (v : V) (s : Seq V) : Seq V := s.map (fun e => if e.1 = a then (a, v) else e)

/-- Operations of a program. `k`, `j` name iterator variables; the container given with an iterator
operation is the one the iterator is supposed to belong to. -/
inductive Op (V K : Type) where
  | new (x : Nat)
  | newCopy (x y : Nat)
  | assign (x y : Nat)
  | destroy (x : Nat)
  | clear (x : Nat)
  | insert (x : Nat) (v : V) (j : Nat)          -- j = x.insert(v).first; observes .second
  | insertHint (x h : Nat) (v : V) (j : Nat)    -- j = x.insert(h, v)
  | find (x : Nat) (k : K) (j : Nat)            -- j = x.find(k)
  | begin_ (x j : Nat)
  | end_ (x j : Nat)
  | inc (x k : Nat)                             -- ++k
  | deref (x k : Nat)                           -- *k
  | write (x k : Nat) (v : V)                   -- k->second = v.second (map); v has the element's key
  | itEq (k j : Nat)                            -- k == j
  | size (x : Nat)
  | empty (x : Nat)
  | toList (x : Nat)

inductive Out (V : Type) where
  | unit
  | nat (n : Nat)
  | bool (b : Bool)
  | val (v : V)
  | vals (vs : List V)

/-- `insert(v)` with result stored in iterator variable `j`. -/
def specInsert (g : Cfg V K) (e : Env V) (x : Nat) (s : Seq V) (v : V) (j : Nat) : Env V × Bool :=
  match lookup g s (g.key v) with
  | some (a, _) => (e.setI j (.elem a), false)
  | none => (((e.setL x (some (insSorted g s (e.next, v)))).setI j (.elem e.next)).bump 1, true)

/-- Meaning of one operation; `none` when a precondition of the C++ interface is violated.
`same` decides whether two values have the same key (needed for `write` only). -/
def specStep [DecidableEq K] (g : Cfg V K) (e : Env V) : Op V K → Option (Env V × Out V)
  | .new x => match e.sets x with
    | none => some (e.setL x (some []), .unit)
    | some _ => none
  | .newCopy x y => match e.sets x, e.sets y with
    | none, some t => some ((e.setL x (some (number e.next (t.map Prod.snd)))).bump t.length, .unit)
    | _, _ => none
  | .assign x y => match e.sets x, e.sets y with
    | some _, some t =>
      if x = y then none   -- see C34
      else some ((e.setL x (some (number e.next (t.map Prod.snd)))).bump t.length, .unit)
    | _, _ => none
  | .destroy x => match e.sets x with
    | some _ => some (e.setL x none, .unit)
    | none => none
  | .clear x => match e.sets x with
    | some _ => some (e.setL x (some []), .unit)
    | none => none
  | .insert x v j => match e.sets x with
    | some s => some ((specInsert g e x s v j).1, .bool (specInsert g e x s v j).2)
    | none => none
  | .insertHint x h v j => match e.sets x, e.its h with
    | some s, some _ => some ((specInsert g e x s v j).1, .unit)
    | _, _ => none
  | .find x k j => match e.sets x with
    | some s => match lookup g s k with
      | some (a, _) => some (e.setI j (.elem a), .unit)
      | none => some (e.setI j .end_, .unit)
    | none => none
  | .begin_ x j => match e.sets x with
    | some s => some (e.setI j (first s), .unit)
    | none => none
  | .end_ x j => match e.sets x with
    | some _ => some (e.setI j .end_, .unit)
    | none => none
  | .inc x k => match e.sets x, e.its k with
    | some s, some (.elem a) => match after a s with
      | some r => some (e.setI k (first r), .unit)
      | none => none
    | _, _ => none
  | .deref x k => match e.sets x, e.its k with
    | some s, some (.elem a) => match valOf a s with
      | some v => some (e, .val v)
      | none => none
    | _, _ => none
  | .write x k v => match e.sets x, e.its k with
    | some s, some (.elem a) => match valOf a s with
      | some w => if g.key w = g.key v then some (e.setL x (some (setVal a v s)), .unit) else none
      | none => none
    | _, _ => none
  | .itEq k j => match e.its k, e.its j with
    | some i, some i' => some (e, .bool (decide (i = i')))
    | _, _ => none
  | .size x => match e.sets x with
    | some s => some (e, .nat s.length)
    | none => none
  | .empty x => match e.sets x with
    | some s => some (e, .bool s.isEmpty)
    | none => none
  | .toList x => match e.sets x with
    | some s => some (e, .vals (s.map Prod.snd))
    | none => none

/-- Meaning of a program: final environment and observations. -/
def specRun [DecidableEq K] (g : Cfg V K) (e : Env V) : List (Op V K) → Option (Env V × List (Out V))
  | [] => some (e, [])
  | op :: ops => match specStep g e op with
    | none => none
    | some (e', o) => match specRun g e' ops with
      | none => none
      | some (e'', os) => some (e'', o :: os)

end Cest.Tree
