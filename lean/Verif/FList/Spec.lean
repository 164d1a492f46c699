/-
What a user of cest::forward_list may rely on: variables hold sequences of elements with identities
(assigned in order of creation) by which iterators designate them.  This file does not mention the model.
-/
namespace Cest.FL

/-- An iterator: `before_begin()` of a list, an element, or `end()`. -/
inductive It where
  | before (x : Nat)
  | elem (id : Nat)
  | end_
  deriving DecidableEq, Repr

abbrev Seq (V : Type) := List (Nat × V)

structure Env (V : Type) where
  lists : Nat → Option (Seq V)
  its : Nat → Option It
  next : Nat

def Env.none {V : Type} : Env V := ⟨fun _ => Option.none, fun _ => Option.none, 0⟩

variable {V : Type}

def Env.setL (e : Env V) (x : Nat) (s : Option (Seq V)) : Env V :=
  { e with lists := fun y => if y = x then s else e.lists y }
def Env.setI (e : Env V) (k : Nat) (i : It) : Env V :=
  { e with its := fun j => if j = k then some i else e.its j }
def Env.bump (e : Env V) (n : Nat) : Env V := { e with next := e.next + n }

/-- Give identities `i, i+1, …` to the values. -/
def number (i : Nat) : List V → Seq V
  | [] => []
  | v :: vs => (i, v) :: number (i+1) vs

/-- Split `s` at the element with identity `a`: what is before it, and what starts with it. -/
def splitAt (a : Nat) : Seq V → Option (Seq V × Seq V)
  | [] => none
  | (b, v) :: t =>
    if b = a then some ([], (b, v) :: t)
    else match splitAt a t with
      | some (l, r) => some ((b, v) :: l, r)
      | none => none

/-- Split the contents `s` of list `x` just after a dereferenceable or before-begin iterator. -/
def splitAfter (x : Nat) (s : Seq V) : It → Option (Seq V × Seq V)
  | .before y => if y = x then some ([], s) else none
  | .elem a => match splitAt a s with
    | some (l, d :: r) => some (l ++ [d], r)
    | _ => none
  | .end_ => none

/-- Split a tail at an iterator to one of its elements or at the end. -/
def splitLast (r : Seq V) : It → Option (Seq V × Seq V)
  | .before _ => none
  | .elem a => splitAt a r
  | .end_ => some (r, [])

/-- Iterator to the first element of a tail. -/
def first : Seq V → It
  | [] => .end_
  | (a, _) :: _ => .elem a

/-- Operations. `j`, `k`, `m` name iterator variables, `t` the stack slot for the local variable of
`operator=` (any name not in use). -/
inductive Op (V : Type) where
  | new (x : Nat)
  | newCopy (x y : Nat)
  | assign (x y t : Nat)
  | swap (x y : Nat)
  | destroy (x : Nat)
  | clear (x : Nat)
  | pushFront (x : Nat) (v : V)
  | popFront (x : Nat)
  | insertAfter (x k : Nat) (v : V) (j : Nat)  -- j = x.insert_after(k, v)
  | eraseAfter (x k j : Nat)                   -- j = x.erase_after(k)
  | eraseRange (x k m j : Nat)                 -- j = x.erase_after(k, m)
  | before (x j : Nat)
  | begin_ (x j : Nat)
  | end_ (x j : Nat)
  | inc (x k : Nat)
  | deref (x k : Nat)
  | set (x k : Nat) (v : V)
  | itEq (k j : Nat)
  | empty (x : Nat)
  | front (x : Nat)
  | toList (x : Nat)

inductive Out (V : Type) where
  | unit
  | bool (b : Bool)
  | val (v : V)
  | vals (vs : List V)

def specStep (e : Env V) : Op V → Option (Env V × Out V)
  | .new x => match e.lists x with
    | none => some (e.setL x (some []), .unit)
    | some _ => none
  | .newCopy x y => match e.lists x, e.lists y with
    | none, some t => some ((e.setL x (some (number e.next (t.map Prod.snd)))).bump t.length, .unit)
    | _, _ => none
  | .assign x y t => match e.lists x, e.lists y, e.lists t with
    | some _, some s, none =>
      some ((e.setL x (some (number e.next (s.map Prod.snd)))).bump s.length, .unit)
    | _, _, _ => none
  | .swap x y => match e.lists x, e.lists y with
    | some s, some t => some ((e.setL x (some t)).setL y (some s), .unit)
    | _, _ => none
  | .destroy x => match e.lists x with
    | some _ => some (e.setL x none, .unit)
    | none => none
  | .clear x => match e.lists x with
    | some _ => some (e.setL x (some []), .unit)
    | none => none
  | .pushFront x v => match e.lists x with
    | some s => some ((e.setL x (some ((e.next, v) :: s))).bump 1, .unit)
    | none => none
  | .popFront x => match e.lists x with
    | some (_ :: s) => some (e.setL x (some s), .unit)
    | _ => none
  | .insertAfter x k v j => match e.lists x, e.its k with
    | some s, some i => match splitAfter x s i with
      | some (l, r) => some (((e.setL x (some (l ++ (e.next, v) :: r))).setI j (.elem e.next)).bump 1, .unit)
      | none => none
    | _, _ => none
  | .eraseAfter x k j => match e.lists x, e.its k with
    | some s, some i => match splitAfter x s i with
      | some (l, _ :: r) => some ((e.setL x (some (l ++ r))).setI j (first r), .unit)
      | _ => none
    | _, _ => none
  | .eraseRange x k m j => match e.lists x, e.its k, e.its m with
    | some s, some i, some i' => match splitAfter x s i with
      | some (l, r) => match splitLast r i' with
        | some (_, r') => some ((e.setL x (some (l ++ r'))).setI j i', .unit)
        | none => none
      | none => none
    | _, _, _ => none
  | .before x j => match e.lists x with
    | some _ => some (e.setI j (.before x), .unit)
    | none => none
  | .begin_ x j => match e.lists x with
    | some s => some (e.setI j (first s), .unit)
    | none => none
  | .end_ x j => match e.lists x with
    | some _ => some (e.setI j .end_, .unit)
    | none => none
  | .inc x k => match e.lists x, e.its k with
    | some s, some i => match splitAfter x s i with
      | some (_, r) => some (e.setI k (first r), .unit)
      | none => none
    | _, _ => none
  | .deref x k => match e.lists x, e.its k with
    | some s, some (.elem a) => match splitAt a s with
      | some (_, (_, v) :: _) => some (e, .val v)
      | _ => none
    | _, _ => none
  | .set x k v => match e.lists x, e.its k with
    | some s, some (.elem a) => match splitAt a s with
      | some (l, (b, _) :: r) => some (e.setL x (some (l ++ (b, v) :: r)), .unit)
      | _ => none
    | _, _ => none
  | .itEq k j => match e.its k, e.its j with
    | some i, some i' => some (e, .bool (decide (i = i')))
    | _, _ => none
  | .empty x => match e.lists x with
    | some s => some (e, .bool s.isEmpty)
    | none => none
  | .front x => match e.lists x with
    | some ((_, v) :: _) => some (e, .val v)
    | _ => none
  | .toList x => match e.lists x with
    | some s => some (e, .vals (s.map Prod.snd))
    | none => none

def specRun (e : Env V) : List (Op V) → Option (Env V × List (Out V))
  | [] => some (e, [])
  | op :: ops => match specStep e op with
    | none => none
    | some (e', o) => match specRun e' ops with
      | none => none
      | some (e'', os) => some (e'', o :: os)

end Cest.FL
