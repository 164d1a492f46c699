/-
What a user of cest::list may rely on: variables hold sequences of elements; each element has an
identity (assigned in order of creation) by which iterators designate it, whatever happens elsewhere.
This file does not mention the model.
-/
namespace Cest.Lst

/-- An iterator designates an element or the end of a list. -/
inductive It where
  | elem (id : Nat)
  | end_ (x : Nat)
  deriving DecidableEq, Repr

/-- Contents of a list: identities and values in order. -/
abbrev Seq (V : Type) := List (Nat × V)

/-- Lists and iterator variables in scope, and the next unused identity. -/
structure Env (V : Type) where
  lists : Nat → Option (Seq V)
  its : Nat → Option It
  next : Nat

def Env.none {V : Type} : Env V := ⟨fun _ => Option.none, fun _ => Option.none, 0⟩

variable {V : Type}

def Env.setL (e : Env V) (x : Nat) (s : Option (Seq V)) : Env V :=
  { e with lists := fun y => if y = x then s else e.lists y }
def Env.setI (e : Env V) (k : Nat) (i : It) : Env V :=
  { e with its := fun j => if j = k then some i else e.its j }
/-- Number of identities used up. -/
def Env.bump (e : Env V) (n : Nat) : Env V := { e with next := e.next + n }

/-- Give identities `i, i+1, …` to the values. -/
def number (i : Nat) : List V → Seq V
  | [] => []
  | v :: vs => (i, v) :: number (i+1) vs

/-- Split `s` at the element with identity `a`: what is before it, and what starts with it. -/
def splitAt (a : Nat) : Seq V → Option (Seq V × Seq V)
  | [] => none
  | (b, v) :: t =>
    if b = a then some ([], (b, v) :: t)
    else match splitAt a t with
      | some (l, r) => some ((b, v) :: l, r)
      | none => none

/-- Split the contents `s` of list `x` at an iterator valid for `x`. -/
def split (x : Nat) (s : Seq V) : It → Option (Seq V × Seq V)
  | .end_ y => if y = x then some (s, []) else none
  | .elem a => splitAt a s

/-- Iterator to the first element of a tail of list `x`. -/
def first (x : Nat) : Seq V → It
  | [] => .end_ x
  | (a, _) :: _ => .elem a

/-- Operations of a program. `k`, `j` name iterator variables; the list name given with an iterator
operation is the list the iterator is supposed to belong to. -/
inductive Op (V : Type) where
  | new (x : Nat)
  | newCopy (x y : Nat)
  | assign (x y : Nat)
  | destroy (x : Nat)
  | clear (x : Nat)
  | pushBack (x : Nat) (v : V)
  | pushFront (x : Nat) (v : V)
  | emplaceBack (x : Nat) (v : V)
  | emplaceFront (x : Nat) (v : V)
  | popBack (x : Nat)
  | popFront (x : Nat)
  | insert (x k : Nat) (v : V) (j : Nat)   -- j = x.insert(k, v)
  | emplace (x k : Nat) (v : V) (j : Nat)  -- j = x.emplace(k, v)
  | erase (x k j : Nat)                    -- j = x.erase(k)
  | begin_ (x j : Nat)                     -- j = x.begin()
  | end_ (x j : Nat)                       -- j = x.end()
  | inc (x k : Nat)                        -- ++k
  | dec (x k : Nat)                        -- --k
  | deref (x k : Nat)                      -- *k
  | set (x k : Nat) (v : V)                -- *k = v
  | itEq (k j : Nat)                       -- k == j
  | size (x : Nat)
  | empty (x : Nat)
  | front (x : Nat)
  | back (x : Nat)
  | toList (x : Nat)
  | toListRev (x : Nat)

inductive Out (V : Type) where
  | unit
  | nat (n : Nat)
  | bool (b : Bool)
  | val (v : V)
  | vals (vs : List V)

/-- Meaning of one operation; `none` when a precondition of the C++ interface is violated. -/
def specStep (e : Env V) : Op V → Option (Env V × Out V)
  | .new x => match e.lists x with
    | none => some (e.setL x (some []), .unit)
    | some _ => none
  | .newCopy x y => match e.lists x, e.lists y with
    | none, some t => some ((e.setL x (some (number e.next (t.map Prod.snd)))).bump t.length, .unit)
    | _, _ => none
  | .assign x y => match e.lists x, e.lists y with
    | some _, some t =>
      if x = y then none   -- see C25
      else some ((e.setL x (some (number e.next (t.map Prod.snd)))).bump t.length, .unit)
    | _, _ => none
  | .destroy x => match e.lists x with
    | some _ => some (e.setL x none, .unit)
    | none => none
  | .clear x => match e.lists x with
    | some _ => some (e.setL x (some []), .unit)
    | none => none
  | .pushBack x v => match e.lists x with
    | some s => some ((e.setL x (some (s ++ [(e.next, v)]))).bump 1, .unit)
    | none => none
  | .pushFront x v => match e.lists x with
    | some s => some ((e.setL x (some ((e.next, v) :: s))).bump 1, .unit)
    | none => none
  | .emplaceBack x v => match e.lists x with
    | some s => some ((e.setL x (some (s ++ [(e.next, v)]))).bump 1, .val v)
    | none => none
  | .emplaceFront x v => match e.lists x with
    | some s => some ((e.setL x (some ((e.next, v) :: s))).bump 1, .val v)
    | none => none
  | .popBack x => match e.lists x with
    | some [] => none
    | some s => some (e.setL x (some s.dropLast), .unit)
    | none => none
  | .popFront x => match e.lists x with
    | some (_ :: s) => some (e.setL x (some s), .unit)
    | _ => none
  | .insert x k v j | .emplace x k v j => match e.lists x, e.its k with
    | some s, some i => match split x s i with
      | some (l, r) => some (((e.setL x (some (l ++ (e.next, v) :: r))).setI j (.elem e.next)).bump 1, .unit)
      | none => none
    | _, _ => none
  | .erase x k j => match e.lists x, e.its k with
    | some s, some i => match split x s i with
      | some (l, _ :: r) => some ((e.setL x (some (l ++ r))).setI j (first x r), .unit)
      | _ => none
    | _, _ => none
  | .begin_ x j => match e.lists x with
    | some s => some (e.setI j (first x s), .unit)
    | none => none
  | .end_ x j => match e.lists x with
    | some _ => some (e.setI j (.end_ x), .unit)
    | none => none
  | .inc x k => match e.lists x, e.its k with
    | some s, some i => match split x s i with
      | some (_, _ :: r) => some (e.setI k (first x r), .unit)
      | _ => none
    | _, _ => none
  | .dec x k => match e.lists x, e.its k with
    | some s, some i => match split x s i with
      | some (l, _) => match l.getLast? with
        | some (a, _) => some (e.setI k (.elem a), .unit)
        | none => none
      | none => none
    | _, _ => none
  | .deref x k => match e.lists x, e.its k with
    | some s, some i => match split x s i with
      | some (_, (_, v) :: _) => some (e, .val v)
      | _ => none
    | _, _ => none
  | .set x k v => match e.lists x, e.its k with
    | some s, some i => match split x s i with
      | some (l, (a, _) :: r) => some (e.setL x (some (l ++ (a, v) :: r)), .unit)
      | _ => none
    | _, _ => none
  | .itEq k j => match e.its k, e.its j with
    | some i, some i' => some (e, .bool (decide (i = i')))
    | _, _ => none
  | .size x => match e.lists x with
    | some s => some (e, .nat s.length)
    | none => none
  | .empty x => match e.lists x with
    | some s => some (e, .bool s.isEmpty)
    | none => none
  | .front x => match e.lists x with
    | some ((_, v) :: _) => some (e, .val v)
    | _ => none
  | .back x => match e.lists x with
    | some s => match s.getLast? with
      | some (_, v) => some (e, .val v)
      | none => none
    | none => none
  | .toList x => match e.lists x with
    | some s => some (e, .vals (s.map Prod.snd))
    | none => none
  | .toListRev x => match e.lists x with
    | some s => some (e, .vals (s.map Prod.snd).reverse)
    | none => none

/-- Meaning of a program: final environment and observations. -/
def specRun (e : Env V) : List (Op V) → Option (Env V × List (Out V))
  | [] => some (e, [])
  | op :: ops => match specStep e op with
    | none => none
    | some (e', o) => match specRun e' ops with
      | none => none
      | some (e'', os) => some (e'', o :: os)

end Cest.Lst
