/-
What a user of shared_ptr with deleters, with arrays and with pointers to derived classes may rely on (the
C++ standard's std::shared_ptr).  This file does not mention the model.

Types are numbered: pointer type 0 is a pointer to the element type `T` itself, the others point to classes
derived from `T`.  A deleter has a type (a number) and a value of type `D`.  `frees k` says whether deleters
of type `k` destroy the object they are given (otherwise they only observe it).
-/
namespace Cest.Sdel

/-- A dynamically created object or array. -/
inductive Content (V : Type) where
  | one (v : V)
  | arr (vs : List V)

/-- Operations on variables of type shared_ptr<T> or shared_ptr<T[]>. -/
inductive Op (V D : Type) where
  | make (x y : Nat) (c : Content V)      -- shared_ptr<T> x(new Y{v});  shared_ptr<T[]> x(new T[n]{...});
  | makeDel (x y : Nat) (c : Option (Content V)) (k : Nat) (d : D)   -- shared_ptr<T> x(new Y{v} or (Y*)nullptr, d);
  | copy (x z : Nat)                      -- shared_ptr<T> x(z);
  | destroy (x : Nat)
  | useCount (x : Nat)
  | getDel (x k : Nat)                    -- get_deleter<k>(x): the deleter pointed to, if any
  | get (x : Nat)                         -- *x
  | idx (x : Nat) (i : Int)               -- x[i]
  | idxSet (x : Nat) (i : Int) (v : V)    -- x[i] = v;

inductive Out (V D : Type) where
  | unit
  | count (n : Int)
  | val (v : V)
  | del (d : Option D)
  deriving DecidableEq

/-- Lists of named things. -/
abbrev AL (β : Type) := List (Nat × β)

def AL.look {β : Type} : AL β → Nat → Option β
  | [], _ => none
  | (y, b) :: l, x => if x = y then some b else AL.look l x
def AL.drop {β : Type} : AL β → Nat → AL β
  | [], _ => []
  | (y, b) :: l, x => if x = y then l else (y, b) :: AL.drop l x

/-- A call of a deleter: its type, its value, the pointer it is given. -/
structure Call (D : Type) where
  ty : Nat
  val : D
  ptr : Option Nat
  deriving DecidableEq

/-- An ownership group: the object it manages and what to do with it in the end. -/
structure Group (D : Type) where
  obj : Option Nat
  del : Option (Nat × D)
  /-- Type of the pointer given to the constructor. -/
  pty : Nat

def Group.call {D : Type} (g : Group D) : Option (Call D) := g.del.map fun d => ⟨d.1, d.2, g.obj⟩

structure Handle where
  obj : Option Nat
  grp : Nat

/-- `made`: the deleter calls that constructions have promised; `log`: the calls made so far. -/
structure State (V D : Type) where
  vars : AL Handle
  grps : AL (Group D)
  objs : Nat → Option (Nat × Content V)
  next : Nat
  log : List (Call D)
  made : List (Call D)

variable {V D : Type}

def State.empty : State V D := ⟨[], [], fun _ => none, 0, [], []⟩

def owners : AL Handle → Nat → Nat
  | [], _ => 0
  | (_, h) :: l, g => owners l g + if h.grp = g then 1 else 0

/-- Does the end of the group destroy the object? -/
def Group.destroys (frees : Nat → Bool) (g : Group D) : Bool :=
  match g.del with
  | none => true
  | some (k, _) => frees k

/-- If the group has no owner left, the deleter is called and the group ends. -/
def State.collect (frees : Nat → Bool) (s : State V D) (g : Nat) : State V D :=
  if owners s.vars g = 0 then
    match s.grps.look g with
    | none => s
    | some G =>
      { s with
        grps := s.grps.drop g
        objs := fun o => if G.destroys frees = true ∧ G.obj = some o then none else s.objs o
        log := s.log ++ G.call.toList }
  else s

/-- Replace an element of a list. -/
def setAt : List V → Nat → V → List V
  | [], _, _ => []
  | _ :: l, 0, v => v :: l
  | a :: l, n+1, v => a :: setAt l n v

/-- Meaning of one operation; `none` when the client breaks a precondition (or the program is ill-typed). -/
def specStep (frees : Nat → Bool) (s : State V D) : Op V D → Option (State V D × Out V D)
  | .make x y c => match s.vars.look x, c, y with
    | none, .arr _, _ + 1 => none
    | none, c, y => some ({ s with
        vars := (x, ⟨some s.next, s.next + 1⟩) :: s.vars
        grps := (s.next + 1, ⟨some s.next, none, y⟩) :: s.grps
        objs := fun o => if o = s.next then some (y, c) else s.objs o
        next := s.next + 2 }, .unit)
    | some _, _, _ => none
  | .makeDel x y (some c) k d => match s.vars.look x with
    | none => some ({ s with
        vars := (x, ⟨some s.next, s.next + 1⟩) :: s.vars
        grps := (s.next + 1, ⟨some s.next, some (k, d), y⟩) :: s.grps
        objs := fun o => if o = s.next then some (y, c) else s.objs o
        next := s.next + 2
        made := ⟨k, d, some s.next⟩ :: s.made }, .unit)
    | some _ => none
  | .makeDel x y none k d => match s.vars.look x with
    | none => some ({ s with
        vars := (x, ⟨none, s.next⟩) :: s.vars
        grps := (s.next, ⟨none, some (k, d), y⟩) :: s.grps
        next := s.next + 1
        made := ⟨k, d, none⟩ :: s.made }, .unit)
    | some _ => none
  | .copy x z => match s.vars.look x, s.vars.look z with
    | none, some h => some ({ s with vars := (x, h) :: s.vars }, .unit)
    | _, _ => none
  | .destroy x => match s.vars.look x with
    | some h => some (({ s with vars := s.vars.drop x } : State V D).collect frees h.grp, .unit)
    | none => none
  | .useCount x => match s.vars.look x with
    | some h => some (s, .count (owners s.vars h.grp))
    | none => none
  | .getDel x k => match s.vars.look x with
    | none => none
    | some h => match s.grps.look h.grp with
      | some ⟨_, some (k', d), _⟩ => some (s, .del (if k' = k then some d else none))
      | some ⟨_, none, _⟩ => some (s, .del none)
      | none => none
  | .get x => match s.vars.look x with
    | some ⟨some o, _⟩ => match s.objs o with
      | some (_, .one v) => some (s, .val v)
      | _ => none
    | _ => none
  | .idx x i => match s.vars.look x with
    | some ⟨some o, _⟩ => match s.objs o with
      | some (_, .arr vs) => if 0 ≤ i then match vs[i.toNat]? with
          | some v => some (s, .val v)
          | none => none
        else none
      | _ => none
    | _ => none
  | .idxSet x i v => match s.vars.look x with
    | some ⟨some o, _⟩ => match s.objs o with
      | some (y, .arr vs) => if 0 ≤ i ∧ i.toNat < vs.length then
          some ({ s with objs := fun o' => if o' = o then some (y, .arr (setAt vs i.toNat v)) else s.objs o' }, .unit)
        else none
      | _ => none
    | _ => none

def specRun (frees : Nat → Bool) (s : State V D) : List (Op V D) → Option (State V D × List (Out V D))
  | [] => some (s, [])
  | op :: ops => match specStep frees s op with
    | none => none
    | some (s', o) => match specRun frees s' ops with
      | none => none
      | some (s'', os) => some (s'', o :: os)

/-- The operations for which the library is right.  `virt` says whether `T` has a virtual destructor.  Left
out: construction from a pointer to a derived class without deleter when the destructor is not virtual
(C111), and asking for a deleter by its type when it was given together with a pointer to a derived class
(C110). -/
def Supported (virt : Bool) (s : State V D) : Op V D → Prop
  | .make _ y _ => y = 0 ∨ virt = true
  | .getDel x k => ∀ h G d, s.vars.look x = some h → s.grps.look h.grp = some G → G.del = some (k, d) → G.pty = 0
  | _ => True

def SupportedRun (frees : Nat → Bool) (virt : Bool) (s : State V D) : List (Op V D) → Prop
  | [] => True
  | op :: ops => Supported virt s op ∧ match specStep frees s op with
    | none => True
    | some (s', _) => SupportedRun frees virt s' ops

end Cest.Sdel
