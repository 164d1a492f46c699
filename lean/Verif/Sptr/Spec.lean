/-
What a user of cest::shared_ptr may rely on.  This file does not mention the model.

Objects and ownership groups have unique names drawn from a counter.  A group comes into being when a
shared_ptr is made from a new object and lives as long as it has owners; the managed object lives exactly
as long as its group.
-/
namespace Cest.Sptr

/-- Operations on shared_ptr variables. -/
inductive Op (V : Type) where
  | new (x : Nat)                   -- shared_ptr<T> x;  or  shared_ptr<T> x(nullptr);
  | make (x : Nat) (v : V)          -- shared_ptr<T> x(new T{v});
  | makeNull (x : Nat)              -- shared_ptr<T> x((T*)nullptr);
  | copy (x y : Nat)                -- shared_ptr<T> x(y);
  | alias (x y z : Nat)             -- shared_ptr<T> x(y, z.get());
  | assign (x y : Nat)              -- x = y;
  | destroy (x : Nat)
  | useCount (x : Nat)
  | get (x : Nat)                   -- *x
  | set (x : Nat) (v : V)           -- *x = v;
  | toBool (x : Nat)
  | same (x y : Nat)                -- x.get() == y.get()

inductive Out (V : Type) where
  | unit
  | count (n : Int)
  | val (v : V)
  | bool (b : Bool)
  deriving DecidableEq

/-- What a shared_ptr points to and the group it belongs to. -/
structure Handle where
  obj : Option Nat
  grp : Option Nat
  deriving DecidableEq

abbrev Vars := List (Nat × Handle)

def Vars.look : Vars → Nat → Option Handle
  | [], _ => none
  | (y, h) :: l, x => if x = y then some h else Vars.look l x
def Vars.drop : Vars → Nat → Vars
  | [], _ => []
  | (y, h) :: l, x => if x = y then l else (y, h) :: Vars.drop l x
def Vars.put : Vars → Nat → Handle → Vars
  | [], _, _ => []
  | (y, h) :: l, x, h' => if x = y then (y, h') :: l else (y, h) :: Vars.put l x h'

/-- Number of owners of a group. -/
def Vars.owners : Vars → Nat → Nat
  | [], _ => 0
  | (_, h) :: l, g => Vars.owners l g + if h.grp = some g then 1 else 0

/-- `vars`: the living shared_ptrs; `objs`: the living objects; `grps`: the living groups with the object
each one manages. -/
structure State (V : Type) where
  vars : Vars
  objs : Nat → Option V
  grps : Nat → Option (Option Nat)
  next : Nat

def State.empty {V : Type} : State V := ⟨[], fun _ => none, fun _ => none, 0⟩

variable {V : Type}

/-- If the group has no owner left, its object and the group itself end. -/
def State.collect (s : State V) : Option Nat → State V
  | none => s
  | some g =>
    if s.vars.owners g = 0 then
      { s with
        objs := fun o => if s.grps g = some (some o) then none else s.objs o
        grps := fun g' => if g' = g then none else s.grps g' }
    else s

/-- Meaning of one operation; `none` when the client breaks a precondition. -/
def specStep (s : State V) : Op V → Option (State V × Out V)
  | .new x => match s.vars.look x with
    | none => some ({ s with vars := (x, ⟨none, none⟩) :: s.vars }, .unit)
    | _ => none
  | .make x v => match s.vars.look x with
    | none => some ({
        vars := (x, ⟨some s.next, some (s.next + 1)⟩) :: s.vars
        objs := fun o => if o = s.next then some v else s.objs o
        grps := fun g => if g = s.next + 1 then some (some s.next) else s.grps g
        next := s.next + 2 }, .unit)
    | _ => none
  | .makeNull x => match s.vars.look x with
    | none => some ({ s with
        vars := (x, ⟨none, some s.next⟩) :: s.vars
        grps := fun g => if g = s.next then some none else s.grps g
        next := s.next + 1 }, .unit)
    | _ => none
  | .copy x y => match s.vars.look x, s.vars.look y with
    | none, some h => some ({ s with vars := (x, h) :: s.vars }, .unit)
    | _, _ => none
  | .alias x y z => match s.vars.look x, s.vars.look y, s.vars.look z with
    | none, some h, some k => some ({ s with vars := (x, ⟨k.obj, h.grp⟩) :: s.vars }, .unit)
    | _, _, _ => none
  | .assign x y => match s.vars.look x, s.vars.look y with
    | some h, some k => some (({ s with vars := s.vars.put x k } : State V).collect h.grp, .unit)
    | _, _ => none
  | .destroy x => match s.vars.look x with
    | some h => some (({ s with vars := s.vars.drop x } : State V).collect h.grp, .unit)
    | _ => none
  | .useCount x => match s.vars.look x with
    | some ⟨_, none⟩ => some (s, .count 0)
    | some ⟨_, some g⟩ => some (s, .count (s.vars.owners g))
    | none => none
  | .get x => match s.vars.look x with
    | some ⟨some o, _⟩ => match s.objs o with
      | some v => some (s, .val v)
      | none => none
    | _ => none
  | .set x v => match s.vars.look x with
    | some ⟨some o, _⟩ => match s.objs o with
      | some _ => some ({ s with objs := fun o' => if o' = o then some v else s.objs o' }, .unit)
      | none => none
    | _ => none
  | .toBool x => match s.vars.look x with
    | some h => some (s, .bool h.obj.isSome)
    | _ => none
  | .same x y => match s.vars.look x, s.vars.look y with
    | some h, some k => some (s, .bool (h.obj == k.obj))
    | _, _ => none

def specRun (s : State V) : List (Op V) → Option (State V × List (Out V))
  | [] => some (s, [])
  | op :: ops => match specStep s op with
    | none => none
    | some (s', o) => match specRun s' ops with
      | none => none
      | some (s'', os) => some (s'', o :: os)

/-- The operations for which the library is right: no copy of or aliasing with an empty shared_ptr as
owner (C55), no assignment between different groups (C56). -/
def Supported (s : State V) : Op V → Prop
  | .copy _ y => ∀ h, s.vars.look y = some h → h.grp ≠ none
  | .alias _ y _ => ∀ h, s.vars.look y = some h → h.grp ≠ none
  | .assign x y => ∀ h k, s.vars.look x = some h → s.vars.look y = some k → h.grp = k.grp
  | _ => True

/-- All operations of a history are supported in the state they are applied to. -/
def SupportedRun (s : State V) : List (Op V) → Prop
  | [] => True
  | op :: ops => Supported s op ∧ match specStep s op with
    | none => True
    | some (s', _) => SupportedRun s' ops

end Cest.Sptr
