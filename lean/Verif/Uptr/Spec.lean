/-
What a user of cest::unique_ptr and cest::function may rely on.  This file does not mention the model.
-/
namespace Cest.Uptr

/-- Operations on unique_ptr variables `x`, `y` and raw pointer variables `r`.  The client treats raw
pointers linearly: a raw pointer handed over to a unique_ptr or deleted is set to null afterwards. -/
inductive Op (V : Type) where
  | new (x : Nat)                   -- unique_ptr<T> x;
  | make (x : Nat) (v : V)          -- auto x = make_unique<T>(v);
  | newMove (x y : Nat)             -- unique_ptr<T> x(std::move(y));
  | moveAssign (x y : Nat)          -- x = std::move(y);     (y may be x)
  | reset (x : Nat)                 -- x.reset();
  | resetNew (x : Nat) (v : V)      -- x.reset(new T{v});
  | release (r x : Nat)             -- T* r = x.release();
  | adopt (x r : Nat)               -- unique_ptr<T> x(r); r = nullptr;
  | resetRaw (x r : Nat)            -- x.reset(r); r = nullptr;
  | deleteRaw (r : Nat)             -- delete r; r = nullptr;
  | dropRaw (r : Nat)               -- r goes out of scope; it must be null
  | destroy (x : Nat)
  | set (x : Nat) (v : V)           -- *x = v;
  | get (x : Nat)                   -- *x
  | toBool (x : Nat)
  | eq (x y : Nat)
  | ne (x y : Nat)

inductive Out (V R : Type) where
  | unit
  | bool (b : Bool)
  | val (v : V)
  | res (r : R)
  deriving DecidableEq

/-- A pointer variable exclusively owns at most one object. -/
inductive Cell (V : Type) where
  | up (o : Option V)
  | raw (o : Option V)
  | callable (v : V)

abbrev Env (V : Type) := Nat → Option (Cell V)
def Env.set {V : Type} (e : Env V) (x : Nat) (c : Option (Cell V)) : Env V :=
  fun y => if y = x then c else e y
def Env.none {V : Type} : Env V := fun _ => Option.none

variable {V A R : Type}

/-- Meaning of one operation; `none` when the client breaks a precondition. -/
def specStep (e : Env V) : Op V → Option (Env V × Out V R)
  | .new x => match e x with
    | none => some (e.set x (some (.up none)), .unit)
    | _ => none
  | .make x v => match e x with
    | none => some (e.set x (some (.up (some v))), .unit)
    | _ => none
  | .newMove x y => match e x, e y with
    | none, some (.up o) => some ((e.set x (some (.up o))).set y (some (.up none)), .unit)
    | _, _ => none
  | .moveAssign x y => match e x, e y with
    | some (.up ox), some (.up oy) => some ((e.set x (some (.up oy))).set y (some (.up ox)), .unit)
    | _, _ => none
  | .reset x => match e x with
    | some (.up _) => some (e.set x (some (.up none)), .unit)
    | _ => none
  | .resetNew x v => match e x with
    | some (.up _) => some (e.set x (some (.up (some v))), .unit)
    | _ => none
  | .release r x => match e r, e x with
    | none, some (.up o) => some ((e.set r (some (.raw o))).set x (some (.up none)), .unit)
    | _, _ => none
  | .adopt x r => match e x, e r with
    | none, some (.raw o) => some ((e.set x (some (.up o))).set r (some (.raw none)), .unit)
    | _, _ => none
  | .resetRaw x r => match e x, e r with
    | some (.up _), some (.raw o) => some ((e.set x (some (.up o))).set r (some (.raw none)), .unit)
    | _, _ => none
  | .deleteRaw r => match e r with
    | some (.raw _) => some (e.set r (some (.raw none)), .unit)
    | _ => none
  | .dropRaw r => match e r with
    | some (.raw none) => some (e.set r none, .unit)
    | _ => none
  | .destroy x => match e x with
    | some (.up _) => some (e.set x none, .unit)
    | _ => none
  | .set x v => match e x with
    | some (.up (some _)) => some (e.set x (some (.up (some v))), .unit)
    | _ => none
  | .get x => match e x with
    | some (.up (some v)) => some (e, .val v)
    | _ => none
  | .toBool x => match e x with
    | some (.up o) => some (e, .bool o.isSome)
    | _ => none
  | .eq x y => match e x, e y with
    | some (.up ox), some (.up oy) => some (e, .bool (x == y || (ox.isNone && oy.isNone)))
    | _, _ => none
  | .ne x y => match e x, e y with
    | some (.up ox), some (.up oy) => some (e, .bool !(x == y || (ox.isNone && oy.isNone)))
    | _, _ => none

def specRun (e : Env V) : List (Op V) → Option (Env V × List (Out V R))
  | [] => some (e, [])
  | op :: ops => match specStep e op with
    | none => none
    | some (e', o) => match specRun e' ops with
      | none => none
      | some (e'', os) => some (e'', o :: os)

/-! ### function -/

/-- Operations on callable variables `c` and cest::function variables `x`, `y`. -/
inductive FOp (V A : Type) where
  | newCallable (c : Nat) (v : V)
  | dropCallable (c : Nat)
  | callCallable (c : Nat) (a : A)  -- c(a)
  | new (x c : Nat)                 -- function<R(A)> x(c);
  | call (x : Nat) (a : A)          -- x(a)
  | newMove (x y : Nat)             -- function<R(A)> x(std::move(y));
  | moveAssign (x y : Nat)          -- x = std::move(y);
  | destroy (x : Nat)

/-- A function variable holds its own copy of a callable (or nothing after being moved from). -/
def fspecStep (call : V → A → R × V) (e : Env V) : FOp V A → Option (Env V × Out V R)
  | .newCallable c v => match e c with
    | none => some (e.set c (some (.callable v)), .unit)
    | _ => none
  | .dropCallable c => match e c with
    | some (.callable _) => some (e.set c none, .unit)
    | _ => none
  | .callCallable c a => match e c with
    | some (.callable v) => some (e.set c (some (.callable (call v a).2)), .res (call v a).1)
    | _ => none
  | .new x c => match e x, e c with
    | none, some (.callable v) => some (e.set x (some (.up (some v))), .unit)
    | _, _ => none
  | .call x a => match e x with
    | some (.up (some v)) => some (e.set x (some (.up (some (call v a).2))), .res (call v a).1)
    | _ => none
  | .newMove x y => match e x, e y with
    | none, some (.up o) => some ((e.set x (some (.up o))).set y (some (.up none)), .unit)
    | _, _ => none
  | .moveAssign x y => match e x, e y with
    | some (.up ox), some (.up oy) => some ((e.set x (some (.up oy))).set y (some (.up ox)), .unit)
    | _, _ => none
  | .destroy x => match e x with
    | some (.up _) => some (e.set x none, .unit)
    | _ => none

def fspecRun (call : V → A → R × V) (e : Env V) : List (FOp V A) → Option (Env V × List (Out V R))
  | [] => some (e, [])
  | op :: ops => match fspecStep call e op with
    | none => none
    | some (e', o) => match fspecRun call e' ops with
      | none => none
      | some (e'', os) => some (e'', o :: os)

end Cest.Uptr
