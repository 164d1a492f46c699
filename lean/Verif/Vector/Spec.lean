/-
What a user of cest::vector may rely on: variables hold mathematical sequences.
This file does not mention the model.
-/
namespace Cest.Vec

/-- Operations a program may perform on vector variables (named by numbers). -/
inductive Op (V : Type) where
  | new (x : Nat)                     -- vector<T> x;
  | newN (x n : Nat)                  -- vector<T> x(n);
  | newList (x : Nat) (vs : List V)   -- vector<T> x{...};
  | newCopy (x y : Nat)               -- vector<T> x(y);
  | newMove (x y : Nat)               -- vector<T> x(std::move(y));
  | assign (x y : Nat)                -- x = y;
  | moveAssign (x y : Nat)            -- x = std::move(y);
  | swap (x y : Nat)                  -- x.swap(y);
  | pushBack (x : Nat) (v : V)        -- x.push_back(v);
  | pushBackFrom (x y i : Nat)        -- x.push_back(y[i]);   (another vector's element)
  | popBack (x : Nat)
  | resize (x n : Nat)
  | reserve (x n : Nat)
  | clear (x : Nat)
  | erase (x i j : Nat)               -- x.erase(x.begin()+i, x.begin()+j) - x.begin()
  | set (x i : Nat) (v : V)           -- x[i] = v;
  | destroy (x : Nat)                 -- end of x's lifetime
  | size (x : Nat)
  | empty (x : Nat)
  | get (x i : Nat)                   -- x[i]
  | at_ (x i : Nat)                   -- x.at(i), out_of_range observed
  | front (x : Nat)
  | back (x : Nat)
  | toList (x : Nat)                  -- iterate begin..end
  | eq (x y : Nat)                    -- x == y

/-- Observable results. -/
inductive Out (V : Type) where
  | unit
  | nat (n : Nat)
  | bool (b : Bool)
  | val (v : V)
  | vals (vs : List V)
  | outOfRange

/-- Variables in scope and their contents. -/
abbrev Env (V : Type) := Nat → Option (List V)

def Env.set {V : Type} (e : Env V) (x : Nat) (v : Option (List V)) : Env V :=
  fun y => if y = x then v else e y

variable {V : Type} [Inhabited V] [BEq V]

/-- Meaning of one operation; `none` when the program violates a precondition of the C++ interface
(variable not alive / already alive, index out of range, pop of an empty vector, ...). -/
def specStep (e : Env V) : Op V → Option (Env V × Out V)
  | .new x => match e x with
    | none => some (e.set x (some []), .unit)
    | some _ => none
  | .newN x n => match e x with
    | none => some (e.set x (some (List.replicate n default)), .unit)
    | some _ => none
  | .newList x vs => match e x with
    | none => some (e.set x (some vs), .unit)
    | some _ => none
  | .newCopy x y => match e x, e y with
    | none, some ys => some (e.set x (some ys), .unit)
    | _, _ => none
  | .newMove x y => match e x, e y with
    | none, some ys => some ((e.set x (some ys)).set y (some []), .unit)
    | _, _ => none
  | .assign x y => match e x, e y with
    | some _, some ys => some (e.set x (some ys), .unit)
    | _, _ => none
  | .moveAssign x y => match e x, e y with
    | some xs, some ys => some ((e.set x (some ys)).set y (some xs), .unit)
    | _, _ => none
  | .swap x y => match e x, e y with
    | some xs, some ys => some ((e.set x (some ys)).set y (some xs), .unit)
    | _, _ => none
  | .pushBack x v => match e x with
    | some xs => some (e.set x (some (xs ++ [v])), .unit)
    | none => none
  | .pushBackFrom x y i => match e x, e y with
    | some xs, some ys =>
      if x = y then none else
      match ys[i]? with
      | some v => some (e.set x (some (xs ++ [v])), .unit)
      | none => none
    | _, _ => none
  | .popBack x => match e x with
    | some xs => if xs = [] then none else some (e.set x (some xs.dropLast), .unit)
    | none => none
  | .resize x n => match e x with
    | some xs => some (e.set x (some (xs.take n ++ List.replicate (n - xs.length) default)), .unit)
    | none => none
  | .reserve x _ => match e x with
    | some _ => some (e, .unit)
    | none => none
  | .clear x => match e x with
    | some _ => some (e.set x (some []), .unit)
    | none => none
  | .erase x i j => match e x with
    | some xs => if i ≤ j ∧ j ≤ xs.length then
        some (e.set x (some (xs.take i ++ xs.drop j)), .nat i) else none
    | none => none
  | .set x i v => match e x with
    | some xs => if i < xs.length then some (e.set x (some (xs.set i v)), .unit) else none
    | none => none
  | .destroy x => match e x with
    | some _ => some (e.set x none, .unit)
    | none => none
  | .size x => match e x with
    | some xs => some (e, .nat xs.length)
    | none => none
  | .empty x => match e x with
    | some xs => some (e, .bool xs.isEmpty)
    | none => none
  | .get x i => match e x with
    | some xs => match xs[i]? with
      | some v => some (e, .val v)
      | none => none
    | none => none
  | .at_ x i => match e x with
    | some xs => match xs[i]? with
      | some v => some (e, .val v)
      | none => some (e, .outOfRange)
    | none => none
  | .front x => match e x with
    | some xs => match xs.head? with
      | some v => some (e, .val v)
      | none => none
    | none => none
  | .back x => match e x with
    | some xs => match xs.getLast? with
      | some v => some (e, .val v)
      | none => none
    | none => none
  | .toList x => match e x with
    | some xs => some (e, .vals xs)
    | none => none
  | .eq x y => match e x, e y with
    | some xs, some ys => some (e, .bool (xs == ys))
    | _, _ => none

/-- Meaning of a history: final environment and the list of observations. -/
def specRun (e : Env V) : List (Op V) → Option (Env V × List (Out V))
  | [] => some (e, [])
  | op :: ops => match specStep e op with
    | none => none
    | some (e', o) => match specRun e' ops with
      | none => none
      | some (e'', os) => some (e'', o :: os)

/-- Variables whose contents or lifetime an operation may change. -/
def Op.mutates : Op V → List Nat
  | .new x | .newN x _ | .newList x _ | .newCopy x _ | .assign x _ | .pushBack x _
  | .pushBackFrom x _ _ | .popBack x | .resize x _ | .clear x | .erase x _ _ | .set x _ _
  | .destroy x => [x]
  | .newMove x y | .moveAssign x y | .swap x y => [x, y]
  | _ => []

/-- No variables in scope. -/
def Env.none : Env V := fun _ => Option.none

end Cest.Vec
