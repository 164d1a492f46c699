import Verif.Tree.Model
/-
`operator++` of the tree iterators, counting the moves along pointers: the same statements as `Model.inc`, with a
counter.  `WalkProps` shows that leaving out the counter gives back `inc` and `toList`.
-/
namespace Cest.Tree
open Cest
variable {V K : Type}

/-- set.hpp:54-55, map.hpp:59-60, 114-115 with the number of executions of `curr_node = curr_node->l`. -/
def leftmostC : Nat → Nat → TM V (Nat × Nat)
  | 0, _ => M.timeout
  | f+1, a => do
    let n ← getN a
    match n.l with
    | none => pure (a, 0)
    | some b => do
      let r ← leftmostC f b
      pure (r.1, r.2 + 1)

/-- set.hpp:59-65, map.hpp:64-70, 119-125 with the number of assignments to `curr_node`: one per iteration, and
the one after the loop. -/
def climbC (g : Cfg V K) : Nat → Nat → Option Nat → TM V (Option Nat × Nat)
  | 0, _, _ => M.timeout
  | _+1, _, none => pure (none, 1)
  | f+1, curr, some q => do
    let n ← getN q
    match n.r with
    | none => pure (some q, 1)
    | some b => do
      if (← sameChild g curr b) then
        let n ← getN q
        let r ← climbC g f q n.p
        pure (r.1, r.2 + 1)
      else pure (some q, 1)

/-- set.hpp:49-68, map.hpp:54-73, 109-128 `operator++` with the number of assignments to `curr_node`. -/
def incC (g : Cfg V K) (fuel : Nat) (p : Option Nat) : TM V (Option Nat × Nat) := do
  let a ← deref p
  let n ← getN a
  match n.r with
  | some b => do
    let c ← leftmostC fuel b
    pure (some c.1, c.2 + 1)
  | none => do
    let n ← getN a
    climbC g fuel a n.p

/-- A range-for over the container (`begin()`, `!=`, `*`, `++`), with the assignments to `curr_node` of each
increment. -/
def walkLoop (g : Cfg V K) (fuel : Nat) : Nat → Option Nat → TM V (List (V × Nat))
  | 0, _ => M.timeout
  | _+1, none => pure []
  | f+1, some a => do
    let v ← getX (some a)
    let q ← incC g fuel (some a)
    let vs ← walkLoop g fuel f q.1
    pure ((v, q.2) :: vs)

@[inherit_doc walkLoop]
def walk (g : Cfg V K) (fuel : Nat) (x : Nat) : TM V (List (V × Nat)) := do
  let b ← begin_ x
  walkLoop g fuel fuel b

/-- set.hpp:70-75, map.hpp:75-80, 130-135 `operator++(int)`: the value returned and the iterator afterwards. -/
def postInc (g : Cfg V K) (fuel : Nat) (p : Option Nat) : TM V (Option Nat × Option Nat) := do
  let tmp := p
  let q ← inc g fuel p
  pure (tmp, q)

end Cest.Tree
