import Verif.Tree.Model
/-
The functions of cest::set and cest::map that call the comparator, with a comparator that may throw: a call of
`m_comp` is a computation `cmp` instead of the pure function `g.comp` of Model.lean (which remains the meaning
of the result).  Everything else is as in Model.lean.
-/
namespace Cest.Tree
open Cest
variable {V K : Type}

/-- `m_comp(a, b)` (set.hpp:152-153, 221, 226, 229; map.hpp:216-217, 285, 290, 293): may throw `ex`, and counts
as one step of the countdown. -/
def cmpT (ex : Exc) (g : Cfg V K) (a b : K) : TM V Bool := do
  tick ex
  pure (g.comp a b)

/-- The loop of `find` (set.hpp:150-155, map.hpp:214-219). -/
def findLoopC (g : Cfg V K) (cmp : K → K → TM V Bool) (k : K) : Nat → Option Nat → TM V (Option Nat)
  | 0, _ => M.timeout
  | _+1, none => pure none
  | f+1, some a => do
    let n ← getN a
    if (← cmp k (g.key n.x)) then findLoopC g cmp k f n.l
    else if (← cmp (g.key n.x) k) then findLoopC g cmp k f n.r
    else pure (some a)

/-- set.hpp:147-199, map.hpp:211-263 `find`. -/
def findC (g : Cfg V K) (cmp : K → K → TM V Bool) (fuel : Nat) (x : Nat) (k : K) : TM V (Option Nat) := do
  if (← empty x) then end_ x
  else
    let o ← getObj x
    findLoopC g cmp k fuel o.root

/-- set.hpp:221, map.hpp:285: `!m_begin || m_comp(value, m_begin->x)`. -/
def firstC (g : Cfg V K) (cmp : K → K → TM V Bool) (v : V) : Option Nat → TM V Bool
  | none => pure true
  | some b => do let w ← getX (some b); cmp (g.key v) (g.key w)

/-- set.hpp:218-225, map.hpp:282-289: a new node at the empty place `n`. The comparison with `m_begin->x` comes
after the node was linked into the tree and before `m_begin` and `m_size` are set. -/
def leafC (g : Cfg V K) (cmp : K → K → TM V Bool) (x : Nat) (v : V) (n : Ref) (p : Option Nat) :
    TM V (Option Nat × Bool) := do
  let a ← allocNode
  setRef n (some a)
  constructNode a v p
  let o ← getObj x
  let first ← firstC g cmp v o.begin_
  let q ← getRef n
  setObj x { o with begin_ := if first then q else o.begin_ }
  let o ← getObj x
  setObj x { o with size := o.size + 1 }
  pure (some a, true)

/-- set.hpp:217-254, map.hpp:281-318: the recursive lambda `ins(n, p)` of `insert`. -/
def insC (g : Cfg V K) (cmp : K → K → TM V Bool) (x : Nat) (v : V) :
    Nat → Ref → Option Nat → TM V (Option Nat × Bool)
  | 0, _, _ => M.timeout
  | f+1, n, p => do
    match (← getRef n) with
    | none => leafC g cmp x v n p
    | some a => do
      let w ← getX (some a)
      if (← cmp (g.key v) (g.key w)) then
        let r ← insC g cmp x v f (.left a) (some a)
        rebalance n
        pure r
      else if (← cmp (g.key w) (g.key v)) then
        let r ← insC g cmp x v f (.right a) (some a)
        rebalance n
        pure r
      else pure (some a, false)

/-- set.hpp:213-260, map.hpp:277-323 `insert(value)`. -/
def insertC (g : Cfg V K) (cmp : K → K → TM V Bool) (fuel : Nat) (x : Nat) (v : V) :
    TM V (Option Nat × Bool) := do
  let r ← insC g cmp x v fuel (.root x) none
  let root ← getRef (.root x)
  setBlack root
  pure r

end Cest.Tree
