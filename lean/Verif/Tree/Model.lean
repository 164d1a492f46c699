import Verif.Core.Mem
import Verif.Swap.Model
import Verif.Tree.Order
/-
Model of cest::set (/repo/include/cest/set.hpp) and cest::map (/repo/include/cest/map.hpp).

The two files contain the same red-black tree; they differ in the key of a stored value and in the test
used by the iterator's `++`, both of which are parameters (`Cfg`).  Line numbers "set" and "map" refer to
the two files.  Simplifications: allocator and comparator members are stateless and omitted (the
comparator does not throw); recursion and pointer loops take fuel; the four `find` overloads have the same
body and are modelled once; `iterator`/`const_iterator` are both the node pointer they wrap.
-/
namespace Cest.Tree
open Cest

/-- set.hpp:90, map.hpp:150 `eCol`. -/
inductive Color where
  | red
  | black
  deriving DecidableEq, Repr

/-- A constructed node (set.hpp:92-98, map.hpp:152-158). -/
structure Node (V : Type) where
  x : V
  l : Option Nat
  r : Option Nat
  p : Option Nat
  c : Color
  deriving Repr

/-- Storage of one node: `none` while no node is constructed in it. -/
abbrev Cell (V : Type) := Option (Node V)

/-- Data members m_root, m_begin, m_size (set.hpp:268-270, map.hpp:326-328). -/
structure Obj where
  root : Option Nat
  begin_ : Option Nat
  size : Nat
  deriving DecidableEq, Repr

abbrev TSt (V : Type) := St Obj (Cell V)
abbrev TM (V : Type) := M (TSt V)

/-- An lvalue of type `node*`: `m_root` of variable `x`, or a link member of a node. -/
inductive Ref where
  | root (x : Nat)
  | left (a : Nat)
  | right (a : Nat)
  | par (a : Nat)
  deriving DecidableEq, Repr

variable {V K : Type}

/-- The node at address `a`; reading unconstructed storage is undefined. -/
def getN (a : Nat) : TM V (Node V) := do
  let c ← getC a
  match c with
  | some n => pure n
  | none => M.ub .deadRead

/-- Read a `node*` lvalue. -/
def getRef : Ref → TM V (Option Nat)
  | .root x => do let o ← getObj x; pure o.root
  | .left a => do let n ← getN a; pure n.l
  | .right a => do let n ← getN a; pure n.r
  | .par a => do let n ← getN a; pure n.p

/-- Assign a `node*` lvalue. -/
def setRef (r : Ref) (q : Option Nat) : TM V Unit :=
  match r with
  | .root x => do let o ← getObj x; setObj x { o with root := q }
  | .left a => do let n ← getN a; setC a (some { n with l := q })
  | .right a => do let n ← getN a; setC a (some { n with r := q })
  | .par a => do let n ← getN a; setC a (some { n with p := q })

/-- `p->x` (also `*it`). -/
def getX (p : Option Nat) : TM V V := do
  let a ← deref p
  let n ← getN a
  pure n.x

/-- `p->c = BLACK`. -/
def setBlack (p : Option Nat) : TM V Unit := do
  let a ← deref p
  let n ← getN a
  setC a (some { n with c := .black })

/-- `m_node_alloc.allocate(1)`. -/
def allocNode : TM V Nat := allocC none

/-- `std::construct_at(a, value, nullptr, nullptr, p, RED)` (set.hpp:93-94, map.hpp:153-154): the value is copied
into the by-value parameter and from there into the member, and either copy may throw. -/
def constructNode (a : Nat) (v : V) (p : Option Nat) : TM V Unit := do
  let c ← getC a
  match c with
  | some _ => M.ub .liveConstruct
  | none => do
    tick .elem
    tick .elem
    setC a (some ⟨v, none, none, p, .red⟩)

/-- `std::destroy_at(n)`. -/
def destroyNode (a : Nat) : TM V Unit := do
  let c ← getC a
  match c with
  | some _ => setC a none
  | none => M.ub .deadDestroy

/-- `m_node_alloc.deallocate(n, 1)`. -/
def freeNode (a : Nat) : TM V Unit := do
  let c ← getC a
  match c with
  | some _ => M.ub .liveFree
  | none => freeC a

/-- set.hpp:100, map.hpp:160 default constructor. -/
def ctor (x : Nat) : TM V Unit := newObj x ⟨none, none, 0⟩

/-- set.hpp:121-122, map.hpp:180-185 `begin`. -/
def begin_ (x : Nat) : TM V (Option Nat) := do let o ← getObj x; pure o.begin_
/-- set.hpp:123-125, map.hpp:186-188 `end`: a null iterator. -/
def end_ (x : Nat) : TM V (Option Nat) := do let _ ← getObj x; pure none
/-- set.hpp:126, map.hpp:189 `size`. -/
def size (x : Nat) : TM V Nat := do let o ← getObj x; pure o.size
/-- set.hpp:127-128, map.hpp:190-191 `empty`. -/
def empty (x : Nat) : TM V Bool := do let o ← getObj x; pure (o.size == 0)

/-- set.hpp:132-139, map.hpp:195-202: the recursive lambda `dd` of `clear`. -/
def dd : Nat → Option Nat → TM V Unit
  | 0, _ => M.timeout
  | _+1, none => pure ()
  | f+1, some a => do
    let n ← getN a
    dd f n.l
    let n ← getN a
    dd f n.r
    destroyNode a
    freeNode a

/-- set.hpp:130-145, map.hpp:193-208 `clear`. -/
def clear (fuel : Nat) (x : Nat) : TM V Unit := do
  let o ← getObj x
  dd fuel o.root
  let o ← getObj x
  setObj x { o with root := none }
  let o ← getObj x
  setObj x { o with begin_ := none }
  let o ← getObj x
  setObj x { o with size := 0 }

/-- set.hpp:108, map.hpp:161 destructor. -/
def dtor (fuel : Nat) (x : Nat) : TM V Unit := do clear fuel x; delObj x

/-- The loop of `find` (set.hpp:150-155, map.hpp:214-219). -/
def findLoop (g : Cfg V K) (k : K) : Nat → Option Nat → TM V (Option Nat)
  | 0, _ => M.timeout
  | _+1, none => pure none
  | f+1, some a => do
    let n ← getN a
    if g.comp k (g.key n.x) then findLoop g k f n.l
    else if g.comp (g.key n.x) k then findLoop g k f n.r
    else pure (some a)

/-- set.hpp:147-199, map.hpp:211-263 `find`. -/
def find (g : Cfg V K) (fuel : Nat) (x : Nat) (k : K) : TM V (Option Nat) := do
  if (← empty x) then end_ x
  else
    let o ← getObj x
    findLoop g k fuel o.root

/-- References passed to nary::swap: `none` is the local pointer `nr`/`nl` (whose value is `loc`; what is
written to it is never read, because it is the last argument). -/
def getRefL (loc : Option Nat) : Option Ref → TM V (Option Nat)
  | some r => getRef r
  | none => pure loc
@[inherit_doc getRefL]
def setRefL (r : Option Ref) (q : Option Nat) : TM V Unit :=
  match r with
  | some r => setRef r q
  | none => pure ()

/-- set.hpp:201-205, map.hpp:265-269 `rotate_left(n)`. -/
def rotateLeft (n : Ref) : TM V Unit := do
  let a ← deref (← getRef n)
  let nr ← getRef (.right a)
  let b ← deref nr
  let nrl ← getRef (.left b)
  let nrlp := match nrl with | some c => some (.par c) | none => none
  Nary.swap (getRefL nr) setRefL [some n, some (.right a), some (.left b), some (.par b), some (.par a), nrlp]

/-- set.hpp:207-211, map.hpp:271-275 `rotate_right(n)`. -/
def rotateRight (n : Ref) : TM V Unit := do
  let a ← deref (← getRef n)
  let nl ← getRef (.left a)
  let b ← deref nl
  let nlr ← getRef (.right b)
  let nlrp := match nlr with | some c => some (.par c) | none => none
  Nary.swap (getRefL nl) setRefL [some n, some (.left a), some (.right b), some (.par b), some (.par a), nlrp]

/-- `p && p->c == RED`. -/
def isRed : Option Nat → TM V Bool
  | none => pure false
  | some a => do let n ← getN a; pure (n.c == .red)

/-- `p->l`. -/
def getL (p : Option Nat) : TM V (Option Nat) := do let a ← deref p; getRef (.left a)
/-- `p->r`. -/
def getR (p : Option Nat) : TM V (Option Nat) := do let a ← deref p; getRef (.right a)

/-- `p && p->c == RED && q && q->c == RED` where `q` is `p->l` or `p->r`. -/
def redRed (p : Option Nat) (q : Option Nat → TM V (Option Nat)) : TM V Bool := do
  if (← isRed p) then
    let c ← q p
    isRed c
  else pure false

/-- set.hpp:237-253, map.hpp:301-317: the rest of the lambda `ins`, after the recursive call. -/
def rebalance (n : Ref) : TM V Unit := do
  let p ← getRef n
  let a ← deref p
  let nd ← getN a
  if nd.c == .red then return
  if (← redRed (← getL p) getL) then
    setBlack (← getL (← getL p))
    rotateRight n
  else if (← redRed (← getL p) getR) then
    setBlack (← getL p)
    rotateLeft (.left a)
    rotateRight n
  else if (← redRed (← getR p) getL) then
    setBlack (← getR p)
    rotateRight (.right a)
    rotateLeft n
  else if (← redRed (← getR p) getR) then
    setBlack (← getR (← getR p))
    rotateLeft n

/-- set.hpp:217-254, map.hpp:281-318: the recursive lambda `ins(n, p)` of `insert`; the captured variables
`ret_node` and `added` are returned. -/
def ins (g : Cfg V K) (x : Nat) (v : V) : Nat → Ref → Option Nat → TM V (Option Nat × Bool)
  | 0, _, _ => M.timeout
  | f+1, n, p => do
    match (← getRef n) with
    | none => do
      let a ← allocNode
      setRef n (some a)
      constructNode a v p
      let o ← getObj x
      let first ← match o.begin_ with
        | none => pure true
        | some b => do let w ← getX (some b); pure (g.lt v w)
      let q ← getRef n
      setObj x { o with begin_ := if first then q else o.begin_ }
      let o ← getObj x
      setObj x { o with size := o.size + 1 }
      pure (some a, true)
    | some a => do
      let w ← getX (some a)
      if g.lt v w then
        let r ← ins g x v f (.left a) (some a)
        rebalance n
        pure r
      else if g.lt w v then
        let r ← ins g x v f (.right a) (some a)
        rebalance n
        pure r
      else pure (some a, false)

/-- set.hpp:213-260, map.hpp:277-323 `insert(value)`. (A reference to an element of the container itself as
argument makes no difference: elements never move.) -/
def insert (g : Cfg V K) (fuel : Nat) (x : Nat) (v : V) : TM V (Option Nat × Bool) := do
  let r ← ins g x v fuel (.root x) none
  let root ← getRef (.root x)
  setBlack root
  pure r

/-- set.hpp:264-266 `insert(hint, value)`. -/
def insertHint (g : Cfg V K) (fuel : Nat) (x : Nat) (_hint : Option Nat) (v : V) : TM V (Option Nat) := do
  let r ← insert g fuel x v
  pure r.1

/-- set.hpp:54-55, map.hpp:70-71: `while (curr_node->l) curr_node = curr_node->l;`. -/
def leftmost : Nat → Nat → TM V Nat
  | 0, _ => M.timeout
  | f+1, a => do
    let n ← getN a
    match n.l with
    | none => pure a
    | some b => leftmost f b

/-- `curr_node == pn->r` (set.hpp:60) or `curr_node->x.first == pn->r->x.first` (map.hpp:65). -/
def sameChild (g : Cfg V K) (curr b : Nat) : TM V Bool :=
  match g.same with
  | none => pure (curr == b)
  | some e => do
    let v ← getX (some curr)
    let w ← getX (some b)
    pure (e (g.key v) (g.key w))

/-- set.hpp:60-65, map.hpp:65-70: climb from `curr` with `pn` its parent. -/
def climb (g : Cfg V K) : Nat → Nat → Option Nat → TM V (Option Nat)
  | 0, _, _ => M.timeout
  | _+1, _, none => pure none
  | f+1, curr, some q => do
    let n ← getN q
    match n.r with
    | none => pure (some q)
    | some b => do
      if (← sameChild g curr b) then
        let n ← getN q
        climb g f q n.p
      else pure (some q)

/-- set.hpp:49-68, map.hpp:54-73, 109-128 `operator++`. -/
def inc (g : Cfg V K) (fuel : Nat) (p : Option Nat) : TM V (Option Nat) := do
  let a ← deref p
  let n ← getN a
  match n.r with
  | some b => do let c ← leftmost fuel b; pure (some c)
  | none => do
    let n ← getN a
    climb g fuel a n.p

/-- set.hpp:77-85, map.hpp:82-88 iterator `==`. -/
def itEq (p q : Option Nat) : Bool := decide (p = q)

/-- Assignment to the mapped value through a map iterator (map.hpp:51-52): `it->second = w.second`, where `w`
has the same key. -/
def setX (p : Option Nat) (w : V) : TM V Unit := do
  let a ← deref p
  let n ← getN a
  tick .elem
  setC a (some { n with x := w })

/-- set.hpp:104-105, 113-114, map.hpp:165-166, 172-173: `for (it = other.begin(); it != other.end(); ++it)
insert(*it);`. -/
def copyLoop (g : Cfg V K) (fuel : Nat) (x : Nat) : Nat → Option Nat → TM V Unit
  | 0, _ => M.timeout
  | _+1, none => pure ()
  | f+1, some a => do
    let v ← getX (some a)
    let _ ← insert g fuel x v
    let q ← inc g fuel (some a)
    copyLoop g fuel x f q

/-- set.hpp:102-106, map.hpp:163-167 copy constructor; it delegates to the default constructor, so the destructor
runs if the loop throws. -/
def copyCtor (g : Cfg V K) (fuel : Nat) (x y : Nat) : TM V Unit := do
  ctor x
  M.onThrow (do
    let b ← begin_ y
    copyLoop g fuel x fuel b) (dtor fuel x)

/-- set.hpp:110-116, map.hpp:169-175 copy assignment. -/
def assign (g : Cfg V K) (fuel : Nat) (x y : Nat) : TM V Unit := do
  clear fuel x
  let b ← begin_ y
  copyLoop g fuel x fuel b

/-- Observation: a range-for over the container, collecting the values. -/
def toListLoop (g : Cfg V K) (fuel : Nat) : Nat → Option Nat → TM V (List V)
  | 0, _ => M.timeout
  | _+1, none => pure []
  | f+1, some a => do
    let v ← getX (some a)
    let q ← inc g fuel (some a)
    let vs ← toListLoop g fuel f q
    pure (v :: vs)

@[inherit_doc toListLoop]
def toList (g : Cfg V K) (fuel : Nat) (x : Nat) : TM V (List V) := do
  let b ← begin_ x
  toListLoop g fuel fuel b

end Cest.Tree
