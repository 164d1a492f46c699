/-
The abstract machine used by every model in this project.

It is the trusted reading of the C++ rules that the library relies on: computations may end normally,
throw, have undefined behaviour, or (only for loops/recursions given fuel) run out of fuel.
Undefined behaviour cannot be caught.
-/
namespace Cest

/-- Kinds of undefined behaviour distinguished by the machine. -/
inductive UB where
  | null            -- null pointer dereferenced
  | dangling        -- access through a pointer to freed storage
  | oob             -- access outside the allocated block
  | deadRead        -- read/assignment of a slot holding no live object
  | deadDestroy     -- destroy_at on a slot holding no live object
  | liveConstruct   -- construct_at over a live object (leaks it)
  | badFree         -- deallocate with a wrong pointer or size
  | liveFree        -- deallocate while live objects remain inside
  | noObject        -- use of a variable outside its lifetime
  | objectExists    -- constructing a variable that is already alive
  | overlap         -- memory copy between overlapping ranges
  | precond         -- explicit violation of a documented precondition
  | terminate       -- std::terminate: an exception leaves a noexcept function or a destructor run by
                    -- unwinding (defined, but it ends the program like the others)
  deriving DecidableEq, Repr

/-- Exceptions the modelled code can throw or propagate. -/
inductive Exc where
  | outOfRange      -- std::out_of_range
  | badAlloc        -- std::bad_alloc
  | elem            -- exception thrown by an element's copy operation
  | iosFailure      -- cest::ios_failure
  deriving DecidableEq, Repr

/-- Outcome of a computation. -/
inductive Res (S : Type) (α : Type) where
  | ok (a : α) (s : S)
  | throw (e : Exc) (s : S)
  | ub (u : UB)
  | timeout

/-- Computations over machine states `S`. -/
def M (S : Type) (α : Type) : Type := S → Res S α

namespace M
variable {S α β : Type}

def pure (a : α) : M S α := fun s => .ok a s

def bind (m : M S α) (f : α → M S β) : M S β := fun s =>
  match m s with
  | .ok a s' => f a s'
  | .throw e s' => .throw e s'
  | .ub u => .ub u
  | .timeout => .timeout

instance : Monad (M S) where
  pure := M.pure
  bind := M.bind

/-- Undefined behaviour. -/
def ub (u : UB) : M S α := fun _ => .ub u
/-- Fuel exhausted. -/
def timeout : M S α := fun _ => .timeout
/-- `throw`. -/
def throw (e : Exc) : M S α := fun s => .throw e s
/-- `try { m } catch (e) { h e }`; UB is not catchable. -/
def tryCatch (m : M S α) (h : Exc → M S α) : M S α := fun s =>
  match m s with
  | .throw e s' => h e s'
  | r => r
/-- Stack unwinding: run `cleanup` if `m` throws, then rethrow. -/
def onThrow (m : M S α) (cleanup : M S Unit) : M S α := fun s =>
  match m s with
  | .throw e s' =>
    match cleanup s' with
    | .ok _ s'' => .throw e s''
    | .throw _ _ => .ub .terminate   -- exception escaping a destructor during unwinding
    | .ub u => .ub u
    | .timeout => .timeout
  | r => r

/-- The body of a `noexcept` function. -/
def noexcept (m : M S α) : M S α := fun s =>
  match m s with
  | .throw _ _ => .ub .terminate
  | r => r

@[simp] theorem pure_apply (a : α) (s : S) : (Pure.pure a : M S α) s = .ok a s := rfl
@[simp] theorem bind_apply (m : M S α) (f : α → M S β) (s : S) :
    (m >>= f) s = match m s with
      | .ok a s' => f a s'
      | .throw e s' => .throw e s'
      | .ub u => .ub u
      | .timeout => .timeout := rfl
@[simp] theorem map_apply (g : α → β) (m : M S α) (s : S) :
    (g <$> m) s = match m s with
      | .ok a s' => .ok (g a) s'
      | .throw e s' => .throw e s'
      | .ub u => .ub u
      | .timeout => .timeout := by
  show (M.bind m fun a => M.pure (g a)) s = _
  simp only [M.bind]; cases m s <;> rfl
@[simp] theorem seqRight_apply (m : M S α) (n : M S β) (s : S) :
    (m *> n) s = match m s with
      | .ok _ s' => n s'
      | .throw e s' => .throw e s'
      | .ub u => .ub u
      | .timeout => .timeout := by
  show (M.bind m fun _ => n) s = _
  simp only [M.bind]
@[simp] theorem ub_apply (u : UB) (s : S) : (M.ub u : M S α) s = .ub u := rfl
@[simp] theorem timeout_apply (s : S) : (M.timeout : M S α) s = .timeout := rfl
@[simp] theorem throw_apply (e : Exc) (s : S) : (M.throw e : M S α) s = .throw e s := rfl
theorem tryCatch_apply (m : M S α) (h : Exc → M S α) (s : S) :
    (M.tryCatch m h) s = match m s with | .throw e s' => h e s' | r => r := rfl

theorem onThrow_of_ok {m : M S α} {c : M S Unit} {s s' : S} {a : α} (h : m s = .ok a s') :
    M.onThrow m c s = .ok a s' := by simp [M.onThrow, h]
theorem noexcept_of_ok {m : M S α} {s s' : S} {a : α} (h : m s = .ok a s') :
    M.noexcept m s = .ok a s' := by simp [M.noexcept, h]
theorem noexcept_of_throw {m : M S α} {s s' : S} {e : Exc} (h : m s = .throw e s') :
    M.noexcept m s = .ub .terminate := by simp [M.noexcept, h]
theorem tryCatch_of_ok {m : M S α} {c : Exc → M S α} {s s' : S} {a : α} (h : m s = .ok a s') :
    M.tryCatch m c s = .ok a s' := by simp [M.tryCatch, h]

theorem bind_of_ok {m : M S α} {f : α → M S β} {s s' : S} {a : α} (h : m s = .ok a s') :
    (m >>= f) s = f a s' := by simp [h]

end M

/-- Total correctness: `m` started in `s` ends normally and `Q` holds of result and final state.
In particular there is no undefined behaviour, no exception and no divergence. -/
def Runs {S α : Type} (m : M S α) (s : S) (Q : α → S → Prop) : Prop :=
  ∃ a s', m s = .ok a s' ∧ Q a s'

theorem Runs.pure {S α : Type} {a : α} {s : S} {Q : α → S → Prop} (h : Q a s) :
    Runs (Pure.pure a) s Q := ⟨a, s, rfl, h⟩

theorem Runs.bind {S α β : Type} {m : M S α} {f : α → M S β} {s : S} {P : α → S → Prop}
    {Q : β → S → Prop} (h : Runs m s P) (k : ∀ a s', P a s' → Runs (f a) s' Q) :
    Runs (m >>= f) s Q := by
  obtain ⟨a, s', hm, hp⟩ := h
  obtain ⟨b, s'', hf, hq⟩ := k a s' hp
  exact ⟨b, s'', by simp [hm, hf], hq⟩

theorem Runs.mono {S α : Type} {m : M S α} {s : S} {P Q : α → S → Prop} (h : Runs m s P)
    (k : ∀ a s', P a s' → Q a s') : Runs m s Q := by
  obtain ⟨a, s', hm, hp⟩ := h
  exact ⟨a, s', hm, k a s' hp⟩

theorem Runs.bind_ok {S α β : Type} {m : M S α} {f : α → M S β} {s s' : S} {a : α}
    {Q : β → S → Prop} (h : m s = .ok a s') (k : Runs (f a) s' Q) : Runs (m >>= f) s Q := by
  obtain ⟨b, s'', hf, hq⟩ := k
  exact ⟨b, s'', by simp [h, hf], hq⟩

/-- Function update. -/
def upd {β : Type} (f : Nat → β) (a : Nat) (b : β) : Nat → β := fun x => if x = a then b else f x

@[simp, grind =] theorem upd_apply {β : Type} (f : Nat → β) (a : Nat) (b : β) (x : Nat) :
    upd f a b x = if x = a then b else f x := rfl
theorem upd_same {β : Type} (f : Nat → β) (a : Nat) (b : β) : upd f a b a = b := by simp
theorem upd_upd {β : Type} (f : Nat → β) (a : Nat) (b c : β) : upd (upd f a b) a c = upd f a c := by
  funext x; simp; split <;> rfl
theorem upd_self {β : Type} (f : Nat → β) (a : Nat) : upd f a (f a) = f := by
  funext x; simp; intro h; rw [h]

/-- Machine state. `objs` holds the member fields of every named container variable that is alive,
`mem` the dynamically allocated storage (identities are never reused, `next` is the first unused one),
`thr` says how many more throwing operations (allocations, element copies) succeed before one throws
(`none`: they all succeed). -/
structure St (O C : Type) where
  objs : Nat → Option O
  mem : Nat → Option C
  next : Nat
  thr : Option Nat

namespace St
variable {O C : Type}

/-- Initial state: no variables, no storage, nothing throws. -/
def init : St O C := ⟨fun _ => none, fun _ => none, 0, none⟩
end St

section ops
variable {O C : Type}

/-- Read the fields of variable `x`. -/
def getObj (x : Nat) : M (St O C) O := fun s =>
  match s.objs x with
  | some o => .ok o s
  | none => .ub .noObject
/-- Overwrite the fields of variable `x`. -/
def setObj (x : Nat) (o : O) : M (St O C) Unit := fun s =>
  match s.objs x with
  | some _ => .ok () { s with objs := upd s.objs x (some o) }
  | none => .ub .noObject
/-- Begin the lifetime of variable `x`. -/
def newObj (x : Nat) (o : O) : M (St O C) Unit := fun s =>
  match s.objs x with
  | some _ => .ub .objectExists
  | none => .ok () { s with objs := upd s.objs x (some o) }
/-- End the lifetime of variable `x`. -/
def delObj (x : Nat) : M (St O C) Unit := fun s =>
  match s.objs x with
  | some _ => .ok () { s with objs := upd s.objs x none }
  | none => .ub .noObject

/-- A point at which an exception may be thrown (element copy or allocation). -/
def tick (e : Exc) : M (St O C) Unit := fun s =>
  match s.thr with
  | none => .ok () s
  | some 0 => .throw e { s with thr := none }
  | some (n+1) => .ok () { s with thr := some n }

/-- Allocate one block with initial content `c`. -/
def allocC (c : C) : M (St O C) Nat := fun s =>
  match tick .badAlloc s with
  | .ok _ s => .ok s.next { s with mem := upd s.mem s.next (some c), next := s.next + 1 }
  | .throw e s => .throw e s
  | .ub u => .ub u
  | .timeout => .timeout
/-- Content of an allocated block. -/
def getC (a : Nat) : M (St O C) C := fun s =>
  match s.mem a with
  | some c => .ok c s
  | none => .ub .dangling
/-- Overwrite an allocated block. -/
def setC (a : Nat) (c : C) : M (St O C) Unit := fun s =>
  match s.mem a with
  | some _ => .ok () { s with mem := upd s.mem a (some c) }
  | none => .ub .dangling
/-- Release an allocated block. -/
def freeC (a : Nat) : M (St O C) Unit := fun s =>
  match s.mem a with
  | some _ => .ok () { s with mem := upd s.mem a none }
  | none => .ub .badFree

/-- Dereference a nullable pointer. -/
def deref {S : Type} (p : Option Nat) : M S Nat := fun s =>
  match p with
  | some a => .ok a s
  | none => .ub .null

@[simp] theorem getObj_some {x : Nat} {s : St O C} {o : O} (h : s.objs x = some o) :
    getObj x s = .ok o s := by simp [getObj, h]
@[simp] theorem setObj_some {x : Nat} {s : St O C} {o o' : O} (h : s.objs x = some o) :
    setObj x o' s = .ok () { s with objs := upd s.objs x (some o') } := by simp [setObj, h]
@[simp] theorem newObj_none {x : Nat} {s : St O C} {o' : O} (h : s.objs x = none) :
    newObj x o' s = .ok () { s with objs := upd s.objs x (some o') } := by simp [newObj, h]
@[simp] theorem delObj_some {x : Nat} {s : St O C} {o : O} (h : s.objs x = some o) :
    delObj x s = .ok () { s with objs := upd s.objs x none } := by simp [delObj, h]
@[simp] theorem tick_none {e : Exc} {s : St O C} (h : s.thr = none) : tick e s = .ok () s := by
  simp [tick, h]
@[simp] theorem allocC_none {c : C} {s : St O C} (h : s.thr = none) :
    allocC c s = .ok s.next { s with mem := upd s.mem s.next (some c), next := s.next + 1 } := by
  simp [allocC, h]
@[simp] theorem getC_some {a : Nat} {s : St O C} {c : C} (h : s.mem a = some c) :
    getC a s = .ok c s := by simp [getC, h]
@[simp] theorem setC_some {a : Nat} {s : St O C} {c c' : C} (h : s.mem a = some c) :
    setC a c' s = .ok () { s with mem := upd s.mem a (some c') } := by simp [setC, h]
@[simp] theorem freeC_some {a : Nat} {s : St O C} {c : C} (h : s.mem a = some c) :
    freeC a s = .ok () { s with mem := upd s.mem a none } := by simp [freeC, h]
@[simp] theorem deref_some {S : Type} {a : Nat} {s : S} : deref (some a) s = .ok a s := rfl
@[simp] theorem deref_none {S : Type} {s : S} : deref none s = (.ub .null : Res S Nat) := rfl

end ops

/-- `for (k = i; k < i + n; k++) f(k)`. -/
def forN {S : Type} (f : Nat → M S Unit) (i : Nat) : Nat → M S Unit
  | 0 => pure ()
  | n+1 => do f i; forN f (i+1) n

theorem forN_runs {S : Type} {f : Nat → M S Unit} (Inv : Nat → S → Prop) {i n : Nat} {s : S}
    (h0 : Inv i s)
    (hs : ∀ k s, i ≤ k → k < i + n → Inv k s → Runs (f k) s (fun _ s' => Inv (k+1) s')) :
    Runs (forN f i n) s (fun _ s' => Inv (i+n) s') := by
  induction n generalizing i s with
  | zero => exact Runs.pure h0
  | succ n ih =>
    unfold forN
    refine Runs.bind (hs i s (Nat.le_refl _) (by omega) h0) ?_
    intro _ s' h'
    have := ih h' (fun k s hk1 hk2 hi => hs k s (by omega) (by omega) hi)
    have e : i + 1 + n = i + (n+1) := by omega
    rwa [e] at this

/-! ### Arrays of possibly-live elements -/

/-- An allocated array: `len` slots, each either holding no live object or a live one. -/
structure Blk (V : Type) where
  len : Nat
  slot : Nat → Option V

section arrays
variable {O V : Type}

/-- `allocate(n)` : storage without live objects. -/
def allocArr (n : Nat) : M (St O (Blk V)) Nat := allocC ⟨n, fun _ => none⟩

/-- `deallocate(p, n)`: `n` must be the allocated size and no element may still be alive. -/
def freeArr (p : Option Nat) (n : Nat) : M (St O (Blk V)) Unit := fun s =>
  match p with
  | none => .ub .badFree
  | some a =>
    match s.mem a with
    | none => .ub .badFree
    | some b =>
      if b.len ≠ n then .ub .badFree
      else if (List.range n).all (fun i => (b.slot i).isNone) then
        .ok () { s with mem := upd s.mem a none }
      else .ub .liveFree

/-- Access the block for slot `i` with `f`, checking null, dangling and bounds. -/
def withSlot {α : Type} (p : Option Nat) (i : Nat)
    (f : Nat → Blk V → M (St O (Blk V)) α) : M (St O (Blk V)) α := do
  let a ← deref p
  let b ← getC a
  if i < b.len then f a b else M.ub .oob

/-- `std::construct_at(&p[i], v)` where the element copy may throw. -/
def constructAt (p : Option Nat) (i : Nat) (v : V) : M (St O (Blk V)) Unit :=
  withSlot p i fun a b => do
    match b.slot i with
    | some _ => M.ub .liveConstruct
    | none =>
      tick .elem
      setC a { b with slot := upd b.slot i (some v) }

/-- `std::destroy_at(&p[i])`. -/
def destroyAt (p : Option Nat) (i : Nat) : M (St O (Blk V)) Unit :=
  withSlot p i fun a b =>
    match b.slot i with
    | none => M.ub .deadDestroy
    | some _ => setC a { b with slot := upd b.slot i none }

/-- `std::destroy_n(&p[i], n)`. -/
def destroyN (p : Option Nat) (i n : Nat) : M (St O (Blk V)) Unit :=
  forN (destroyAt p) i n

/-- Read of `p[i]`. -/
def load (p : Option Nat) (i : Nat) : M (St O (Blk V)) V :=
  withSlot p i fun _ b =>
    match b.slot i with
    | none => M.ub .deadRead
    | some v => pure v

/-- Copy assignment to the live element `p[i]`; may throw. -/
def store (p : Option Nat) (i : Nat) (v : V) : M (St O (Blk V)) Unit :=
  withSlot p i fun a b => do
    match b.slot i with
    | none => M.ub .deadRead
    | some _ =>
      tick .elem
      setC a { b with slot := upd b.slot i (some v) }

variable {s : St O (Blk V)} {a i n : Nat} {b : Blk V} {v w : V}

theorem constructAt_ok (h : s.mem a = some b) (hi : i < b.len) (hd : b.slot i = none)
    (ht : s.thr = none) : constructAt (some a) i v s =
      .ok () { s with mem := upd s.mem a (some { b with slot := upd b.slot i (some v) }) } := by
  simp [constructAt, withSlot, h, hi, hd, ht]
theorem destroyAt_ok (h : s.mem a = some b) (hi : i < b.len) (hd : b.slot i = some v) :
    destroyAt (some a) i s =
      .ok () { s with mem := upd s.mem a (some { b with slot := upd b.slot i none }) } := by
  simp [destroyAt, withSlot, h, hi, hd]
theorem load_ok (h : s.mem a = some b) (hi : i < b.len) (hd : b.slot i = some v) :
    load (some a) i s = .ok v s := by
  simp [load, withSlot, h, hi, hd]
theorem store_ok (h : s.mem a = some b) (hi : i < b.len) (hd : b.slot i = some w)
    (ht : s.thr = none) : store (some a) i v s =
      .ok () { s with mem := upd s.mem a (some { b with slot := upd b.slot i (some v) }) } := by
  simp [store, withSlot, h, hi, hd, ht]
theorem freeArr_ok (h : s.mem a = some b) (hn : b.len = n) (hd : ∀ i, i < n → b.slot i = none) :
    freeArr (some a) n s = .ok () { s with mem := upd s.mem a none } := by
  have : (List.range n).all (fun i => (b.slot i).isNone) = true := by
    simp only [List.all_eq_true, List.mem_range, Option.isNone_iff_eq_none]
    exact hd
  simp [freeArr, h, hn, this]
end arrays

end Cest
