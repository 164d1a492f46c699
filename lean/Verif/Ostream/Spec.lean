import Verif.Ostream.Model
/-
What the output functions are supposed to do, written against the standard streams of Std.lean only.
-/
namespace Cest.Ostream
open Cest

/-- `p` points to the characters `l` (none of them a terminator) followed by a terminator. -/
def CStr (mem : Nat → Option (Blk Char)) (p : CP) (l : List Char) : Prop :=
  ∃ a i b, p = some (a, i) ∧ mem a = some b ∧ i + l.length < b.len ∧
    (∀ j (h : j < l.length), b.slot (i + j) = some l[j]) ∧ b.slot (i + l.length) = some '\x00' ∧ '\x00' ∉ l

/-- Operands of `<<`. -/
inductive Arg where
  | int (n : Int32)
  | uint (n : UInt32)
  | chr (c : Char)
  | cstr (p : CP)
  | str (l : List Char)
  | endl

/-- Output calls of a client program; `x` names a `cest::ostream`. -/
inductive Call (A : Type) where
  | put (x : Nat) (a : Arg)
  | printf0 (p : CP)
  | printf (p : CP) (xs : List A)
  | fprintf0 (x : Nat) (p : CP)
  | fprintf (x : Nat) (p : CP) (xs : List A)

/-- The call made through cest. -/
def Call.exec {A : Type} (fmt : Fmt A) : Call A → OM Unit
  | .put x (.int n) => putInt x n
  | .put x (.uint n) => putUint x n
  | .put x (.chr c) => putChar x c
  | .put x (.cstr p) => putCstr x p
  | .put x (.str l) => putStr x l
  | .put x .endl => putEndl x
  | .printf0 p => do let _ ← Ostream.printf0 p
  | .printf p xs => do let _ ← Ostream.printf fmt p xs
  | .fprintf0 x p => do let _ ← Ostream.fprintf0 (some x) p
  | .fprintf x p xs => do let _ ← Ostream.fprintf fmt (some x) p xs

/-- A sequence of calls. -/
def execAll {A : Type} (fmt : Fmt A) : List (Call A) → OM Unit
  | [] => pure ()
  | c :: cs => do c.exec fmt; execAll fmt cs

/-- The stream a call names and what the corresponding call does to a standard stream.  Not covered (and
treated separately): strings and conversions containing a terminator, formats without arguments that
contain `%`, conversions that fail. -/
inductive Means {A : Type} (fmt : Fmt A) (mem : Nat → Option (Blk Char)) :
    Call A → Nat × (Std → Std) → Prop where
  | int (x n) : Means fmt mem (.put x (.int n)) (x, Std.int n)
  | uint (x n) : Means fmt mem (.put x (.uint n)) (x, Std.uint n)
  | chr (x c) : Means fmt mem (.put x (.chr c)) (x, Std.puts [c])
  | cstr (x p l) : CStr mem p l → Means fmt mem (.put x (.cstr p)) (x, Std.puts l)
  | str (x l) : '\x00' ∉ l → Means fmt mem (.put x (.str l)) (x, Std.puts l)
  | endl (x) : Means fmt mem (.put x .endl) (x, Std.endl)
  | printf0 (p l) : CStr mem p l → '%' ∉ l → Means fmt mem (.printf0 p) (0, Std.puts l)
  | printf (p l xs t) : CStr mem p l → fmt l xs = some t → Means fmt mem (.printf p xs) (0, Std.puts t)
  | fprintf0 (x p l) : CStr mem p l → '%' ∉ l → Means fmt mem (.fprintf0 x p) (x, Std.puts l)
  | fprintf (x p l xs t) : CStr mem p l → fmt l xs = some t → '\x00' ∉ t →
      Means fmt mem (.fprintf x p xs) (x, Std.puts t)

/-- The stream a call names. -/
def Call.target {A : Type} : Call A → Nat
  | .put x _ => x
  | .printf0 _ => 0
  | .printf _ _ => 0
  | .fprintf0 x _ => x
  | .fprintf x _ _ => x

/-- What standard stream `k` should look like after the actions `ms`. -/
def expected (k : Nat) (ms : List (Nat × (Std → Std))) (s : Std) : Std :=
  (ms.filter (fun m => m.1 == k)).foldl (fun s m => m.2 s) s

/-- Storage identities not yet handed out are unused, and allocation does not fail. -/
def Ready (w : W) : Prop := w.st.thr = none ∧ ∀ a, w.st.next ≤ a → w.st.mem a = none

/-- Everything a call must leave alone. -/
structure Same (w w' : W) : Prop where
  mem : w'.st.mem = w.st.mem
  objs : w'.st.objs = w.st.objs
  thr : w'.st.thr = w.st.thr
  next : w.st.next ≤ w'.st.next
  ce : w'.ce = w.ce

end Cest.Ostream
