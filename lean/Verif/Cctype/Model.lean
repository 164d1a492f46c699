import Verif.Str.Model
/-
Model of cest::isalnum and cest::isupper (/repo/include/cest/cctype.hpp).  The local string is an object of
the string model.  `char` is taken to be signed and 8 bits wide, `int` 32 bits; the execution character set
is ASCII.
-/
namespace Cest.Cctype
open Cest

/-- A string literal: its characters and the terminator. -/
def literal (s : String) : List Int8 := s.toList.map (fun c => Int8.ofNat c.toNat) ++ [0]

/-- `std::char_traits<char>` (comparison is as unsigned char). -/
def charTraits : Str.Traits Int8 := ⟨0, fun a b => decide (a.toUInt8 < b.toUInt8), false⟩

/-- `std::find(first, last, ch)` with `first` at position `i` of string `x` and `n` characters before
`last`: `*first == ch` compares after promotion of the character to `int`.  Returns the position found, or
the end. -/
def find (x : Nat) (ch : Int32) (i : Nat) : Nat → Str.SM Int8 Nat
  | 0 => pure i
  | n+1 => do
    let c ← Str.get x i
    if c.toInt32 = ch then return i else find x ch (i+1) n

/-- `std::find(str.cbegin(), str.cend(), ch) != str.cend() ? yes : 0` for a local string `x`
initialised from a literal (cctype.hpp:11-14, 19-20); the string is destroyed on return. -/
def classify (x : Nat) (lit : String) (yes : Int32) (ch : Int32) : Str.SM Int8 Int32 := do
  Str.ctorC charTraits x (.ext (literal lit) 0)
  let n ← Str.size x
  let i ← find x ch 0 n
  let r := if i ≠ n then yes else 0
  Str.dtor x
  return r

/-- cctype.hpp:10-15 `isalnum`. -/
def isalnum (x : Nat) (ch : Int32) : Str.SM Int8 Int32 :=
  classify x "0123456789ABCDEFGHIJKLMNOPQRSTUVWXYZabcdefghijklmnopqrstuvwxyz" 8 ch

/-- cctype.hpp:18-21 `isupper`. -/
def isupper (x : Nat) (ch : Int32) : Str.SM Int8 Int32 :=
  classify x "ABCDEFGHIJKLMNOPQRSTUVWXYZ" 256 ch

end Cest.Cctype
