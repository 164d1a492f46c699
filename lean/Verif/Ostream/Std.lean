import Verif.Core.Mem
/-
The part of the standard library that the output headers forward to: a `std::ostream` reduced to what a
client can observe (the characters it has accepted, how many of them have been flushed, the numeric base,
and whether it is good), and `std::printf`.  This file is trusted; it describes std, not cest.
-/
namespace Cest.Ostream

/-- `std::ios_base::basefield`. -/
inductive Base where
  | dec | hex | oct
  deriving DecidableEq, Repr

/-- A `std::ostream`. -/
structure Std where
  text : List Char
  flushed : Nat
  base : Base
  good : Bool
  deriving DecidableEq, Repr

/-- State at program start. -/
def Std.fresh : Std := ⟨[], 0, .dec, true⟩

/-- Output of characters: a stream that is not good refuses them. -/
def Std.puts (l : List Char) (s : Std) : Std := if s.good then { s with text := s.text ++ l } else s
/-- `flush()`. -/
def Std.flush (s : Std) : Std := if s.good then { s with flushed := s.text.length } else s
/-- `std::endl`. -/
def Std.endl (s : Std) : Std := (s.puts ['\n']).flush
/-- `std::dec`, `std::hex`, `std::oct`. -/
def Std.setBase (b : Base) (s : Std) : Std := { s with base := b }
/-- `setstate(failbit)`. -/
def Std.setFail (s : Std) : Std := { s with good := false }

/-- Decimal, hexadecimal or octal digits of a 32 bit unsigned number. -/
def renderU (b : Base) (n : UInt32) : List Char :=
  match b with
  | .dec => Nat.toDigits 10 n.toNat
  | .hex => Nat.toDigits 16 n.toNat
  | .oct => Nat.toDigits 8 n.toNat

/-- A 32 bit `int`: signed in decimal, as unsigned otherwise. -/
def renderI (b : Base) (n : Int32) : List Char :=
  match b with
  | .dec => if n.toInt < 0 then '-' :: Nat.toDigits 10 n.toInt.natAbs else Nat.toDigits 10 n.toInt.natAbs
  | b => renderU b n.toUInt32

def Std.int (n : Int32) (s : Std) : Std := s.puts (renderI s.base n)
def Std.uint (n : UInt32) (s : Std) : Std := s.puts (renderU s.base n)

/-- The conversion part of `printf`: the text produced by a format string and arguments, `none` when an
output or encoding error occurs.  A parameter of everything below. -/
abbrev Fmt (A : Type) := List Char → List A → Option (List Char)

/-- What a format string without arguments prints: `%%` stands for one percent sign; any other use of `%`
needs an argument. -/
def unescape : List Char → Option (List Char)
  | [] => some []
  | '%' :: '%' :: r => (unescape r).map ('%' :: ·)
  | '%' :: _ => none
  | c :: r => (unescape r).map (c :: ·)

end Cest.Ostream
