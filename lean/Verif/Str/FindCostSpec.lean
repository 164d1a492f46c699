/-
What searching for one sequence of characters in another costs, stated on the sequences.
-/
namespace Cest.Str
variable {V : Type} [DecidableEq V]

/-- Number of leading characters in which two sequences agree. -/
def lcp : List V → List V → Nat
  | a :: as, b :: bs => if a = b then lcp as bs + 1 else 0
  | _, _ => 0

/-- Pairs compared for the candidate at `j`: none unless the first character is there; otherwise up to and
including the first difference. -/
def pairsAt (hay needle : List V) (j : Nat) : Nat :=
  if hay[j]? = needle[0]? then min needle.length (lcp (hay.drop j) needle + 1) else 0

/-- Number of positions tried when the search from `pos` in `n` characters for `m` ends with `r`. -/
def tried (n m pos : Nat) : Option Nat → Nat
  | some f => f + 1 - pos
  | none => n + 1 - m - pos

end Cest.Str
