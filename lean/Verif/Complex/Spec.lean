import Verif.Complex.Model
import Mathlib.Algebra.QuadraticAlgebra.Basic

/-!
What the complex operations are meant to compute, independently of the model's code: the algebra `T[i]` with
`i² = -1`, taken from Mathlib (`QuadraticAlgebra T (-1) 0`), where the ring axioms are proved once and for all.
-/
namespace Cest.Complex

/-- `T[i]` with `i² = -1`. -/
abbrev Gauss (T : Type) [CommRing T] := QuadraticAlgebra T (-1) 0

variable {T : Type} [CommRing T]

/-- The number a `complex<T>` object stands for. -/
def Cx.num (z : Cx T) : Gauss T := ⟨z.re, z.im⟩

/-- The `complex<T>` object for a number. -/
def Cx.ofNum (q : Gauss T) : Cx T := ⟨q.re, q.im⟩

/-- The scalar `t` as a number. -/
def scal (t : T) : Gauss T := algebraMap T (Gauss T) t

/-- The state in which variable `z` holds the number `q` and nothing else differs from `st`. -/
def put (st : CSt T) (z : Nat) (q : Gauss T) : CSt T :=
  { st with objs := upd st.objs z (some (Cx.ofNum q)) }

/-- `z` holds the number `q`. -/
def Holds (st : CSt T) (z : Nat) (q : Gauss T) : Prop := st.objs z = some (Cx.ofNum q)

/-- Slots for local variables, unused and pairwise different. -/
def Fresh (st : CSt T) (l : List Nat) : Prop := l.Nodup ∧ ∀ k ∈ l, st.objs k = none

theorem num_ofNum (q : Gauss T) : (Cx.ofNum q).num = q := rfl
theorem ofNum_num (z : Cx T) : Cx.ofNum z.num = z := rfl

end Cest.Complex
