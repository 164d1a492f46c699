import Verif.CxIeee.Model

/-! What the theorems of `CxIeee/Props.lean` say about complex numbers whose parts are arbitrary doubles. -/
namespace Cest.CxIeee
open Cest Cest.Complex Cest.Ieee

variable {ρ : ℝ → ℝ}

/-- Both parts are finite. -/
def Fin (z : Cx (Dbl ρ)) : Prop := z.re.d.Finite ∧ z.im.d.Finite

/-- Both parts are finite and `c` is the number they stand for. -/
def IsC (z : Cx (Dbl ρ)) (c : ℂ) : Prop := Fin z ∧ z.re.d.val = c.re ∧ z.im.d.val = c.im

/-- A part is NaN. -/
def SomeNan (z : Cx (Dbl ρ)) : Prop := z.re.d = .nan ∨ z.im.d = .nan

/-- A part is infinite (C11, annex G: such a number is an infinity, even if the other part is NaN). -/
def Infinite (z : Cx (Dbl ρ)) : Prop := (∃ s, z.re.d = .inf s) ∨ ∃ s, z.im.d = .inf s

/-- Both parts are NaN. -/
def bothNan : Cx (Dbl ρ) := ⟨⟨.nan⟩, ⟨.nan⟩⟩

/-- The state in which `z` holds `v` and nothing else differs. -/
def set (st : CSt (Dbl ρ)) (z : Nat) (v : Cx (Dbl ρ)) : CSt (Dbl ρ) :=
  { st with objs := upd st.objs z (some v) }

end Cest.CxIeee
