import Verif.Cmath.Spec

/-! What it means for a call to come back, said without the model of the functions. -/
namespace Cest.Ieee
open Cest.Cmath (FM Gives)

/-- The call returns a value, given enough steps. -/
def Returns {α : Type} (f : ℕ → FM α) : Prop := ∃ V, Gives f V
/-- The call never returns: no number of steps is enough. -/
def Never {α : Type} (f : ℕ → FM α) : Prop := ∀ fuel, f fuel () = .timeout

theorem Never.not_returns {α : Type} {f : ℕ → FM α} (h : Never f) : ¬ Returns f := by
  rintro ⟨V, N, hN⟩
  have := hN N le_rfl
  rw [h N] at this
  cases this

theorem returns_iff {α : Type} {f : ℕ → FM α} {P : Prop} (h1 : P → Returns f) (h2 : ¬ P → Never f) :
    (Returns f ↔ P) ∧ (Never f ↔ ¬ P) := by
  by_cases h : P
  · exact ⟨⟨fun _ => h, h1⟩, ⟨fun hn => absurd (h1 h) hn.not_returns, fun hn => absurd h hn⟩⟩
  · exact ⟨⟨fun hr => absurd hr (h2 h).not_returns, fun hp => absurd hp h⟩, ⟨fun _ => h, h2⟩⟩

end Cest.Ieee
