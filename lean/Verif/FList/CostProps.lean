import Verif.FList.Cost
import Verif.FList.Props
/-
Property C128 of cest::forward_list: the number of operations that may throw.
-/
namespace Cest.FL
open Cest
variable {V : Type}

/-- **C128.** In any program that respects the preconditions, each element created costs an allocation and
a copy, each assignment through an iterator one operation more, and everything else (erasing, clearing,
moving iterators, reading) makes no allocation and no copy. So if only operations after the first
`price` many fail, the program does not notice. -/
theorem C128_flist_cost {ops : List (Op V)} {e : Env V} {outs : List (Out V)}
    (h : specRun Env.none ops = some (e, outs)) :
    ∃ F, ∀ fuel, F ≤ fuel → ∃ st its c, c ≤ price e ops ∧
      runOps fuel (fun _ => none) ops St.init = .ok (its, outs) st ∧
      ∀ k, runOps fuel (fun _ => none) ops { (St.init : FSt V) with thr := some (k + c) } =
        .ok (its, outs) { st with thr := some k } := by
  obtain ⟨F, st, its, h3, A⟩ := run_refines agree_init h
  refine ⟨F, fun fuel hf => ?_⟩
  have hr := h3 fuel hf
  obtain ⟨_, c, h1, h2⟩ := runOps_cost fuel ops (fun _ => none) (St.init : FSt V) rfl
  rw [hr] at h2
  obtain ⟨_, n⟩ := h1 _ _ hr
  refine ⟨st, its, c, ?_, hr, h2⟩
  have e0 : (St.init : FSt V).next = 0 := rfl
  rw [e0, A.next] at n
  unfold price
  simp at n
  omega

/-- **C128 (one operation).** The price of one operation, from any reachable state, is that of the elements
it creates and the value it assigns, whatever the sizes of the lists. -/
theorem C128_flist_step {st : FSt V} {its : Its} {e e' : Env V} (h : Reach st its e) {op : Op V} {o : Out V}
    (hs : specStep e op = some (e', o)) :
    ∃ F, ∀ fuel, F ≤ fuel → ∃ st' its' c, c ≤ 2 * (e'.next - e.next) + writes [op] ∧
      runOp fuel its op st = .ok (its', o) st' ∧
      ∀ k, runOp fuel its op { st with thr := some (k + c) } = .ok (its', o) { st' with thr := some k } := by
  have A := h.agree
  obtain ⟨F, st', its', h3, A'⟩ := step_refines A hs
  refine ⟨F, fun fuel hf => ?_⟩
  have hr := h3 fuel hf
  obtain ⟨_, c, h1, h2⟩ := runOp_cost fuel its op st A.world.thr
  rw [hr] at h2
  obtain ⟨m, n⟩ := h1 _ _ hr
  refine ⟨st', its', c, ?_, hr, h2⟩
  rw [A.next, A'.next] at m n
  push_cast at n
  omega

/-- C128: four elements (two of them by a copy) and an assignment cost nine operations. -/
example : ∃ F, ∀ fuel, F ≤ fuel → ∃ (st : FSt Nat) (its : Its),
    runOps fuel (fun _ => none) [.new 0, .pushFront 0 1, .pushFront 0 2, .begin_ 0 0, .set 0 0 5, .newCopy 1 0,
      .popFront 0, .toList 1] { (St.init : FSt Nat) with thr := some 9 } =
    .ok (its, [.unit, .unit, .unit, .unit, .unit, .unit, .unit, .vals [5, 1]]) st := by
  have h0 : (specRun (V := Nat) Env.none [.new 0, .pushFront 0 1, .pushFront 0 2, .begin_ 0 0, .set 0 0 5,
      .newCopy 1 0, .popFront 0, .toList 1]).isSome = true := rfl
  obtain ⟨r, hr⟩ := Option.isSome_iff_exists.1 h0
  have hn : r.1.next = 4 := by
    have : r.1 = ((specRun _ _).get h0).1 := by simp [hr]
    rw [this]; rfl
  have ho : r.2 = [.unit, .unit, .unit, .unit, .unit, .unit, .unit, .vals [5, 1]] := by
    have : r.2 = ((specRun _ _).get h0).2 := by simp [hr]
    rw [this]; rfl
  obtain ⟨F, hF⟩ := C128_flist_cost (e := r.1) (outs := r.2) hr
  refine ⟨F, fun fuel hf => ?_⟩
  obtain ⟨st, its, c, hc, _, hk⟩ := hF fuel hf
  have hc' : c ≤ 9 := by
    have : price r.1 [.new 0, .pushFront 0 1, .pushFront 0 2, .begin_ 0 0, .set 0 0 5, .newCopy 1 0,
      .popFront 0, .toList 1] = 2 * r.1.next + 1 := rfl
    omega
  have := hk (9 - c)
  rw [Nat.sub_add_cancel hc', ho] at this
  exact ⟨_, _, this⟩

/-- C128: pushing onto a list of two elements. -/
example : ∃ (st : FSt Nat) (its : Its) (e : Env Nat), Reach st its e ∧ e.next = 2 ∧
    ∃ e', specStep e (.pushFront 0 7) = some (e', .unit) ∧ e'.next = 3 := by
  obtain ⟨st, its, h⟩ := Reach.of_spec (V := Nat) (ops := [.new 0, .pushFront 0 1, .pushFront 0 2]) rfl
  exact ⟨st, its, _, h, rfl, _, rfl, rfl⟩

end Cest.FL
