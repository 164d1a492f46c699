import Verif.Vector.Cost
import Verif.Vector.Props
/-
Property C127: how many allocations, element copies and element assignments vector programs make.
The countdown `thr` of the machine counts them: started with `thr = some (k + c)`, a program that makes `c`
of them and meets no exception ends with `thr = some k`.
-/
namespace Cest.Vec
open Cest
variable {V : Type} [Inhabited V] [BEq V]

/-- **C127 (every history).** A program that respects the preconditions makes at most as many allocations,
element copies and element assignments as its operations cost together, where a `push_back` costs 4 whatever
the size of the vector (amortised constant time), `pop_back`, `clear`, moves and swaps cost nothing, and the
others are linear in the sizes involved. -/
theorem C127_vector_cost {ops : List (Op V)} {e : Env V} {outs : List (Out V)}
    (h : specRun Env.none ops = some (e, outs)) :
    ∃ st c, c ≤ total Env.none ops ∧ runOps ops St.init = .ok outs st ∧
      ∀ k, runOps ops { St.init with thr := some (k + c) } = .ok outs { st with thr := some k } := by
  obtain ⟨N, hN⟩ := exists_bound ops
  obtain ⟨st, σ, c, hr, W, _, hc, hp⟩ := run_cost (World.init (I := vecI)) rfl h hN
  obtain ⟨_, d, hd, hk⟩ := hc.ok hr
  have h0 : pots (fun _ => (none : Option (AV V))) N = 0 := by
    clear hN hp
    induction N with
    | zero => rfl
    | succ N ih => simp [pots, ih, pot]
  rw [h0] at hp
  have hp' : c + pots σ N ≤ total Env.none ops + 0 := hp
  exact ⟨st, d, by omega, hr, hk⟩

/-- **C127 (amortised constant `push_back`).** From a new vector, any number of `push_back`s succeeds if only
the operations after the first `4 n` may throw: the `n` calls make at most `4 n` allocations and copies
together. -/
theorem C127_vector_push_amortised {st : VSt V} {e : Env V} (h : Reach st e) {x : Nat} (hx : e x = none)
    (vs : List V) :
    ∃ st', (do ctor x; pushAll x vs) st = .ok () st' ∧ toList x st' = .ok vs st' ∧
      ∃ c, c ≤ 4 * vs.length ∧
        ∀ k, (do ctor x; pushAll x vs) { st with thr := some (k + c) } = .ok () { st' with thr := some k } := by
  obtain ⟨σ, W, rfl⟩ := reach_world h
  obtain ⟨st1, h1, W1⟩ := ctor_spec W (envOf_none rfl hx)
  obtain ⟨st2, s2, h2, W2, hs2, c, hc, hcost⟩ := pushAll_cost (vs := vs) W1 (upd_same _ _ _)
  have hr : (do ctor x; pushAll x vs) st = .ok () st2 := by rw [M.bind_of_ok h1, h2]
  have hco : CostAt (do ctor x; pushAll x vs) st (0 + c) :=
    CostAt.bind_ok (CostLe.newObj _ _ st W.thr) h1 hcost
  obtain ⟨_, d, hd, hk⟩ := hco.ok hr
  refine ⟨st2, hr, ?_, d, ?_, hk⟩
  · rw [toList_spec W2 (upd_same _ _ _), hs2]; simp
  · simp [pot_some] at hc; omega

/-- **C127 (reserved storage).** While the capacity suffices, `push_back` makes one copy and allocates
nothing. -/
theorem C127_vector_push_reserved {st : VSt V} {e : Env V} (h : Reach st e) {x c : Nat} {xs : List V}
    (hx : e x = some xs) (hc : capacity x st = .ok c st) (vs : List V) (hroom : xs.length + vs.length ≤ c) :
    ∃ st', pushAll x vs st = .ok () st' ∧ toList x st' = .ok (xs ++ vs) st' ∧ st'.next = st.next ∧
      ∃ d, d ≤ vs.length ∧
        ∀ k, pushAll x vs { st with thr := some (k + d) } = .ok () { st' with thr := some k } := by
  obtain ⟨σ, W, rfl⟩ := reach_world h
  obtain ⟨s, hs, rfl⟩ := envOf_some rfl hx
  rw [capacity_spec W hs] at hc; cases hc
  obtain ⟨st', h1, W', hn, hcost⟩ := pushAll_room (vs := vs) W hs hroom
  obtain ⟨_, d, hd, hk⟩ := hcost.ok h1
  exact ⟨st', h1, by rw [toList_spec W' (upd_same _ _ _)], hn, d, hd, hk⟩

/-- C127: five `push_back`s and two `pop_back`s cost 20. -/
example : ∃ (st : VSt Nat) (c : Nat), c ≤ 20 ∧ ∀ k, runOps [.new 0, .pushBack 0 1, .pushBack 0 2, .pushBack 0 3, .popBack 0,
      .pushBack 0 4, .popBack 0, .pushBack 0 5] { (St.init : VSt Nat) with thr := some (k + c) } =
    .ok [.unit, .unit, .unit, .unit, .unit, .unit, .unit, .unit] { st with thr := some k } := by
  obtain ⟨st, c, hc, _, h⟩ := C127_vector_cost (V := Nat) (ops := [.new 0, .pushBack 0 1, .pushBack 0 2,
    .pushBack 0 3, .popBack 0, .pushBack 0 4, .popBack 0, .pushBack 0 5]) rfl
  exact ⟨st, c, hc, h⟩

/-- C127: a thousand elements pushed one by one, none of the first 4000 operations throwing. -/
example : ∃ (st : VSt Nat), ∃ st', (do ctor 1; pushAll 1 (List.range 1000)) { st with thr := some 4000 } =
    .ok () st' := by
  obtain ⟨st, R, _⟩ := reach_example
  obtain ⟨st', _, _, c, hc, hk⟩ := C127_vector_push_amortised R (x := 1) rfl (List.range 1000)
  simp at hc
  have := hk (4000 - c)
  rw [Nat.sub_add_cancel hc] at this
  exact ⟨st, _, this⟩

/-- C127: a vector of three elements with capacity four takes one more with a single copy. -/
example : ∃ st : VSt Nat, ∃ st', pushAll 0 [8] { st with thr := some 1 } = .ok () st' := by
  obtain ⟨st, R, hc⟩ := reach_example
  obtain ⟨st', _, _, _, d, hd, hk⟩ := C127_vector_push_reserved R (x := 0) rfl hc [8] (by decide)
  simp only [List.length_cons, List.length_nil, Nat.zero_add] at hd
  have := hk (1 - d)
  rw [Nat.sub_add_cancel hd] at this
  exact ⟨st, _, this⟩

end Cest.Vec
