import Verif.Tree.Cost
import Verif.Tree.MapProps
/-
Property C128 of cest::set and cest::map: the number of operations that may throw.
-/
namespace Cest.Tree
open Cest
variable {V K T : Type} [DecidableEq K] {comp eq : K → K → Bool}

theorem history_cost {g : Cfg V K} (hg : g.Lawful) {ops : List (Op V K)} {e : Env V} {outs : List (Out V)}
    (h : specRun g Env.none ops = some (e, outs)) :
    ∃ F, ∀ fuel, F ≤ fuel → ∃ st its c, c ≤ price e ops ∧
      runOps g fuel (fun _ => none) ops St.init = .ok (its, outs) st ∧
      ∀ k, runOps g fuel (fun _ => none) ops { (St.init : TSt V) with thr := some (k + c) } =
        .ok (its, outs) { st with thr := some k } := by
  obtain ⟨F, st, its, h3, A⟩ := run_refines hg (agree_init g) h
  refine ⟨F, fun fuel hf => ?_⟩
  have hr := h3 fuel hf
  obtain ⟨_, c, h1, h2⟩ := runOps_cost g fuel ops (fun _ => none) (St.init : TSt V) rfl
  rw [hr] at h2
  obtain ⟨_, n⟩ := h1 _ _ hr
  refine ⟨st, its, c, ?_, hr, h2⟩
  have e0 : (St.init : TSt V).next = 0 := rfl
  rw [e0, A.next] at n
  unfold price
  simp at n
  omega

theorem step_cost {g : Cfg V K} (hg : g.Lawful) {st : TSt V} {its : Its} {e e' : Env V} (h : Reach g st its e)
    {op : Op V K} {o : Out V} (hs : specStep g e op = some (e', o)) :
    ∃ F, ∀ fuel, F ≤ fuel → ∃ st' its' c, c ≤ 3 * (e'.next - e.next) + writes [op] ∧
      runOp g fuel its op st = .ok (its', o) st' ∧
      ∀ k, runOp g fuel its op { st with thr := some (k + c) } = .ok (its', o) { st' with thr := some k } := by
  have A := h.agree hg
  obtain ⟨F, st', its', h3, A'⟩ := step_refines hg A hs
  refine ⟨F, fun fuel hf => ?_⟩
  have hr := h3 fuel hf
  obtain ⟨_, c, h1, h2⟩ := runOp_cost g fuel its op st A.world.thr
  rw [hr] at h2
  obtain ⟨m, n⟩ := h1 _ _ hr
  refine ⟨st', its', c, ?_, hr, h2⟩
  rw [A.next, A'.next] at m n
  push_cast at n
  omega

/-- **C128 (set).** In any program that respects the preconditions, each element created costs an
allocation and two copies (into the parameter of the node's constructor and from there into the node), and
everything else (inserting a value that is present, looking up, iterating, clearing) makes no allocation and
no copy. So if only operations after the first `price` many fail, the program does not notice. -/
theorem C128_set_cost (hc : StrictWeak comp) {ops : List (Op K K)} {e : Env K} {outs : List (Out K)}
    (h : specRun (setCfg comp) Env.none ops = some (e, outs)) :
    ∃ F, ∀ fuel, F ≤ fuel → ∃ st its c, c ≤ price e ops ∧
      runOps (setCfg comp) fuel (fun _ => none) ops St.init = .ok (its, outs) st ∧
      ∀ k, runOps (setCfg comp) fuel (fun _ => none) ops { (St.init : TSt K) with thr := some (k + c) } =
        .ok (its, outs) { st with thr := some k } :=
  history_cost (setCfg_lawful hc) h

/-- **C128 (set, one operation).** The price of one operation, from any reachable state, is that of the
elements it creates, whatever the sizes of the sets. -/
theorem C128_set_step (hc : StrictWeak comp) {st : TSt K} {its : Its} {e e' : Env K}
    (h : Reach (setCfg comp) st its e) {op : Op K K} {o : Out K}
    (hs : specStep (setCfg comp) e op = some (e', o)) :
    ∃ F, ∀ fuel, F ≤ fuel → ∃ st' its' c, c ≤ 3 * (e'.next - e.next) + writes [op] ∧
      runOp (setCfg comp) fuel its op st = .ok (its', o) st' ∧
      ∀ k, runOp (setCfg comp) fuel its op { st with thr := some (k + c) } =
        .ok (its', o) { st' with thr := some k } :=
  step_cost (setCfg_lawful hc) h hs

/-- **C128 (map).** The same for maps, where an assignment to a mapped value costs one operation more. -/
theorem C128_map_cost (hc : StrictWeak comp) (he : GoodEq comp eq) {ops : List (Op (K × T) K)}
    {e : Env (K × T)} {outs : List (Out (K × T))}
    (h : specRun (mapCfg comp eq) Env.none ops = some (e, outs)) :
    ∃ F, ∀ fuel, F ≤ fuel → ∃ st its c, c ≤ price e ops ∧
      runOps (mapCfg comp eq) fuel (fun _ => none) ops St.init = .ok (its, outs) st ∧
      ∀ k, runOps (mapCfg comp eq) fuel (fun _ => none) ops
          { (St.init : TSt (K × T)) with thr := some (k + c) } =
        .ok (its, outs) { st with thr := some k } :=
  history_cost (map_lawful hc he) h

/-- **C128 (map, one operation).** -/
theorem C128_map_step (hc : StrictWeak comp) (he : GoodEq comp eq) {st : TSt (K × T)} {its : Its}
    {e e' : Env (K × T)} (h : Reach (mapCfg comp eq) st its e) {op : Op (K × T) K} {o : Out (K × T)}
    (hs : specStep (mapCfg comp eq) e op = some (e', o)) :
    ∃ F, ∀ fuel, F ≤ fuel → ∃ st' its' c, c ≤ 3 * (e'.next - e.next) + writes [op] ∧
      runOp (mapCfg comp eq) fuel its op st = .ok (its', o) st' ∧
      ∀ k, runOp (mapCfg comp eq) fuel its op { st with thr := some (k + c) } =
        .ok (its', o) { st' with thr := some k } :=
  step_cost (map_lawful hc he) h hs

/-- C128: five insertions of which two find their value present, and a copy of the three elements, cost
eighteen operations. -/
example : ∃ F, ∀ fuel, F ≤ fuel → ∃ (st : TSt Nat) (its : Its),
    runOps (setCfg natLt) fuel (fun _ => none) [.new 0, .insert 0 3 0, .insert 0 1 0, .insert 0 3 0, .insert 0 2 0,
      .insert 0 1 0, .newCopy 1 0, .clear 0, .toList 1] { (St.init : TSt Nat) with thr := some 18 } =
    .ok (its, [.unit, .bool true, .bool true, .bool false, .bool true, .bool false, .unit, .unit,
      .vals [1, 2, 3]]) st := by
  have h0 : (specRun (setCfg natLt) Env.none [.new 0, .insert 0 3 0, .insert 0 1 0, .insert 0 3 0, .insert 0 2 0,
      .insert 0 1 0, .newCopy 1 0, .clear 0, .toList 1]).isSome = true := rfl
  obtain ⟨r, hr⟩ := Option.isSome_iff_exists.1 h0
  have hn : r.1.next = 6 := by
    have : r.1 = ((specRun _ _ _).get h0).1 := by simp [hr]
    rw [this]; rfl
  have ho : r.2 = [.unit, .bool true, .bool true, .bool false, .bool true, .bool false, .unit, .unit,
      .vals [1, 2, 3]] := by
    have : r.2 = ((specRun _ _ _).get h0).2 := by simp [hr]
    rw [this]; rfl
  obtain ⟨F, hF⟩ := C128_set_cost natLt_weak (e := r.1) (outs := r.2) hr
  refine ⟨F, fun fuel hf => ?_⟩
  obtain ⟨st, its, c, hc, _, hk⟩ := hF fuel hf
  have hc' : c ≤ 18 := by
    have : price (K := Nat) r.1 [.new 0, .insert 0 3 0, .insert 0 1 0, .insert 0 3 0, .insert 0 2 0,
      .insert 0 1 0, .newCopy 1 0, .clear 0, .toList 1] = 3 * r.1.next + 0 := rfl
    omega
  have := hk (18 - c)
  rw [Nat.sub_add_cancel hc', ho] at this
  exact ⟨_, _, this⟩

/-- C128: inserting a value that is present creates nothing. -/
example : ∃ (st : TSt Nat) (its : Its) (e : Env Nat), Reach (setCfg natLt) st its e ∧ e.next = 2 ∧
    ∃ e', specStep (setCfg natLt) e (.insert 0 7 0) = some (e', .bool false) ∧ e'.next = 2 := by
  obtain ⟨st, its, h⟩ := Reach.of_spec (setCfg_lawful natLt_weak) (ops := [.new 0, .insert 0 7 1, .insert 0 2 1]) rfl
  exact ⟨st, its, _, h, rfl, _, rfl, rfl⟩

/-- C128: a map with two elements, one of them overwritten. -/
example : ∃ e : Env (Nat × Char), (specRun (mapCfg (T := Char) natLt (fun a b => a == b)) Env.none
    [.new 0, .insert 0 (3, 'a') 0, .insert 0 (1, 'b') 1, .write 0 0 (3, 'z'), .toList 0] =
      some (e, [.unit, .bool true, .bool true, .unit, .vals [(1, 'b'), (3, 'z')]])) ∧
    price (K := Nat) e [.new 0, .insert 0 (3, 'a') 0, .insert 0 (1, 'b') 1, .write 0 0 (3, 'z'), .toList 0] = 7 :=
  ⟨_, rfl, rfl⟩

end Cest.Tree
