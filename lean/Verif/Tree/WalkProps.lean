import Verif.Tree.WalkProofs
import Verif.Tree.MapProps
/-
Property C148: what it costs to iterate over cest::set and cest::map and to clear them, and the postfix increment.
A move is an assignment to `curr_node` in `operator++`.
-/
namespace Cest.Tree
open Cest
variable {V K T : Type} {comp eq : K → K → Bool}

/-- **C148 (the counter changes nothing).** Without the numbers of moves, `walk` is the range-for of C30 and C36, in
every state, and `incC` is `operator++`. -/
theorem C148_counts (g : Cfg V K) (fuel x : Nat) (p : Option Nat) :
    (do let r ← walk g fuel x; pure (r.map Prod.fst) : TM V (List V)) = toList g fuel x ∧
    (do let r ← incC g fuel p; pure r.1 : TM V (Option Nat)) = inc g fuel p := by
  refine ⟨?_, incC_fst g fuel p⟩
  funext st
  simp only [walk, toList, M.bind_apply]
  cases h : begin_ x st with
  | ok b s =>
    have := congrFun (walkLoop_fst g fuel fuel b) s
    simp only [M.bind_apply] at this
    exact this
  | throw e s => rfl
  | ub u => rfl
  | timeout => rfl

theorem traversal {g : Cfg V K} [DecidableEq K] (hg : g.Lawful) {st : TSt V} {its : Its} {e : Env V}
    (h : Reach g st its e) {x : Nat} {s : Seq V} (hx : e.sets x = some s) :
    ∃ cs : List Nat, cs.length = s.length ∧ s.length ≤ cs.sum ∧ cs.sum ≤ 2 * s.length - 1 ∧
      2 * s.length ≤ cs.sum + 2 * Nat.log2 (s.length + 1) ∧
      (∀ c ∈ cs, 1 ≤ c ∧ c ≤ 2 * Nat.log2 (s.length + 1)) ∧
      ∀ fuel, s.length < fuel → walk g fuel x st = .ok ((s.map Prod.snd).zip cs) st := by
  have W := (h.agree hg).world
  by_cases hne : s = []
  · subst hne
    refine ⟨[], rfl, by simp, by simp, by simp, by simp, ?_⟩
    intro fuel hf
    simp only [walk, M.bind_apply, begin_spec W hx]
    obtain ⟨f, rfl⟩ : ∃ f', fuel = f' + 1 := ⟨fuel - 1, by simp at hf; omega⟩
    rfl
  · obtain ⟨cs, h1, h2, h3, h6, h4, h5⟩ := walk_spec hg W hx hne
    refine ⟨cs, h1, h3, by omega, Nat.le_trans h6 (Nat.add_le_add_left (Nat.min_le_right _ _) _), ?_, h5⟩
    intro c hc
    have := (h4 c hc).2
    exact ⟨(h4 c hc).1, Nat.le_trans this (Nat.min_le_right _ _)⟩

theorem clearing {g : Cfg V K} [DecidableEq K] (hg : g.Lawful) {st : TSt V} {its : Its} {e : Env V}
    (h : Reach g st its e) {x : Nat} {s : Seq V} (hx : e.sets x = some s) :
    ∃ st₁ st₂, ∀ fuel, 2 * Nat.log2 (s.length + 1) < fuel →
      clear fuel x st = .ok () st₁ ∧ dtor fuel x st = .ok () st₂ := by
  have W := (h.agree hg).world
  obtain ⟨st₁, h1, _⟩ := clear_spec W hx
  obtain ⟨st₂, h2, _⟩ := dtor_spec W hx
  refine ⟨st₁, st₂, fun fuel hf => ?_⟩
  have : depth s.length < fuel := Nat.lt_of_le_of_lt (Nat.min_le_right _ _) hf
  exact ⟨h1 fuel this, h2 fuel this⟩

theorem postIncrement {g : Cfg V K} [DecidableEq K] (hg : g.Lawful) {st : TSt V} {its : Its} {e : Env V}
    (h : Reach g st its e) {x : Nat} {l r : Seq V} {a : Nat} {v : V} (hx : e.sets x = some (l ++ (a, v) :: r))
    {fuel : Nat} (hf : (l ++ (a, v) :: r).length ≤ fuel) :
    postInc g fuel (some a) st = .ok (some a, (r.head?).map Prod.fst) st ∧
      getX (some a) st = .ok v st ∧ ∀ d, r.head? = some d → getX (some d.1) st = .ok d.2 st := by
  have W := (h.agree hg).world
  refine ⟨?_, deref_spec W hx, ?_⟩
  · simp only [postInc, M.bind_apply]
    rw [inc_spec hg W hx (Nat.le_trans (Nat.min_le_left _ _) hf)]
    rfl
  · intro d hd
    cases r with
    | nil => cases hd
    | cons d' r =>
      obtain ⟨b, w⟩ := d'
      cases hd
      exact deref_spec W (s₁ := l ++ [(a, v)]) (s₂ := r) (by simpa using hx)

/-! ### set -/

/-- **C148 (traversal of a set).** In every reachable state of every program, a range-for over a set of `n` elements
visits them with at least `n` and at most `2n - 1` moves altogether, and with no fewer than `2n - 2 log2(n + 1)`;
each increment makes between one and `2 log2(n + 1)` moves. -/
theorem C148_set_traversal [DecidableEq K] (hc : StrictWeak comp) {st : TSt K} {its : Its} {e : Env K}
    (h : Reach (setCfg comp) st its e) {x : Nat} {s : Seq K} (hx : e.sets x = some s) :
    ∃ cs : List Nat, cs.length = s.length ∧ s.length ≤ cs.sum ∧ cs.sum ≤ 2 * s.length - 1 ∧
      2 * s.length ≤ cs.sum + 2 * Nat.log2 (s.length + 1) ∧
      (∀ c ∈ cs, 1 ≤ c ∧ c ≤ 2 * Nat.log2 (s.length + 1)) ∧
      ∀ fuel, s.length < fuel → walk (setCfg comp) fuel x st = .ok ((s.map Prod.snd).zip cs) st :=
  traversal (setCfg_lawful hc) h hx

/-- **C148 (clearing a set).** `clear()` and the destructor return with the recursion no deeper than
`2 log2(n + 1) + 1` calls. -/
theorem C148_set_clear_depth [DecidableEq K] (hc : StrictWeak comp) {st : TSt K} {its : Its} {e : Env K}
    (h : Reach (setCfg comp) st its e) {x : Nat} {s : Seq K} (hx : e.sets x = some s) :
    ∃ st₁ st₂, ∀ fuel, 2 * Nat.log2 (s.length + 1) < fuel →
      clear fuel x st = .ok () st₁ ∧ dtor fuel x st = .ok () st₂ :=
  clearing (setCfg_lawful hc) h hx

/-- **C148 (postfix increment, set).** `it++` at an element returns an iterator to that element and leaves the
iterator at the next one, or at `end()`. -/
theorem C148_set_postfix [DecidableEq K] (hc : StrictWeak comp) {st : TSt K} {its : Its} {e : Env K}
    (h : Reach (setCfg comp) st its e) {x : Nat} {l r : Seq K} {a : Nat} {v : K}
    (hx : e.sets x = some (l ++ (a, v) :: r)) {fuel : Nat} (hf : (l ++ (a, v) :: r).length ≤ fuel) :
    postInc (setCfg comp) fuel (some a) st = .ok (some a, (r.head?).map Prod.fst) st ∧
      getX (some a) st = .ok v st ∧ ∀ d, r.head? = some d → getX (some d.1) st = .ok d.2 st :=
  postIncrement (setCfg_lawful hc) h hx hf

/-! ### map -/

/-- **C148 (traversal of a map).** -/
theorem C148_map_traversal [DecidableEq K] (hc : StrictWeak comp) (he : GoodEq comp eq) {st : TSt (K × T)}
    {its : Its} {e : Env (K × T)} (h : Reach (mapCfg comp eq) st its e) {x : Nat} {s : Seq (K × T)}
    (hx : e.sets x = some s) :
    ∃ cs : List Nat, cs.length = s.length ∧ s.length ≤ cs.sum ∧ cs.sum ≤ 2 * s.length - 1 ∧
      2 * s.length ≤ cs.sum + 2 * Nat.log2 (s.length + 1) ∧
      (∀ c ∈ cs, 1 ≤ c ∧ c ≤ 2 * Nat.log2 (s.length + 1)) ∧
      ∀ fuel, s.length < fuel → walk (mapCfg comp eq) fuel x st = .ok ((s.map Prod.snd).zip cs) st :=
  traversal (map_lawful hc he) h hx

/-- **C148 (clearing a map).** -/
theorem C148_map_clear_depth [DecidableEq K] (hc : StrictWeak comp) (he : GoodEq comp eq) {st : TSt (K × T)}
    {its : Its} {e : Env (K × T)} (h : Reach (mapCfg comp eq) st its e) {x : Nat} {s : Seq (K × T)}
    (hx : e.sets x = some s) :
    ∃ st₁ st₂, ∀ fuel, 2 * Nat.log2 (s.length + 1) < fuel →
      clear fuel x st = .ok () st₁ ∧ dtor fuel x st = .ok () st₂ :=
  clearing (map_lawful hc he) h hx

/-- **C148 (postfix increment, map).** -/
theorem C148_map_postfix [DecidableEq K] (hc : StrictWeak comp) (he : GoodEq comp eq) {st : TSt (K × T)}
    {its : Its} {e : Env (K × T)} (h : Reach (mapCfg comp eq) st its e) {x : Nat} {l r : Seq (K × T)} {a : Nat}
    {v : K × T} (hx : e.sets x = some (l ++ (a, v) :: r)) {fuel : Nat} (hf : (l ++ (a, v) :: r).length ≤ fuel) :
    postInc (mapCfg comp eq) fuel (some a) st = .ok (some a, (r.head?).map Prod.fst) st ∧
      getX (some a) st = .ok v st ∧ ∀ d, r.head? = some d → getX (some d.1) st = .ok d.2 st :=
  postIncrement (map_lawful hc he) h hx hf

/-- The theorems apply to a set of seven elements (and to its fourth one). -/
example : ∃ (st : TSt Nat) (its : Its) (e : Env Nat), Reach (setCfg natLt) st its e ∧
    e.sets 0 = some ([(0, 1), (1, 2), (2, 3)] ++ (3, 4) :: [(4, 5), (5, 6), (6, 7)]) := by
  obtain ⟨st, its, h⟩ := Reach.of_spec (setCfg_lawful natLt_weak) (ops := [.new 0, .insert 0 1 0, .insert 0 2 0,
    .insert 0 3 0, .insert 0 4 0, .insert 0 5 0, .insert 0 6 0, .insert 0 7 0]) rfl
  exact ⟨st, its, _, h, rfl⟩

end Cest.Tree
