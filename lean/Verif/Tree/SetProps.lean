import Verif.Tree.Generic
/-
Properties C29–C34 and C79 of cest::set.
-/
namespace Cest.Tree
open Cest
variable {K : Type} [DecidableEq K] {comp : K → K → Bool} {st : TSt K} {its : Its} {e : Env K}

/-- `<` on numbers. -/
def natLt (a b : Nat) : Bool := decide (a < b)
theorem natLt_weak : StrictWeak natLt := by
  constructor <;> simp [natLt] <;> omega
/-- Comparing tens only: a strict weak ordering that identifies different numbers. -/
def tensLt (a b : Nat) : Bool := decide (a / 10 < b / 10)
theorem tensLt_weak : StrictWeak tensLt := by
  constructor <;> simp [tensLt] <;> omega

/-! ### C29 -/

/-- **C29 (any history).** Every program over any number of sets and iterators that respects the
preconditions runs without undefined behaviour, exceptions or divergence, and its observations are those
of finite ordered sets. -/
theorem C29_set_history (hc : StrictWeak comp) {ops : List (Op K K)} {outs : List (Out K)}
    (h : specRun (setCfg comp) Env.none ops = some (e, outs)) :
    ∃ F st its, ∀ fuel, F ≤ fuel →
      runOps (setCfg comp) fuel (fun _ => none) ops St.init = .ok (its, outs) st := by
  obtain ⟨F, st, its, h3, _⟩ := run_refines (setCfg_lawful hc) (agree_init _) h
  exact ⟨F, st, its, h3⟩

/-- Four sets operations with an ordering that identifies 12 and 15; iterators are kept. -/
example : (specRun (setCfg tensLt) Env.none
    [.new 0, .insert 0 30 0, .insert 0 12 1, .insert 0 15 2, .insert 0 50 3, .insert 0 1 4, .deref 0 2, .itEq 1 2,
     .toList 0, .find 0 17 5, .deref 0 5, .find 0 70 6, .end_ 0 7, .itEq 6 7, .inc 0 5, .deref 0 5, .newCopy 1 0,
     .clear 0, .toList 1, .size 1, .size 0, .insertHint 1 7 99 8, .toList 1]).map Prod.snd =
    some [.unit, .bool true, .bool true, .bool false, .bool true, .bool true, .val 12, .bool true,
     .vals [1, 12, 30, 50], .unit, .val 12, .unit, .unit, .bool true, .unit, .val 30, .unit, .unit,
     .vals [1, 12, 30, 50], .nat 4, .nat 0, .unit, .vals [1, 12, 30, 50, 99]] := rfl

/-- **C29 (insertions).** After inserting any values, `insert` has reported for each value whether no
equivalent one came earlier, `size()` is the number of classes, and `find(k)` gives the first inserted
value equivalent to `k`, or `end()`. -/
theorem C29_set_inserts (hc : StrictWeak comp) (vs : List K) :
    ∃ F st its, ∀ fuel, F ≤ fuel →
      runOps (setCfg comp) fuel (fun _ => none) (.new 0 :: vs.map (fun v => Op.insert 0 v 0)) St.init =
        .ok (its, .unit :: (addedFlags (equivKeys comp) [] vs).map Out.bool) st ∧
      size 0 st = .ok (firsts (equivKeys comp) vs).length st ∧
      ∀ k, ∃ p, find (setCfg comp) fuel 0 k st = .ok p st ∧
        match vs.find? (fun v => equivKeys comp v k) with
        | some v => getX p st = .ok v st
        | none => end_ 0 st = .ok p st :=
  inserts (setCfg_lawful hc) vs

example : firsts (equivKeys tensLt) [30, 12, 15, 50, 11, 1] = [30, 12, 50, 1] ∧
    addedFlags (equivKeys tensLt) [] [30, 12, 15, 50, 11, 1] = [true, true, false, true, false, true] := by decide

/-- **C29 (insert, in every reachable state).** `insert(v)` reports `true` exactly if no equivalent element
is present; the returned iterator designates `v` or the equivalent element; the contents grow by `v` or stay
the same and remain strictly increasing; `size()` agrees; other sets are untouched. -/
theorem C29_set_insert (hc : StrictWeak comp) (h : Reach (setCfg comp) st its e) {x : Nat} {s : Seq K}
    (hx : e.sets x = some s) (v : K) :
    ∃ p b st', (∀ fuel, s.length < fuel → insert (setCfg comp) fuel x v st = .ok (p, b) st') ∧
      (b = true ↔ ∀ w ∈ s.map Prod.snd, equivKeys comp w v = false) ∧
      (∃ w, getX p st' = .ok w st' ∧ equivKeys comp w v = true ∧
        (b = true → w = v) ∧ (b = false → w ∈ s.map Prod.snd)) ∧
      (∃ s' : List K, s'.Perm (if b then v :: s.map Prod.snd else s.map Prod.snd) ∧
        s'.Pairwise (fun v w => comp v w = true) ∧
        ∀ fuel, s.length + 1 < fuel →
          toList (setCfg comp) fuel x st' = .ok s' st' ∧ size x st' = .ok s'.length st') ∧
      (∀ y t, y ≠ x → e.sets y = some t → ∀ fuel, t.length < fuel →
        toList (setCfg comp) fuel y st' = .ok (t.map Prod.snd) st') := by
  obtain ⟨p, b, st', h1, h2, h3, h4, _, h6⟩ := insert_any (setCfg_lawful hc) h hx v
  exact ⟨p, b, st', h1, h2, h3, h4, h6⟩

/-- **C29 (find, in every reachable state).** -/
theorem C29_set_find (hc : StrictWeak comp) (h : Reach (setCfg comp) st its e) {x : Nat} {s : Seq K}
    (hx : e.sets x = some s) (k : K) {fuel : Nat} (hf : s.length < fuel) :
    ∃ p, find (setCfg comp) fuel x k st = .ok p st ∧
      ((∃ v ∈ s.map Prod.snd, equivKeys comp v k = true ∧ getX p st = .ok v st) ∨
       ((∀ v ∈ s.map Prod.snd, equivKeys comp v k = false) ∧ end_ x st = .ok p st)) :=
  find_any (setCfg_lawful hc) h hx k hf

/-! ### C30 -/

/-- **C30.** From `begin()`, `++` visits every element exactly once in strictly increasing order and reaches
`end()` after `size()` steps; nothing undefined happens. -/
theorem C30_set_iteration (hc : StrictWeak comp) (h : Reach (setCfg comp) st its e) {x : Nat} {s : Seq K}
    (hx : e.sets x = some s) {fuel : Nat} (hf : s.length < fuel) :
    toList (setCfg comp) fuel x st = .ok (s.map Prod.snd) st ∧ size x st = .ok s.length st ∧
    (s.map Prod.snd).Pairwise (fun v w => comp v w = true) ∧
    ∃ b, begin_ x st = .ok b st ∧ end_ x st = .ok none st ∧
      incN (setCfg comp) fuel s.length b st = .ok none st ∧
      ∀ k (hk : k < s.length), ∃ a, incN (setCfg comp) fuel k b st = .ok (some a) st ∧
        getX (some a) st = .ok s[k].2 st :=
  iteration (setCfg_lawful hc) h hx hf

/-! ### C31 -/

/-- **C31.** In every reachable state the nodes in memory form a red-black tree of height at most
`2 * log2 (size + 1)`, and `find` and `insert` need no more iterations (two comparisons each) plus one. -/
theorem C31_set_balanced (hc : StrictWeak comp) (h : Reach (setCfg comp) st its e) {x : Nat} {s : Seq K}
    (hx : e.sets x = some s) :
    (∃ o bh ht, st.objs x = some o ∧ RBMem st.mem o.root none .black bh ht ∧
      ht ≤ 2 * Nat.log2 (s.length + 1)) ∧
    ∀ fuel, 2 * Nat.log2 (s.length + 1) < fuel →
      (∀ k, ∃ p, find (setCfg comp) fuel x k st = .ok p st) ∧
      (∀ v, ∃ r st', insert (setCfg comp) fuel x v st = .ok r st') :=
  balanced (setCfg_lawful hc) h hx

/-! ### C32 -/

/-- **C32.** Insertion leaves every element of every set at its address with its value. -/
theorem C32_set_insert_stable (hc : StrictWeak comp) (h : Reach (setCfg comp) st its e) {x : Nat} {s : Seq K}
    (hx : e.sets x = some s) (v : K) :
    ∃ r st', (∀ fuel, s.length < fuel → insert (setCfg comp) fuel x v st = .ok r st') ∧
      ∀ y t a w, e.sets y = some t → (a, w) ∈ t →
        getX (some a) st = .ok w st ∧ getX (some a) st' = .ok w st' := by
  obtain ⟨p, b, st', h1, _, _, _, h5, _⟩ := insert_any (setCfg_lawful hc) h hx v
  exact ⟨(p, b), st', h1, h5⟩

/-- C29–C32 apply to a set filled in increasing order (which rotates all the time). -/
example : ∃ (st : TSt Nat) (its : Its) (e : Env Nat), Reach (setCfg natLt) st its e ∧
    e.sets 0 = some [(0, 1), (1, 2), (2, 3), (3, 4), (4, 5), (5, 6), (6, 7)] := by
  obtain ⟨st, its, h⟩ := Reach.of_spec (setCfg_lawful natLt_weak) (ops := [.new 0, .insert 0 1 0, .insert 0 2 0,
    .insert 0 3 0, .insert 0 4 0, .insert 0 5 0, .insert 0 6 0, .insert 0 7 0]) rfl
  exact ⟨st, its, _, h, rfl⟩

/-! ### C33 -/

/-- **C33 (no leak).** Once every set is destroyed nothing is allocated. (Double free, freeing a live node
and use after free are undefined behaviour of the machine, excluded by C29.) -/
theorem C33_set_no_leak (hc : StrictWeak comp) (h : Reach (setCfg comp) st its e)
    (hd : ∀ x, e.sets x = none) : ∀ a, st.mem a = none :=
  (h.agree (setCfg_lawful hc)).world.empty_mem hd

/-- **C33 (exact ownership).** Every allocated node is constructed, and is exactly one element of exactly
one set. -/
theorem C33_set_storage (hc : StrictWeak comp) (h : Reach (setCfg comp) st its e) {a : Nat} {c : Cell K}
    (ha : st.mem a = some c) :
    ∃ n x l r, c = some n ∧ e.sets x = some (l ++ (a, n.x) :: r) ∧ a ∉ l.map Prod.fst ∧
      a ∉ r.map Prod.fst ∧ ∀ y s, e.sets y = some s → a ∈ s.map Prod.fst → y = x :=
  storage (setCfg_lawful hc) h ha

/-- A program that ends with no set alive, after five allocations. -/
example : ∃ (st : TSt Nat) (its : Its) (e : Env Nat), Reach (setCfg natLt) st its e ∧ (∀ x, e.sets x = none) ∧
    e.next = 5 := by
  let ops : List (Op Nat Nat) := [.new 0, .insert 0 2 0, .insert 0 1 0, .insert 0 2 0, .newCopy 1 0,
    .insert 0 7 0, .destroy 0, .clear 1, .destroy 1]
  have h0 : (specRun (setCfg natLt) Env.none ops).isSome = true := rfl
  obtain ⟨r, hr⟩ := Option.isSome_iff_exists.1 h0
  obtain ⟨st, its, h⟩ := Reach.of_spec (setCfg_lawful natLt_weak) (ops := ops) (e := r.1) (outs := r.2) hr
  have hr' : r.1 = ((specRun (setCfg natLt) Env.none ops).get h0).1 := by simp [hr]
  refine ⟨st, its, r.1, h, ?_, ?_⟩
  · intro x
    rw [hr']
    simp [ops, specRun, specStep, specInsert, lookup, insSorted, setCfg, Cfg.equiv, Cfg.lt, natLt, Env.setL,
      Env.setI, Env.none, Env.bump, number]
    grind
  · rw [hr']; rfl

/-! ### C34 -/

/-- **C34 (copies).** The target of a copy construction or assignment holds the source's values, and
whatever program runs afterwards, the one of the two that it does not modify keeps them. -/
theorem C34_set_copy_independent (hc : StrictWeak comp) (h : Reach (setCfg comp) st its e) {x y : Nat}
    {t : Seq K} (hxy : x ≠ y) (hy : e.sets y = some t) {op : Op K K}
    (hop : op = .newCopy x y ∨ op = .assign x y) {ops : List (Op K K)} {e' : Env K} {outs : List (Out K)}
    (hs : specRun (setCfg comp) e (op :: ops) = some (e', outs)) {z : Nat} (hz : z = x ∨ z = y)
    (hnm : ∀ op ∈ ops, z ∉ op.mutates) :
    ∃ F st' its', ∀ fuel, F ≤ fuel → runOps (setCfg comp) fuel its (op :: ops) st = .ok (its', outs) st' ∧
      toList (setCfg comp) fuel z st' = .ok (t.map Prod.snd) st' :=
  copy_independent (setCfg_lawful hc) h hxy hy hop hs hz hnm

/-- The source is changed and destroyed after the copy. -/
example : ∃ (F : Nat) (st st' : TSt Nat) (its its' : Its) (outs : List (Out Nat)), ∀ fuel, F ≤ fuel →
    runOps (setCfg natLt) fuel its [.newCopy 1 0, .insert 0 8 0, .destroy 0] st = .ok (its', outs) st' ∧
    toList (setCfg natLt) fuel 1 st' = .ok [5, 6] st' := by
  obtain ⟨st, its, hr⟩ := Reach.of_spec (setCfg_lawful natLt_weak)
    (ops := [.new 0, .insert 0 6 0, .insert 0 5 0]) rfl
  obtain ⟨F, st', its', h⟩ := C34_set_copy_independent natLt_weak hr (x := 1) (y := 0) (t := [(1, 5), (0, 6)])
    (by decide) rfl (op := .newCopy 1 0) (Or.inl rfl) (ops := [.insert 0 8 0, .destroy 0]) rfl (z := 1)
    (Or.inl rfl) (by simp [Op.mutates])
  exact ⟨F, st, st', its, its', _, h⟩

/-- The full claim of C34 for assignment, including self-assignment. -/
def C34_full_statement : Prop :=
  ∀ (comp : Nat → Nat → Bool) (st : TSt Nat) (its : Its) (e : Env Nat) (x y : Nat) (s t : Seq Nat),
    StrictWeak comp → Reach (setCfg comp) st its e → e.sets x = some s → e.sets y = some t →
    ∃ F st', ∀ fuel, F ≤ fuel → assign (setCfg comp) fuel x y st = .ok () st' ∧
      toList (setCfg comp) fuel x st' = .ok (t.map Prod.snd) st' ∧
      toList (setCfg comp) fuel y st' = .ok (t.map Prod.snd) st'

/-- **C34 (part that holds).** Assignment between different sets. Missing: `x = x` (next theorem). -/
theorem C34_set_assign_partial (hc : StrictWeak comp) (h : Reach (setCfg comp) st its e) {x y : Nat}
    {s t : Seq K} (hxy : x ≠ y) (hx : e.sets x = some s) (hy : e.sets y = some t) :
    ∃ F st', ∀ fuel, F ≤ fuel → assign (setCfg comp) fuel x y st = .ok () st' ∧
      toList (setCfg comp) fuel x st' = .ok (t.map Prod.snd) st' ∧
      toList (setCfg comp) fuel y st' = .ok (t.map Prod.snd) st' :=
  assign_other (setCfg_lawful hc) h hxy hx hy

/-- **C34 (violation).** Self-assignment empties the set. -/
theorem C34_set_self_assign (hc : StrictWeak comp) (h : Reach (setCfg comp) st its e) {x : Nat} {s : Seq K}
    (hx : e.sets x = some s) :
    ∃ st', ∀ fuel, s.length < fuel → assign (setCfg comp) fuel x x st = .ok () st' ∧
      toList (setCfg comp) fuel x st' = .ok [] st' :=
  self_assign (setCfg_lawful hc) h hx

theorem C34_set_assign_refuted : ¬ C34_full_statement := by
  intro hall
  obtain ⟨st, its, hr⟩ := Reach.of_spec (setCfg_lawful natLt_weak) (ops := [.new 0, .insert 0 5 0]) rfl
  obtain ⟨F, st1, h1⟩ := hall natLt st its _ 0 0 [(0, 5)] [(0, 5)] natLt_weak hr rfl rfl
  obtain ⟨st2, h2⟩ := C34_set_self_assign natLt_weak hr (x := 0) (s := [(0, 5)]) rfl
  obtain ⟨a1, a2, _⟩ := h1 (F + 2) (by omega)
  obtain ⟨b1, b2⟩ := h2 (F + 2) (by simp)
  rw [b1] at a1; cases a1
  rw [b2] at a2; cases a2

/-! ### C79 -/

/-- The full claim of C79: after an insertion that throws, the set can be destroyed. -/
def C79_full_statement : Prop :=
  ∀ (comp : Nat → Nat → Bool) (st st' : TSt Nat) (its : Its) (e : Env Nat) (x n : Nat) (s : Seq Nat) (v : Nat)
    (ex : Exc), StrictWeak comp → Reach (setCfg comp) st its e → e.sets x = some s →
    (∀ fuel, s.length < fuel → insert (setCfg comp) fuel x v (arm st (some n)) = .throw ex st') →
    ∃ F st'', ∀ fuel, F ≤ fuel → dtor fuel x st' = .ok () st''

/-- **C79 (part that holds).** If the allocation in `insert` fails, nothing has changed. Missing: if the
copy of the element throws, the tree already contains a pointer to the unconstructed node. -/
theorem C79_set_insert_throw_partial (hc : StrictWeak comp) (h : Reach (setCfg comp) st its e) {x : Nat}
    {s : Seq K} (hx : e.sets x = some s) (v : K) (hno : ∀ w ∈ s.map Prod.snd, equivKeys comp w v = false)
    {fuel : Nat} (hf : s.length < fuel) :
    insert (setCfg comp) fuel x v (arm st (some 0)) = .throw .badAlloc st :=
  insert_badAlloc (setCfg_lawful hc) h hx v hno hf

/-- **C79 (violation).** If the copy of the element throws in an insertion into an empty set, destroying or
clearing the set is undefined. -/
theorem C79_set_insert_throw_ub (hc : StrictWeak comp) (h : Reach (setCfg comp) st its e) {x : Nat}
    (hx : e.sets x = some []) (v : K) :
    ∃ st', (∀ fuel, insert (setCfg comp) (fuel + 1) x v (arm st (some 1)) = .throw .elem st') ∧
      ∀ fuel, dtor (fuel + 1) x st' = .ub .deadRead ∧ clear (fuel + 1) x st' = .ub .deadRead :=
  insert_elem_throw (setCfg_lawful hc) h hx v

/-- **C79 (violation).** If the copy of the first element throws in the copy constructor, its own unwinding
is undefined. -/
theorem C79_set_copy_throw_ub (hc : StrictWeak comp) (h : Reach (setCfg comp) st its e) {x y : Nat} {s : Seq K}
    (hx : e.sets x = none) (hy : e.sets y = some s) (hne : s ≠ []) {fuel : Nat} (hf : 1 < fuel) :
    copyCtor (setCfg comp) fuel x y (arm st (some 1)) = .ub .deadRead :=
  copyCtor_elem_throw (setCfg_lawful hc) h hx hy hne hf

theorem C79_set_insert_throw_refuted : ¬ C79_full_statement := by
  intro hall
  obtain ⟨st, its, hr⟩ := Reach.of_spec (setCfg_lawful natLt_weak) (ops := [.new 0]) rfl
  obtain ⟨st', h1, h2⟩ := C79_set_insert_throw_ub natLt_weak hr (x := 0) rfl 5
  obtain ⟨F, st'', h3⟩ := hall natLt st st' its _ 0 1 [] 5 .elem natLt_weak hr rfl
    (fun fuel hf => by obtain ⟨f, rfl⟩ : ∃ f, fuel = f + 1 := ⟨fuel - 1, by simp at hf; omega⟩; exact h1 f)
  have := h3 (F + 1) (by omega)
  rw [(h2 F).1] at this; cases this

end Cest.Tree
