import Verif.Tree.SetProps
/-
Properties C35–C38 and C80 of cest::map.
-/
namespace Cest.Tree
open Cest
variable {K T : Type} {comp eq : K → K → Bool} {st : TSt (K × T)} {its : Its} {e : Env (K × T)}

/-- What the model of `map` needs of the key's `==` (used by the iterators): reflexive, and equal keys are
equivalent for the comparator. -/
structure GoodEq (comp eq : K → K → Bool) : Prop where
  refl : ∀ k, eq k k = true
  equiv : ∀ k k', eq k k' = true → equivKeys comp k k' = true

theorem map_lawful (hc : StrictWeak comp) (he : GoodEq comp eq) : (mapCfg (T := T) comp eq).Lawful :=
  mapCfg_lawful hc he.refl he.equiv

theorem natEq_good : GoodEq natLt (fun a b => a == b) := by
  constructor
  · simp
  · intro k k' h; simp at h; subst h; simp [equivKeys, natLt]

/-! Insertion and lookup do not use the key's `==`. -/

theorem ins_mapCfg (x : Nat) (v : K × T) (eq₁ : K → K → Bool) : ∀ f n p,
    ins (mapCfg comp eq₁) x v f n p = ins ⟨Prod.fst, comp, none⟩ x v f n p := by
  intro f
  induction f with
  | zero => intro n p; rfl
  | succ f ih =>
    intro n p
    simp only [ins, ih]
    rfl

theorem insert_mapCfg (fuel x : Nat) (v : K × T) :
    insert (mapCfg comp eq) fuel x v = insert ⟨Prod.fst, comp, none⟩ fuel x v := by
  simp only [insert, ins_mapCfg]

theorem find_mapCfg (fuel x : Nat) (k : K) :
    find (V := K × T) (mapCfg comp eq) fuel x k = find ⟨Prod.fst, comp, none⟩ fuel x k := by
  have : ∀ f p, findLoop (V := K × T) (mapCfg comp eq) k f p = findLoop ⟨Prod.fst, comp, none⟩ k f p := by
    intro f
    induction f with
    | zero => intro p; rfl
    | succ f ih =>
      intro p
      cases p with
      | none => rfl
      | some a => simp only [findLoop, ih]; rfl
  simp only [find, this]

theorem runOps_mapCfg (fuel : Nat) (its : Its) (vs : List (K × T)) :
    runOps (mapCfg comp eq) fuel its (.new 0 :: vs.map (fun v => Op.insert 0 v 0)) =
      runOps ⟨Prod.fst, comp, none⟩ fuel its (.new 0 :: vs.map (fun v => Op.insert 0 v 0)) := by
  have : ∀ (vs : List (K × T)) its, runOps (mapCfg comp eq) fuel its (vs.map (fun v => Op.insert 0 v 0)) =
      runOps ⟨Prod.fst, comp, none⟩ fuel its (vs.map (fun v => Op.insert 0 v 0)) := by
    intro vs
    induction vs with
    | nil => intro its; rfl
    | cons v vs ih => intro its; simp only [List.map_cons, runOps, runOp, insert_mapCfg, ih]
  simp only [runOps, runOp, this]

/-! ### C35 -/

/-- **C35 (first insertion wins).** After inserting any pairs, `insert` has reported for each pair whether no
pair with an equivalent key came earlier, `size()` is the number of distinct keys, and `find(k)` gives the
first inserted pair whose key is equivalent to `k`, or `end()`. -/
theorem C35_map_inserts [DecidableEq K] (hc : StrictWeak comp) (vs : List (K × T)) :
    ∃ F st its, ∀ fuel, F ≤ fuel →
      runOps (mapCfg comp eq) fuel (fun _ => none) (.new 0 :: vs.map (fun v => Op.insert 0 v 0)) St.init =
        .ok (its, .unit :: (addedFlags (fun v w => equivKeys comp v.1 w.1) [] vs).map Out.bool) st ∧
      size 0 st = .ok (firsts (fun v w => equivKeys comp v.1 w.1) vs).length st ∧
      ∀ k, ∃ p, find (mapCfg comp eq) fuel 0 k st = .ok p st ∧
        match vs.find? (fun v => equivKeys comp v.1 k) with
        | some v => getX p st = .ok v st
        | none => end_ 0 st = .ok p st := by
  have hg : Cfg.Lawful (⟨Prod.fst, comp, none⟩ : Cfg (K × T) K) := by
    refine ⟨hc.irrefl, hc.trans, ?_, by simp, by simp⟩
    intro a b c h1 h2
    simp only [Cfg.equiv, Bool.and_eq_true, Bool.not_eq_true'] at *
    exact hc.incompTrans a b c h1 h2
  obtain ⟨F, st, its, h⟩ := inserts hg vs
  refine ⟨F, st, its, fun fuel hf => ?_⟩
  simp only [runOps_mapCfg, find_mapCfg]
  obtain ⟨h1, h2, h3⟩ := h fuel hf
  refine ⟨h1, h2, fun k => ?_⟩
  obtain ⟨p, h4, h5⟩ := h3 k
  refine ⟨p, h4, ?_⟩
  simp only [Cfg.equiv] at h5
  simp only [equivKeys]
  generalize List.find? (fun v : K × T => !comp v.1 k && !comp k v.1) vs = r at h5 ⊢
  cases r <;> exact h5

example : firsts (fun v w => equivKeys natLt v.1 w.1) [(3, 'a'), (1, 'b'), (3, 'c'), (2, 'd')] =
    [(3, 'a'), (1, 'b'), (2, 'd')] ∧
    [(3, 'a'), (1, 'b'), (3, 'c'), (2, 'd')].find? (fun v => equivKeys natLt v.1 3) = some (3, 'a') := by decide

section
variable [DecidableEq K]

/-- **C35 (any history).** Every program over any number of maps and iterators (including writes to mapped
values through iterators) that respects the preconditions runs without undefined behaviour, exceptions or
divergence, and its observations are those of finite ordered maps. -/
theorem C35_map_history (hc : StrictWeak comp) (he : GoodEq comp eq) {ops : List (Op (K × T) K)}
    {outs : List (Out (K × T))} (h : specRun (mapCfg comp eq) Env.none ops = some (e, outs)) :
    ∃ F st its, ∀ fuel, F ≤ fuel →
      runOps (mapCfg comp eq) fuel (fun _ => none) ops St.init = .ok (its, outs) st := by
  obtain ⟨F, st, its, h3, _⟩ := run_refines (map_lawful hc he) (agree_init _) h
  exact ⟨F, st, its, h3⟩

/-- Inserting, looking up, writing through the iterator, copying. -/
example : (specRun (mapCfg (T := Char) natLt (fun a b => a == b)) Env.none
    [.new 0, .insert 0 (3, 'a') 0, .insert 0 (1, 'b') 1, .insert 0 (3, 'c') 2, .deref 0 2, .newCopy 1 0,
     .write 0 2 (3, 'z'), .insert 0 (2, 'q') 3, .find 0 3 4, .deref 0 4, .toList 0, .toList 1, .find 1 7 5,
     .end_ 1 6, .itEq 5 6, .inc 0 1, .deref 0 1]).map Prod.snd =
    some [.unit, .bool true, .bool true, .bool false, .val (3, 'a'), .unit, .unit, .bool true, .unit,
      .val (3, 'z'), .vals [(1, 'b'), (2, 'q'), (3, 'z')], .vals [(1, 'b'), (3, 'a')], .unit, .unit,
      .bool true, .unit, .val (2, 'q')] := rfl

/-- **C35 (insert, in every reachable state).** -/
theorem C35_map_insert (hc : StrictWeak comp) (he : GoodEq comp eq) (h : Reach (mapCfg comp eq) st its e)
    {x : Nat} {s : Seq (K × T)} (hx : e.sets x = some s) (v : K × T) :
    ∃ p b st', (∀ fuel, s.length < fuel → insert (mapCfg comp eq) fuel x v st = .ok (p, b) st') ∧
      (b = true ↔ ∀ w ∈ s.map Prod.snd, equivKeys comp w.1 v.1 = false) ∧
      (∃ w, getX p st' = .ok w st' ∧ equivKeys comp w.1 v.1 = true ∧
        (b = true → w = v) ∧ (b = false → w ∈ s.map Prod.snd)) ∧
      (∃ s' : List (K × T), s'.Perm (if b then v :: s.map Prod.snd else s.map Prod.snd) ∧
        s'.Pairwise (fun v w => comp v.1 w.1 = true) ∧
        ∀ fuel, s.length + 1 < fuel →
          toList (mapCfg comp eq) fuel x st' = .ok s' st' ∧ size x st' = .ok s'.length st') ∧
      (∀ y t, y ≠ x → e.sets y = some t → ∀ fuel, t.length < fuel →
        toList (mapCfg comp eq) fuel y st' = .ok (t.map Prod.snd) st') := by
  obtain ⟨p, b, st', h1, h2, h3, h4, _, h6⟩ := insert_any (map_lawful hc he) h hx v
  exact ⟨p, b, st', h1, h2, h3, h4, h6⟩

/-- **C35 (find, in every reachable state).** -/
theorem C35_map_find (hc : StrictWeak comp) (he : GoodEq comp eq) (h : Reach (mapCfg comp eq) st its e)
    {x : Nat} {s : Seq (K × T)} (hx : e.sets x = some s) (k : K) {fuel : Nat} (hf : s.length < fuel) :
    ∃ p, find (mapCfg comp eq) fuel x k st = .ok p st ∧
      ((∃ v ∈ s.map Prod.snd, equivKeys comp v.1 k = true ∧ getX p st = .ok v st) ∨
       ((∀ v ∈ s.map Prod.snd, equivKeys comp v.1 k = false) ∧ end_ x st = .ok p st)) :=
  find_any (map_lawful hc he) h hx k hf

/-! ### C36 -/

/-- The full claim of C36: for every comparator and every `==` of keys, iterating over a map that was filled
by insertions visits as many pairs as the map has. -/
def C36_full_statement : Prop :=
  ∀ (comp eq : Nat → Nat → Bool) (vs : List (Nat × Nat)), StrictWeak comp →
    ∃ F st its outs r, r.length = (firsts (fun v w => equivKeys comp v.1 w.1) vs).length ∧ ∀ fuel, F ≤ fuel →
      runOps (mapCfg comp eq) fuel (fun _ => none) (.new 0 :: vs.map (fun v => Op.insert 0 v 0)) St.init =
        .ok (its, outs) st ∧ toList (mapCfg comp eq) fuel 0 st = .ok r st

/-- **C36 (part that holds).** If the key's `==` is reflexive and equal keys are equivalent, then from
`begin()`, `++` visits every pair exactly once in strictly increasing key order and reaches `end()` after
`size()` steps. Missing: other `==` (next theorem). -/
theorem C36_map_iteration_partial (hc : StrictWeak comp) (he : GoodEq comp eq)
    (h : Reach (mapCfg comp eq) st its e) {x : Nat} {s : Seq (K × T)} (hx : e.sets x = some s) {fuel : Nat}
    (hf : s.length < fuel) :
    toList (mapCfg comp eq) fuel x st = .ok (s.map Prod.snd) st ∧ size x st = .ok s.length st ∧
    (s.map Prod.snd).Pairwise (fun v w => comp v.1 w.1 = true) ∧
    ∃ b, begin_ x st = .ok b st ∧ end_ x st = .ok none st ∧
      incN (mapCfg comp eq) fuel s.length b st = .ok none st ∧
      ∀ k (hk : k < s.length), ∃ a, incN (mapCfg comp eq) fuel k b st = .ok (some a) st ∧
        getX (some a) st = .ok s[k].2 st :=
  iteration (map_lawful hc he) h hx hf

/-- States of the witness for C36: a map with keys 2, 1, 3 and an `==` that is always true. -/
def badMap0 : TSt (Nat × Nat) := ⟨upd (fun _ => none) 0 (some ⟨none, none, 0⟩), fun _ => none, 0, none⟩
@[inherit_doc badMap0]
def badMap1 : TSt (Nat × Nat) := ⟨upd (fun _ => none) 0 (some ⟨some 0, some 0, 1⟩),
  upd (fun _ => none) 0 (some (some ⟨(2, 0), none, none, none, .black⟩)), 1, none⟩
@[inherit_doc badMap0]
def badMap2 : TSt (Nat × Nat) := ⟨upd (fun _ => none) 0 (some ⟨some 0, some 1, 2⟩),
  upd (upd (fun _ => none) 0 (some (some ⟨(2, 0), some 1, none, none, .black⟩))) 1
    (some (some ⟨(1, 0), none, none, some 0, .red⟩)), 2, none⟩
@[inherit_doc badMap0]
def badMap3 : TSt (Nat × Nat) := ⟨upd (fun _ => none) 0 (some ⟨some 0, some 1, 3⟩),
  upd (upd (upd (fun _ => none) 0 (some (some ⟨(2, 0), some 1, some 2, none, .black⟩))) 1
    (some (some ⟨(1, 0), none, none, some 0, .red⟩))) 2 (some (some ⟨(3, 0), none, none, some 0, .red⟩)), 3, none⟩

theorem badMap_ctor : ctor 0 (St.init : TSt (Nat × Nat)) = .ok () badMap0 := rfl
theorem badMap_leaf1 {f : Nat} : ins (mapCfg natLt (fun _ _ => true)) 0 (2, 0) (f + 1) (.root 0) none badMap0 =
    .ok (some 0, true) ⟨badMap1.objs, upd (fun _ => none) 0 (some (some ⟨(2, 0), none, none, none, .red⟩)), 1, none⟩ := by
  simp [ins, getRef, setRef, allocNode, allocC, tick, constructNode, badMap0, badMap1, upd_upd]
theorem badMap_ins1 {f : Nat} : insert (mapCfg natLt (fun _ _ => true)) (f + 5) 0 (2, 0) badMap0 =
    .ok (some 0, true) badMap1 := by
  rw [insert]
  simp only [M.bind_apply, badMap_leaf1]
  simp [getRef, setBlack, getN, badMap1, upd_upd]
theorem badMap_leaf2 {f : Nat} : ins (mapCfg natLt (fun _ _ => true)) 0 (1, 0) (f + 1) (.left 0) (some 0) badMap1 =
    .ok (some 1, true) badMap2 := by
  simp [ins, getRef, setRef, allocNode, allocC, tick, constructNode, getN, getX, mapCfg, Cfg.lt, natLt, badMap1,
    badMap2]
  refine ⟨?_, ?_⟩ <;> (funext q; simp; try grind)
theorem badMap_rb2 : rebalance (.root 0) badMap2 = .ok () badMap2 := by
  simp [rebalance, redRed, isRed, getL, getR, getRef, getN, badMap2]
theorem badMap_black2 : setBlack (some 0) badMap2 = .ok () badMap2 := by
  simp [setBlack, getN, badMap2]
  funext q; simp; grind
theorem badMap_ins2 {f : Nat} : insert (mapCfg natLt (fun _ _ => true)) (f + 5) 0 (1, 0) badMap1 =
    .ok (some 1, true) badMap2 := by
  have e1 : getRef (.root 0) badMap1 = .ok (some 0) badMap1 := rfl
  have e2 : getX (some 0) badMap1 = .ok (2, 0) badMap1 := rfl
  have e3 : getRef (.root 0) badMap2 = .ok (some 0) badMap2 := rfl
  have e4 : (mapCfg (T := Nat) natLt (fun _ _ => true)).lt (1, 0) (2, 0) = true := rfl
  rw [insert, ins]
  simp only [M.bind_apply, e1, e2, e3, e4, if_true, badMap_leaf2, badMap_rb2, badMap_black2, M.pure_apply]
theorem badMap_leaf3 {f : Nat} : ins (mapCfg natLt (fun _ _ => true)) 0 (3, 0) (f + 1) (.right 0) (some 0) badMap2 =
    .ok (some 2, true) badMap3 := by
  simp [ins, getRef, setRef, allocNode, allocC, tick, constructNode, getN, getX, mapCfg, Cfg.lt, natLt, badMap2,
    badMap3]
  refine ⟨?_, ?_⟩ <;> (funext q; simp; try grind)
theorem badMap_rb3 : rebalance (.root 0) badMap3 = .ok () badMap3 := by
  simp [rebalance, redRed, isRed, getL, getR, getRef, getN, badMap3]
theorem badMap_black3 : setBlack (some 0) badMap3 = .ok () badMap3 := by
  simp [setBlack, getN, badMap3]
  funext q; simp; grind
theorem badMap_ins3 {f : Nat} : insert (mapCfg natLt (fun _ _ => true)) (f + 5) 0 (3, 0) badMap2 =
    .ok (some 2, true) badMap3 := by
  have e1 : getRef (.root 0) badMap2 = .ok (some 0) badMap2 := rfl
  have e2 : getX (some 0) badMap2 = .ok (2, 0) badMap2 := rfl
  have e3 : getRef (.root 0) badMap3 = .ok (some 0) badMap3 := rfl
  have e4 : (mapCfg (T := Nat) natLt (fun _ _ => true)).lt (3, 0) (2, 0) = false := rfl
  have e5 : (mapCfg (T := Nat) natLt (fun _ _ => true)).lt (2, 0) (3, 0) = true := rfl
  rw [insert, ins]
  simp only [M.bind_apply, e1, e2, e3, e4, e5, if_true, if_false, Bool.false_eq_true, badMap_leaf3, badMap_rb3,
    badMap_black3, M.pure_apply]
theorem badMap_iter {f : Nat} : toList (mapCfg natLt (fun _ _ => true)) (f + 5) 0 badMap3 =
    .ok [(1, 0)] badMap3 := by
  simp [toList, toListLoop, begin_, getX, getN, inc, climb, sameChild, mapCfg, badMap3]

/-- **C36 (violation).** `++` compares keys with `==` where it should compare nodes: with an `==` that is
coarser than the comparator the iteration over {1, 2, 3} stops after the first pair. -/
theorem C36_map_iteration_refuted : ¬ C36_full_statement := by
  intro hall
  obtain ⟨F, st, its, outs, r, hr, h⟩ := hall natLt (fun _ _ => true) [(2, 0), (1, 0), (3, 0)] natLt_weak
  obtain ⟨h1, h2⟩ := h (F + 5) (by omega)
  have hlen : (firsts (fun v w : Nat × Nat => equivKeys natLt v.1 w.1) [(2, 0), (1, 0), (3, 0)]).length = 3 := by
    decide
  rw [hlen] at hr
  simp only [List.map_cons, List.map_nil, runOps, runOp, M.bind_apply, badMap_ctor, badMap_ins1, badMap_ins2,
    badMap_ins3, M.pure_apply] at h1
  have hst : st = badMap3 := by injection h1 with _ h; exact h.symm
  rw [hst, badMap_iter] at h2
  injection h2 with h2 _
  rw [← h2] at hr
  cases hr

/-! ### C37 -/

/-- **C37 (balance).** In every reachable state the nodes in memory form a red-black tree of height at most
`2 * log2 (size + 1)`, and `find` and `insert` need no more iterations (two comparisons each) plus one. -/
theorem C37_map_balanced (hc : StrictWeak comp) (he : GoodEq comp eq) (h : Reach (mapCfg comp eq) st its e)
    {x : Nat} {s : Seq (K × T)} (hx : e.sets x = some s) :
    (∃ o bh ht, st.objs x = some o ∧ RBMem st.mem o.root none .black bh ht ∧
      ht ≤ 2 * Nat.log2 (s.length + 1)) ∧
    ∀ fuel, 2 * Nat.log2 (s.length + 1) < fuel →
      (∀ k, ∃ p, find (mapCfg comp eq) fuel x k st = .ok p st) ∧
      (∀ v, ∃ r st', insert (mapCfg comp eq) fuel x v st = .ok r st') :=
  balanced (map_lawful hc he) h hx

/-- **C37 (references).** Insertion leaves every pair of every map at its address with its value. -/
theorem C37_map_insert_stable (hc : StrictWeak comp) (he : GoodEq comp eq) (h : Reach (mapCfg comp eq) st its e)
    {x : Nat} {s : Seq (K × T)} (hx : e.sets x = some s) (v : K × T) :
    ∃ r st', (∀ fuel, s.length < fuel → insert (mapCfg comp eq) fuel x v st = .ok r st') ∧
      ∀ y t a w, e.sets y = some t → (a, w) ∈ t →
        getX (some a) st = .ok w st ∧ getX (some a) st' = .ok w st' := by
  obtain ⟨p, b, st', h1, _, _, _, h5, _⟩ := insert_any (map_lawful hc he) h hx v
  exact ⟨(p, b), st', h1, h5⟩

/-- C35–C37 apply to a map filled in decreasing order. -/
example : ∃ (st : TSt (Nat × Char)) (its : Its) (e : Env (Nat × Char)),
    Reach (mapCfg natLt (fun a b => a == b)) st its e ∧
    e.sets 0 = some [(4, 1, 'e'), (3, 2, 'd'), (2, 3, 'c'), (1, 4, 'b'), (0, 5, 'a')] := by
  obtain ⟨st, its, h⟩ := Reach.of_spec (map_lawful natLt_weak natEq_good) (ops := [.new 0, .insert 0 (5, 'a') 0,
    .insert 0 (4, 'b') 0, .insert 0 (3, 'c') 0, .insert 0 (2, 'd') 0, .insert 0 (1, 'e') 0]) rfl
  exact ⟨st, its, _, h, rfl⟩

/-! ### C38 -/

/-- **C38 (no leak).** Once every map is destroyed nothing is allocated. -/
theorem C38_map_no_leak (hc : StrictWeak comp) (he : GoodEq comp eq) (h : Reach (mapCfg comp eq) st its e)
    (hd : ∀ x, e.sets x = none) : ∀ a, st.mem a = none :=
  (h.agree (map_lawful hc he)).world.empty_mem hd

/-- **C38 (exact ownership).** Every allocated node is constructed, and is exactly one pair of exactly one
map. -/
theorem C38_map_storage (hc : StrictWeak comp) (he : GoodEq comp eq) (h : Reach (mapCfg comp eq) st its e)
    {a : Nat} {c : Cell (K × T)} (ha : st.mem a = some c) :
    ∃ n x l r, c = some n ∧ e.sets x = some (l ++ (a, n.x) :: r) ∧ a ∉ l.map Prod.fst ∧
      a ∉ r.map Prod.fst ∧ ∀ y s, e.sets y = some s → a ∈ s.map Prod.fst → y = x :=
  storage (map_lawful hc he) h ha

/-- **C38 (copies).** The target of a copy construction or (non-self) assignment holds the source's pairs,
and whatever program runs afterwards, the one of the two that it does not modify keeps them. -/
theorem C38_map_copy_independent (hc : StrictWeak comp) (he : GoodEq comp eq)
    (h : Reach (mapCfg comp eq) st its e) {x y : Nat} {t : Seq (K × T)} (hxy : x ≠ y)
    (hy : e.sets y = some t) {op : Op (K × T) K} (hop : op = .newCopy x y ∨ op = .assign x y)
    {ops : List (Op (K × T) K)} {e' : Env (K × T)} {outs : List (Out (K × T))}
    (hs : specRun (mapCfg comp eq) e (op :: ops) = some (e', outs)) {z : Nat} (hz : z = x ∨ z = y)
    (hnm : ∀ op ∈ ops, z ∉ op.mutates) :
    ∃ F st' its', ∀ fuel, F ≤ fuel → runOps (mapCfg comp eq) fuel its (op :: ops) st = .ok (its', outs) st' ∧
      toList (mapCfg comp eq) fuel z st' = .ok (t.map Prod.snd) st' :=
  copy_independent (map_lawful hc he) h hxy hy hop hs hz hnm

/-- The copy is written to and destroyed; the source keeps its pairs. -/
example : ∃ (F : Nat) (st st' : TSt (Nat × Nat)) (its its' : Its) (outs : List (Out (Nat × Nat))),
    ∀ fuel, F ≤ fuel →
    runOps (mapCfg natLt (fun a b => a == b)) fuel its
      [.newCopy 1 0, .begin_ 1 0, .write 1 0 (5, 9), .destroy 1] st = .ok (its', outs) st' ∧
    toList (mapCfg natLt (fun a b => a == b)) fuel 0 st' = .ok [(5, 2), (6, 1)] st' := by
  obtain ⟨st, its, hr⟩ := Reach.of_spec (map_lawful natLt_weak natEq_good)
    (ops := [.new 0, .insert 0 (6, 1) 0, .insert 0 (5, 2) 0]) rfl
  obtain ⟨F, st', its', h⟩ := C38_map_copy_independent natLt_weak natEq_good hr (x := 1) (y := 0)
    (t := [(1, 5, 2), (0, 6, 1)]) (by decide) rfl (op := .newCopy 1 0) (Or.inl rfl)
    (ops := [.begin_ 1 0, .write 1 0 (5, 9), .destroy 1]) rfl (z := 0) (Or.inr rfl) (by simp [Op.mutates])
  exact ⟨F, st, st', its, its', _, h⟩

/-! ### C80 -/

/-- The full claim of C80 (assignment): it makes the target equal to the source, also for `x = x`. -/
def C80_full_statement : Prop :=
  ∀ (st : TSt (Nat × Nat)) (its : Its) (e : Env (Nat × Nat)) (x y : Nat) (s t : Seq (Nat × Nat)),
    Reach (mapCfg natLt (fun a b => a == b)) st its e → e.sets x = some s → e.sets y = some t →
    ∃ F st', ∀ fuel, F ≤ fuel → assign (mapCfg natLt (fun a b => a == b)) fuel x y st = .ok () st' ∧
      toList (mapCfg natLt (fun a b => a == b)) fuel x st' = .ok (t.map Prod.snd) st'

/-- **C80 (part that holds).** Assignment between different maps; a failed allocation in `insert` changes
nothing. Missing: self-assignment and exceptions from copying a pair (next theorems). -/
theorem C80_map_assign_partial (hc : StrictWeak comp) (he : GoodEq comp eq) (h : Reach (mapCfg comp eq) st its e)
    {x y : Nat} {s t : Seq (K × T)} (hxy : x ≠ y) (hx : e.sets x = some s) (hy : e.sets y = some t) :
    (∃ F st', ∀ fuel, F ≤ fuel → assign (mapCfg comp eq) fuel x y st = .ok () st' ∧
      toList (mapCfg comp eq) fuel x st' = .ok (t.map Prod.snd) st' ∧
      toList (mapCfg comp eq) fuel y st' = .ok (t.map Prod.snd) st') ∧
    ∀ v fuel, (∀ w ∈ s.map Prod.snd, equivKeys comp w.1 v.1 = false) → s.length < fuel →
      insert (mapCfg comp eq) fuel x v (arm st (some 0)) = .throw .badAlloc st :=
  ⟨assign_other (map_lawful hc he) h hxy hx hy,
    fun v _ hno hf => insert_badAlloc (map_lawful hc he) h hx v hno hf⟩

/-- **C80 (violation).** Self-assignment empties the map. -/
theorem C80_map_self_assign (hc : StrictWeak comp) (he : GoodEq comp eq) (h : Reach (mapCfg comp eq) st its e)
    {x : Nat} {s : Seq (K × T)} (hx : e.sets x = some s) :
    ∃ st', ∀ fuel, s.length < fuel → assign (mapCfg comp eq) fuel x x st = .ok () st' ∧
      toList (mapCfg comp eq) fuel x st' = .ok [] st' :=
  self_assign (map_lawful hc he) h hx

theorem C80_map_assign_refuted : ¬ C80_full_statement := by
  intro hall
  obtain ⟨st, its, hr⟩ := Reach.of_spec (map_lawful natLt_weak natEq_good)
    (ops := [.new 0, .insert 0 (5, 7) 0]) rfl
  obtain ⟨F, st1, h1⟩ := hall st its _ 0 0 [(0, 5, 7)] [(0, 5, 7)] hr rfl rfl
  obtain ⟨st2, h2⟩ := C80_map_self_assign natLt_weak natEq_good hr (x := 0) (s := [(0, 5, 7)]) rfl
  obtain ⟨a1, a2⟩ := h1 (F + 2) (by omega)
  obtain ⟨b1, b2⟩ := h2 (F + 2) (by simp)
  rw [b1] at a1; cases a1
  rw [b2] at a2; cases a2

/-- **C80 (violation).** If copying the pair throws in an insertion into an empty map, destroying or clearing
it is undefined; likewise if copying the first pair throws in the copy constructor. -/
theorem C80_map_throw_ub (hc : StrictWeak comp) (he : GoodEq comp eq) (h : Reach (mapCfg comp eq) st its e) :
    (∀ x v, e.sets x = some [] →
      ∃ st', (∀ fuel, insert (mapCfg comp eq) (fuel + 1) x v (arm st (some 1)) = .throw .elem st') ∧
        ∀ fuel, dtor (fuel + 1) x st' = .ub .deadRead ∧ clear (fuel + 1) x st' = .ub .deadRead) ∧
    ∀ x y s fuel, e.sets x = none → e.sets y = some s → s ≠ [] → 1 < fuel →
      copyCtor (mapCfg comp eq) fuel x y (arm st (some 1)) = .ub .deadRead :=
  ⟨fun _ v hx => insert_elem_throw (map_lawful hc he) h hx v,
    fun _ _ _ _ hx hy hne hf => copyCtor_elem_throw (map_lawful hc he) h hx hy hne hf⟩

end
end Cest.Tree
