import Verif.Tree.MapProps
/-
Property C137 for cest::set and cest::map: inserting an element that is given by reference and may be in the
container itself.
-/
namespace Cest.Tree
open Cest
variable {V K : Type}

/-! ### Model -/

/-- `std::construct_at(a, value, nullptr, nullptr, p, RED)` (set.hpp:93-94, map.hpp:153-154) with `value` a reference
to the element of node `src`, read for the copy into the parameter. -/
def constructFrom (a src : Nat) (p : Option Nat) : TM V Unit := do
  let c ← getC a
  match c with
  | some _ => M.ub .liveConstruct
  | none => do
    tick .elem
    let v ← getX (some src)
    tick .elem
    setC a (some ⟨v, none, none, p, .red⟩)

/-- set.hpp:217-254, map.hpp:281-318: the lambda `ins`, where the captured `value` is a reference to the element of
node `src` and is read again at every use. -/
def insRef (g : Cfg V K) (x src : Nat) : Nat → Ref → Option Nat → TM V (Option Nat × Bool)
  | 0, _, _ => M.timeout
  | f+1, n, p => do
    match (← getRef n) with
    | none => do
      let a ← allocNode
      setRef n (some a)
      constructFrom a src p
      let o ← getObj x
      let first ← match o.begin_ with
        | none => pure true
        | some b => do let v ← getX (some src); let w ← getX (some b); pure (g.lt v w)
      let q ← getRef n
      setObj x { o with begin_ := if first then q else o.begin_ }
      let o ← getObj x
      setObj x { o with size := o.size + 1 }
      pure (some a, true)
    | some a => do
      let v ← getX (some src)
      let w ← getX (some a)
      if g.lt v w then
        let r ← insRef g x src f (.left a) (some a)
        rebalance n
        pure r
      else do
        let v ← getX (some src)
        if g.lt w v then
          let r ← insRef g x src f (.right a) (some a)
          rebalance n
          pure r
        else pure (some a, false)

/-- set.hpp:213-260, map.hpp:277-323 `insert(value)`, `value` being the element of node `src`. -/
def insertRef (g : Cfg V K) (fuel x src : Nat) : TM V (Option Nat × Bool) := do
  let r ← insRef g x src fuel (.root x) none
  let root ← getRef (.root x)
  setBlack root
  pure r

/-! ### Proofs -/

/-- Node `a` holds the element `v`. -/
def Holds (a : Nat) (v : V) (st : TSt V) : Prop := ∃ n, st.mem a = some (some n) ∧ n.x = v

theorem bind_congr {S α β : Type} {m m' : M S α} {f f' : α → M S β} {st : S} (h : m st = m' st)
    (hf : ∀ a s, m st = .ok a s → f a s = f' a s) : (m >>= f) st = (m' >>= f') st := by
  rw [M.bind_apply, M.bind_apply, ← h]
  cases hm : m st with
  | ok a s => exact hf a s hm
  | throw _ _ => rfl
  | ub _ => rfl
  | timeout => rfl

theorem Holds.getX {a : Nat} {v : V} {st : TSt V} (h : Holds a v st) : getX (some a) st = .ok v st := by
  obtain ⟨n, h1, h2⟩ := h
  simp [Tree.getX, h1, h2]

theorem getN_same {a : Nat} {n : Node V} {st s : TSt V} (h : getN a st = .ok n s) :
    s = st ∧ st.mem a = some (some n) := by
  cases hm : st.mem a with
  | none => simp [getN, getC, hm] at h
  | some c => cases c <;> simp_all [getN, getC]

theorem getRef_same {n : Ref} {q : Option Nat} {st s : TSt V} (h : getRef n st = .ok q s) : s = st := by
  cases n with
  | root x => cases ho : st.objs x <;> simp_all [getRef, getObj]
  | left a | right a | par a =>
    simp only [getRef, M.bind_apply] at h
    cases hn : getN a st <;> simp [hn] at h
    have := (getN_same hn).1
    simp_all

theorem setRef_holds {n : Ref} {q : Option Nat} {st s : TSt V} {a : Nat} {v : V} (H : Holds a v st)
    (h : setRef n q st = .ok () s) : Holds a v s ∧ s.next = st.next := by
  obtain ⟨m, h1, h2⟩ := H
  cases n with
  | root x =>
    cases ho : st.objs x <;> simp [setRef, getObj, ho] at h
    subst h
    exact ⟨⟨m, h1, h2⟩, rfl⟩
  | left b | right b | par b =>
    simp only [setRef, M.bind_apply] at h
    cases hn : getN b st <;> simp [hn] at h
    obtain ⟨rfl, hb⟩ := getN_same hn
    simp [hb] at h
    subst h
    refine ⟨?_, rfl⟩
    by_cases e : a = b
    · subst e; rw [h1] at hb; cases hb
      exact ⟨_, upd_same _ _ _, h2⟩
    · exact ⟨m, by simp [e, h1], h2⟩

theorem tick_holds {e : Exc} {st s : TSt V} {a : Nat} {v : V} (H : Holds a v st) (h : tick e st = .ok () s) :
    Holds a v s := by
  cases ht : st.thr with
  | none => simp [tick, ht] at h; subst h; exact H
  | some k => cases k <;> simp [tick, ht] at h; subst h; exact H

theorem alloc_holds {st s : TSt V} {a b : Nat} {v : V} (H : Holds a v st) (hn : a ≠ st.next)
    (h : (allocNode : TM V Nat) st = .ok b s) : Holds a v s ∧ a ≠ b := by
  obtain ⟨m, h1, h2⟩ := H
  simp only [allocNode, allocC] at h
  cases ht : st.thr with
  | none =>
    simp [tick, ht] at h
    obtain ⟨rfl, rfl⟩ := h
    exact ⟨⟨m, by simp [hn, h1], h2⟩, hn⟩
  | some k =>
    cases k <;> simp [tick, ht] at h
    obtain ⟨rfl, rfl⟩ := h
    exact ⟨⟨m, by simp [hn, h1], h2⟩, hn⟩

theorem constructFrom_eq {st : TSt V} {a src : Nat} {v : V} {p : Option Nat} (H : Holds src v st) :
    constructFrom a src p st = constructNode a v p st := by
  refine bind_congr rfl fun c s hc => ?_
  have hs : s = st := by cases hm : st.mem a <;> simp_all [getC]
  subst hs
  cases c with
  | some _ => rfl
  | none =>
    refine bind_congr rfl fun _ s1 h1 => ?_
    rw [M.bind_of_ok (tick_holds H h1).getX]

theorem construct_holds {st s : TSt V} {a src : Nat} {v w : V} {p : Option Nat} (H : Holds src v st) (hne : src ≠ a)
    (h : constructNode a w p st = .ok () s) : Holds src v s := by
  have key : ∀ {m : TM V Unit} {s0 s1 : TSt V}, (do tick .elem; m : TM V Unit) s0 = .ok () s1 → Holds src v s0 →
      (∀ s2, Holds src v s2 → m s2 = .ok () s1 → Holds src v s1) → Holds src v s1 := by
    intro m s0 s1 h0 H0 hm
    rw [M.bind_apply] at h0
    cases ht : (tick .elem : TM V Unit) s0 <;> simp [ht] at h0
    exact hm _ (tick_holds H0 ht) h0
  simp only [constructNode] at h
  rw [M.bind_apply] at h
  cases hm : st.mem a with
  | none => simp [getC, hm] at h
  | some c =>
    simp only [getC, hm] at h
    cases c with
    | some _ => cases h
    | none =>
      refine key h H fun s2 H2 h2 => key h2 H2 fun s3 H3 h3 => ?_
      obtain ⟨n, h4, h5⟩ := H3
      cases hm3 : s3.mem a with
      | none => simp [setC, hm3] at h3
      | some c3 =>
        simp [setC, hm3] at h3
        subst h3
        exact ⟨n, by simp [hne, h4], h5⟩

theorem insRef_eq {g : Cfg V K} {x src : Nat} {v : V} {f : Nat} {n : Ref} {p : Option Nat} {st : TSt V}
    (H : Holds src v st) (hn : src ≠ st.next) : insRef g x src f n p st = ins g x v f n p st := by
  induction f generalizing n p with
  | zero => rfl
  | succ f ih =>
    simp only [insRef, ins]
    refine bind_congr rfl fun q s hq => ?_
    obtain rfl := getRef_same hq
    cases q with
    | none =>
      refine bind_congr rfl fun a s1 h1 => ?_
      obtain ⟨H1, hne⟩ := alloc_holds H hn h1
      refine bind_congr rfl fun _ s2 h2 => ?_
      obtain ⟨H2, -⟩ := setRef_holds H1 h2
      refine bind_congr (constructFrom_eq H2) fun _ s3 h3 => ?_
      rw [constructFrom_eq H2] at h3
      have H3 := construct_holds H2 hne h3
      refine bind_congr rfl fun o s4 h4 => ?_
      have hs : s4 = s3 := by cases ho : s3.objs x <;> simp_all [getObj]
      subst hs
      cases o.begin_ with
      | none => rfl
      | some b => simp only []; rw [M.bind_of_ok H3.getX]
    | some a =>
      simp only []
      rw [M.bind_of_ok H.getX]
      refine bind_congr rfl fun w s1 h1 => ?_
      have hs : s1 = s := by
        simp only [getX, deref, M.bind_apply, M.pure_apply] at h1
        cases hg : getN a s <;> simp [hg] at h1
        rw [← h1.2]; exact (getN_same hg).1
      subst hs
      by_cases hl : g.lt v w = true
      · simp only [hl, if_true]
        exact bind_congr ih fun _ _ _ => rfl
      · rw [if_neg hl, if_neg hl, M.bind_of_ok H.getX]
        by_cases hr : g.lt w v = true
        · simp only [hr, if_true]
          exact bind_congr ih fun _ _ _ => rfl
        · rw [if_neg hr, if_neg hr]

theorem insertRef_eq {g : Cfg V K} {x src : Nat} {v : V} {fuel : Nat} {st : TSt V}
    (H : Holds src v st) (hn : src ≠ st.next) : insertRef g fuel x src st = insert g fuel x v st :=
  bind_congr (insRef_eq H hn) fun _ _ _ => rfl

theorem insertRef_any [DecidableEq K] {g : Cfg V K} (hg : g.Lawful) {st : TSt V} {its : Its} {e : Env V}
    (h : Reach g st its e) {x : Nat} {s : Seq V} (hx : e.sets x = some s) {y a : Nat} {t : Seq V} {w : V}
    (hy : e.sets y = some t) (ha : (a, w) ∈ t) :
    (∀ n fuel, insertRef g fuel x a { st with thr := n } = insert g fuel x w { st with thr := n }) ∧
    (x = y → ∃ st', ∀ fuel, s.length < fuel → insertRef g fuel x a st = .ok (some a, false) st' ∧
      toList g fuel x st' = .ok (s.map Prod.snd) st') := by
  have W := (h.agree hg).world
  obtain ⟨l, r, rfl⟩ := List.append_of_mem ha
  obtain ⟨n, h1, h2⟩ := W_cell W hy
  have hn : a ≠ st.next := by
    intro hc; rw [hc, W.fresh _ (Nat.le_refl _)] at h1; cases h1
  have H : ∀ n, Holds a w { st with thr := n } := fun _ => ⟨n, h1, h2⟩
  refine ⟨fun n fuel => insertRef_eq (H n) hn, ?_⟩
  rintro rfl
  rw [hx] at hy; cases hy
  obtain ⟨t, -, R⟩ := W_rep W hx
  have hl : lookup g (l ++ (a, w) :: r) (g.key w) = some (a, w) :=
    lookup_unique hg R.sorted (by simp) (by simp [Cfg.equiv, hg.irrefl])
  obtain ⟨st', h3, W3, -⟩ := insert_old hg W hx w hl
  refine ⟨st', fun fuel hf => ⟨?_, toList_spec hg W3 hx hf⟩⟩
  rw [insertRef_eq (H st.thr) hn]
  exact h3 fuel (Nat.lt_of_le_of_lt (depth_le _) hf)

/-! ### C137 -/

/-- **C137 (set).** `x.insert(*a)` for an element of any set is `x.insert` of its value, whatever throws on the way
(so C29, C32 and C79 apply); and if `*a` is in `x` itself, `a` is returned with `false` and nothing changes. -/
theorem C137_set_insert_ref [DecidableEq K] {comp : K → K → Bool} {st : TSt K} {its : Its} {e : Env K}
    (hc : StrictWeak comp) (h : Reach (setCfg comp) st its e) {x : Nat} {s : Seq K} (hx : e.sets x = some s)
    {y a : Nat} {t : Seq K} {w : K} (hy : e.sets y = some t) (ha : (a, w) ∈ t) :
    (∀ n fuel, insertRef (setCfg comp) fuel x a { st with thr := n } =
      insert (setCfg comp) fuel x w { st with thr := n }) ∧
    (x = y → ∃ st', ∀ fuel, s.length < fuel → insertRef (setCfg comp) fuel x a st = .ok (some a, false) st' ∧
      toList (setCfg comp) fuel x st' = .ok (s.map Prod.snd) st') :=
  insertRef_any (setCfg_lawful hc) h hx hy ha

/-- **C137 (map).** The same for maps (C35, C37, C80). -/
theorem C137_map_insert_ref {T : Type} [DecidableEq K] {comp eq : K → K → Bool} {st : TSt (K × T)} {its : Its}
    {e : Env (K × T)} (hc : StrictWeak comp) (he : GoodEq comp eq) (h : Reach (mapCfg comp eq) st its e)
    {x : Nat} {s : Seq (K × T)} (hx : e.sets x = some s)
    {y a : Nat} {t : Seq (K × T)} {w : K × T} (hy : e.sets y = some t) (ha : (a, w) ∈ t) :
    (∀ n fuel, insertRef (mapCfg comp eq) fuel x a { st with thr := n } =
      insert (mapCfg comp eq) fuel x w { st with thr := n }) ∧
    (x = y → ∃ st', ∀ fuel, s.length < fuel → insertRef (mapCfg comp eq) fuel x a st = .ok (some a, false) st' ∧
      toList (mapCfg comp eq) fuel x st' = .ok (s.map Prod.snd) st') :=
  insertRef_any (map_lawful hc he) h hx hy ha

/-- The hypotheses are met: elements of set 1 inserted into set 0, and of set 0 into itself. -/
example : ∃ (st : TSt Nat) (its : Its) (e : Env Nat), Reach (setCfg natLt) st its e ∧
    e.sets 0 = some [(1, 3), (0, 7)] ∧ e.sets 1 = some [(2, 5)] := by
  obtain ⟨st, its, h⟩ := Reach.of_spec (setCfg_lawful natLt_weak) (ops := [.new 0, .new 1, .insert 0 7 0,
    .insert 0 3 0, .insert 1 5 0]) rfl
  exact ⟨st, its, _, h, rfl, rfl⟩
example : ∃ (st : TSt (Nat × Char)) (its : Its) (e : Env (Nat × Char)),
    Reach (mapCfg natLt (fun a b => a == b)) st its e ∧
    e.sets 0 = some [(1, 3, 'b'), (0, 7, 'a')] ∧ e.sets 1 = some [(2, 5, 'c')] := by
  obtain ⟨st, its, h⟩ := Reach.of_spec (map_lawful natLt_weak natEq_good) (ops := [.new 0, .new 1,
    .insert 0 (7, 'a') 0, .insert 0 (3, 'b') 0, .insert 1 (5, 'c') 0]) rfl
  exact ⟨st, its, _, h, rfl, rfl⟩

end Cest.Tree
