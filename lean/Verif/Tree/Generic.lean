import Verif.Tree.Refine
/-
Facts about programs over trees with any lawful parameters; SetProps and MapProps instantiate them.
The definitions at the top are used in the statements of the property theorems.
-/
namespace Cest.Tree
open Cest
variable {V K : Type}
set_option linter.unusedSectionVars false

/-! ### Vocabulary of the property theorems -/

/-- Strict weak orderings (what C++ requires of a comparator). -/
structure StrictWeak (comp : K → K → Bool) : Prop where
  irrefl : ∀ a, comp a a = false
  trans : ∀ a b c, comp a b = true → comp b c = true → comp a c = true
  incompTrans : ∀ a b c, comp a b = false ∧ comp b a = false → comp b c = false ∧ comp c b = false →
    comp a c = false ∧ comp c a = false

/-- Equivalence of keys. -/
def equivKeys (comp : K → K → Bool) (a b : K) : Bool := !comp a b && !comp b a

/-- `st`, with iterator variables `its`, is reached by a program that respects the preconditions of the
interface; `e` is what the specification says about it. -/
def Reach [DecidableEq K] (g : Cfg V K) (st : TSt V) (its : Its) (e : Env V) : Prop :=
  ∃ ops outs F, specRun g Env.none ops = some (e, outs) ∧
    ∀ fuel, F ≤ fuel → runOps g fuel (fun _ => none) ops St.init = .ok (its, outs) st

/-- `k` times `++`. -/
def incN (g : Cfg V K) (fuel : Nat) : Nat → Option Nat → TM V (Option Nat)
  | 0, p => pure p
  | k+1, p => do let q ← inc g fuel p; incN g fuel k q

/-- The tree hanging off pointer `p` with parent link `par`, as found in memory, is a red-black tree with
the given colour of its root, black height and height: every path has the same number of black nodes, red
nodes have black children, and parent links are right. -/
inductive RBMem (mem : Nat → Option (Cell V)) : Option Nat → Option Nat → Color → Nat → Nat → Prop
  | nil {par} : RBMem mem none par .black 0 0
  | red {a par n bh h₁ h₂} : mem a = some (some n) → n.c = .red → n.p = par →
      RBMem mem n.l (some a) .black bh h₁ → RBMem mem n.r (some a) .black bh h₂ →
      RBMem mem (some a) par .red bh (max h₁ h₂ + 1)
  | black {a par n c₁ c₂ bh h₁ h₂} : mem a = some (some n) → n.c = .black → n.p = par →
      RBMem mem n.l (some a) c₁ bh h₁ → RBMem mem n.r (some a) c₂ bh h₂ →
      RBMem mem (some a) par .black (bh + 1) (max h₁ h₂ + 1)

/-- The values that are first of their equivalence class, in order of insertion. -/
def firsts (equiv : V → V → Bool) : List V → List V
  | [] => []
  | v :: vs => v :: (firsts equiv vs).filter (fun w => !equiv v w)

/-- For each inserted value, whether it is new. -/
def addedFlags (equiv : V → V → Bool) (seen : List V) : List V → List Bool
  | [] => []
  | v :: vs => (!seen.any (fun w => equiv w v)) :: addedFlags equiv (seen ++ [v]) vs

/-- Containers whose contents or lifetime an operation may change. -/
def Op.mutates : Op V K → List Nat
  | .new x | .newCopy x _ | .assign x _ | .destroy x | .clear x | .insert x _ _ | .insertHint x _ _ _
  | .write x _ _ => [x]
  | _ => []

/-- The machine state with the throw countdown set. -/
def arm (st : TSt V) (k : Option Nat) : TSt V := ⟨st.objs, st.mem, st.next, k⟩

/-! ### Lawfulness -/

theorem setCfg_lawful {comp : K → K → Bool} (h : StrictWeak comp) : (setCfg comp).Lawful := by
  refine ⟨h.irrefl, h.trans, ?_, by simp [setCfg], by simp [setCfg]⟩
  intro a b c h1 h2
  simp only [Cfg.equiv, setCfg, Bool.and_eq_true, Bool.not_eq_true'] at *
  exact h.incompTrans a b c h1 h2

theorem mapCfg_lawful {T : Type} {comp eq : K → K → Bool} (h : StrictWeak comp) (hr : ∀ k, eq k k = true)
    (he : ∀ k k', eq k k' = true → equivKeys comp k k' = true) : (mapCfg (T := T) comp eq).Lawful := by
  refine ⟨h.irrefl, h.trans, ?_, ?_, ?_⟩
  · intro a b c h1 h2
    simp only [Cfg.equiv, mapCfg, Bool.and_eq_true, Bool.not_eq_true'] at *
    exact h.incompTrans a b c h1 h2
  · intro e h1 k; simp [mapCfg] at h1; subst h1; exact hr k
  · intro e h1 k k' h2; simp [mapCfg] at h1; subst h1; exact he k k' h2

section
variable [DecidableEq K] {g : Cfg V K} {st : TSt V} {its : Its} {e : Env V}

theorem Reach.agree (hg : g.Lawful) (h : Reach g st its e) : Agree g st its e := by
  obtain ⟨ops, outs, F, h1, h2⟩ := h
  obtain ⟨F', st', its', h3, A⟩ := run_refines hg (agree_init g) h1
  have a := h2 (max F F') (by omega)
  rw [h3 (max F F') (by omega)] at a
  cases a
  exact A

theorem Reach.of_spec (hg : g.Lawful) {ops : List (Op V K)} {outs : List (Out V)}
    (h : specRun g Env.none ops = some (e, outs)) : ∃ st its, Reach g st its e := by
  obtain ⟨F, st, its, h3, _⟩ := run_refines hg (agree_init g) h
  exact ⟨st, its, ops, outs, F, h, h3⟩

/-! ### Iteration -/

theorem incN_spec (hg : g.Lawful) {σ : Nat → Option (List (Nat × V))} (W : TW g st σ) {x fuel : Nat} :
    ∀ (k : Nat) {l r : List (Nat × V)}, σ x = some (l ++ r) → k ≤ r.length → (l ++ r).length ≤ fuel →
    incN g fuel k (hd r) st = .ok (hd (r.drop k)) st := by
  intro k
  induction k with
  | zero => intro l r _ _ _; rfl
  | succ k ih =>
    intro l r hs hk hf
    cases r with
    | nil => simp at hk
    | cons e r =>
      obtain ⟨a, v⟩ := e
      have := inc_spec hg W hs (fuel := fuel) (Nat.le_trans (depth_le _) hf)
      simp only [incN, M.bind_apply, hd, List.head?_cons, Option.map_some, this]
      exact ih (l := l ++ [(a, v)]) (by simp [hs]) (by simpa using hk) (by simpa using hf)

theorem iteration (hg : g.Lawful) (h : Reach g st its e) {x : Nat} {s : Seq V} (hx : e.sets x = some s)
    {fuel : Nat} (hf : s.length < fuel) :
    toList g fuel x st = .ok (s.map Prod.snd) st ∧ size x st = .ok s.length st ∧
    (s.map Prod.snd).Pairwise (fun v w => g.lt v w = true) ∧
    ∃ b, begin_ x st = .ok b st ∧ end_ x st = .ok none st ∧ incN g fuel s.length b st = .ok none st ∧
      ∀ k (hk : k < s.length), ∃ a, incN g fuel k b st = .ok (some a) st ∧ getX (some a) st = .ok s[k].2 st := by
  have W := (h.agree hg).world
  refine ⟨toList_spec hg W hx hf, size_spec W hx, ?_, hd s, begin_spec W hx, end_spec W hx, ?_, ?_⟩
  · obtain ⟨t, _, ht⟩ := W_rep W hx
    exact List.pairwise_map.2 ht.sorted
  · rw [incN_spec (l := []) hg W s.length hx (Nat.le_refl _) (by simp; omega), List.drop_length]; rfl
  · intro k hk
    have hdr : s.drop k = s[k] :: s.drop (k+1) := List.drop_eq_getElem_cons hk
    have hs : e.sets x = some (s.take k ++ (s[k].1, s[k].2) :: s.drop (k+1)) := by
      rw [hx]; congr 1
      have := List.take_append_drop k s
      rw [hdr] at this; exact this.symm
    refine ⟨s[k].1, ?_, deref_spec W hs⟩
    rw [incN_spec (l := []) hg W k hx (by omega) (by simp; omega), hdr]; rfl

/-! ### Balance -/

theorem rb_mem {mem : Nat → Option (Cell V)} {t : T V} {c n} (h : T.RB t c n) :
    ∀ {par}, Repr mem par t → RBMem mem t.rt par c n t.height := by
  induction h with
  | nil => intro par _; exact .nil
  | red h1 h2 ih1 ih2 =>
    intro par hr
    exact .red hr.1 rfl rfl (ih1 hr.2.1) (ih2 hr.2.2)
  | black h1 h2 ih1 ih2 =>
    intro par hr
    exact .black hr.1 rfl rfl (ih1 hr.2.1) (ih2 hr.2.2)

theorem balanced (hg : g.Lawful) (h : Reach g st its e) {x : Nat} {s : Seq V} (hx : e.sets x = some s) :
    (∃ o bh ht, st.objs x = some o ∧ RBMem st.mem o.root none .black bh ht ∧
      ht ≤ 2 * Nat.log2 (s.length + 1)) ∧
    ∀ fuel, 2 * Nat.log2 (s.length + 1) < fuel →
      (∀ k, ∃ p, find g fuel x k st = .ok p st) ∧
      (∀ v, ∃ r st', insert g fuel x v st = .ok r st') := by
  have A := h.agree hg
  obtain ⟨t, ho, ht⟩ := W_rep A.world hx
  obtain ⟨n, hn⟩ := ht.rb
  refine ⟨⟨_, n, t.height, ho, rb_mem hn ht.repr, ?_⟩, ?_⟩
  · have := hn.height_log; rwa [ht.toL] at this
  · intro fuel hf
    have hd : depth s.length < fuel := Nat.lt_of_le_of_lt (Nat.min_le_right _ _) hf
    refine ⟨fun k => ⟨_, find_spec hg A.world hx k hd⟩, fun v => ?_⟩
    obtain ⟨st', p, h1, _⟩ := insert_refines hg A hx v 0
    exact ⟨_, st', h1 fuel hd⟩

/-! ### Insertion and lookup in a reachable state -/

theorem lookup_mem {s : Seq V} {k : K} {a : Nat} {v : V} (h : lookup g s k = some (a, v)) :
    (a, v) ∈ s ∧ g.equiv (g.key v) k = true :=
  ⟨List.mem_of_find?_eq_some h, by simpa using List.find?_some h⟩

theorem find_any (hg : g.Lawful) (h : Reach g st its e) {x : Nat} {s : Seq V} (hx : e.sets x = some s)
    (k : K) {fuel : Nat} (hf : s.length < fuel) :
    ∃ p, find g fuel x k st = .ok p st ∧
      ((∃ v ∈ s.map Prod.snd, g.equiv (g.key v) k = true ∧ getX p st = .ok v st) ∨
       ((∀ v ∈ s.map Prod.snd, g.equiv (g.key v) k = false) ∧ end_ x st = .ok p st)) := by
  have W := (h.agree hg).world
  refine ⟨_, find_spec hg W hx k (Nat.lt_of_le_of_lt (depth_le _) hf), ?_⟩
  cases hl : lookup g s k with
  | some r =>
    obtain ⟨a, v⟩ := r
    obtain ⟨h1, h2⟩ := lookup_mem hl
    obtain ⟨l, r, rfl⟩ := List.append_of_mem h1
    exact Or.inl ⟨v, by simp, h2, deref_spec W hx⟩
  | none =>
    refine Or.inr ⟨?_, end_spec W hx⟩
    intro v hv
    obtain ⟨⟨a, w⟩, hm, rfl⟩ := List.mem_map.1 hv
    simpa using List.find?_eq_none.1 hl _ hm

theorem insert_any (hg : g.Lawful) (h : Reach g st its e) {x : Nat} {s : Seq V} (hx : e.sets x = some s)
    (v : V) : ∃ p b st', (∀ fuel, s.length < fuel → insert g fuel x v st = .ok (p, b) st') ∧
      (b = true ↔ ∀ w ∈ s.map Prod.snd, g.equiv (g.key w) (g.key v) = false) ∧
      (∃ w, getX p st' = .ok w st' ∧ g.equiv (g.key w) (g.key v) = true ∧
        (b = true → w = v) ∧ (b = false → w ∈ s.map Prod.snd)) ∧
      (∃ s' : List V, s'.Perm (if b then v :: s.map Prod.snd else s.map Prod.snd) ∧
        s'.Pairwise (fun v w => g.lt v w = true) ∧
        ∀ fuel, s.length + 1 < fuel → toList g fuel x st' = .ok s' st' ∧ size x st' = .ok s'.length st') ∧
      (∀ y t a w, e.sets y = some t → (a, w) ∈ t →
        getX (some a) st = .ok w st ∧ getX (some a) st' = .ok w st') ∧
      (∀ y t, y ≠ x → e.sets y = some t → ∀ fuel, t.length < fuel →
        toList g fuel y st' = .ok (t.map Prod.snd) st') := by
  have A := h.agree hg
  have W := A.world
  cases hl : lookup g s (g.key v) with
  | some r =>
    obtain ⟨a₀, v₀⟩ := r
    obtain ⟨hm, he⟩ := lookup_mem hl
    obtain ⟨st', h1, W1, _⟩ := insert_old hg W hx v hl
    have hst : ∀ y t a w, e.sets y = some t → (a, w) ∈ t →
        getX (some a) st = .ok w st ∧ getX (some a) st' = .ok w st' := by
      intro y t a w hy hm
      obtain ⟨u1, u2, rfl⟩ := List.append_of_mem hm
      exact ⟨deref_spec W hy, deref_spec W1 hy⟩
    refine ⟨some a₀, false, st', fun fuel hf => h1 fuel (Nat.lt_of_le_of_lt (depth_le _) hf), ?_, ?_, ?_, hst, ?_⟩
    · simp only [Bool.false_eq_true, false_iff]
      intro hall
      have := hall v₀ (List.mem_map_of_mem hm)
      rw [he] at this; cases this
    · exact ⟨v₀, (hst x s a₀ v₀ hx hm).2, he, by simp, fun _ => List.mem_map_of_mem hm⟩
    · refine ⟨s.map Prod.snd, by simp, ?_, fun fuel hf => ⟨toList_spec hg W1 hx (by omega), by simp [size_spec W1 hx]⟩⟩
      obtain ⟨t, _, ht⟩ := W_rep W hx
      exact List.pairwise_map.2 ht.sorted
    · intro y t _ hy fuel hf; exact toList_spec hg W1 hy hf
  | none =>
    obtain ⟨st', h1, W1, _⟩ := insert_new hg W hx v hl
    have hno : ∀ w ∈ s.map Prod.snd, g.equiv (g.key w) (g.key v) = false := by
      intro w hw
      obtain ⟨⟨a, w⟩, hm, rfl⟩ := List.mem_map.1 hw
      simpa using List.find?_eq_none.1 hl _ hm
    have hperm : (insSorted g s (st.next, v)).Perm ((st.next, v) :: s) := by
      obtain ⟨t, _, ht⟩ := W_rep W hx
      have hlook : T.look g (g.key v) t = none := by
        rw [T.look_eq hg (by rw [ht.toL]; exact ht.sorted), ht.toL]; exact hl
      unfold insSorted
      refine List.perm_middle.trans (List.Perm.cons _ ?_)
      have h2 : ∀ d ∈ s, g.lt v d.2 = !g.lt d.2 v := by
        intro d hd
        have := hno d.2 (List.mem_map_of_mem hd)
        simp only [Cfg.equiv, Bool.and_eq_false_iff, Bool.not_eq_false'] at this
        rcases this with this | this
        · have h3 := hg.asymm this
          simp only [Cfg.lt] at h3 ⊢
          rw [h3, this]; rfl
        · have h3 := hg.asymm this
          simp only [Cfg.lt] at h3 ⊢
          rw [h3, this]; rfl
      have h4 : s.filter (fun d => g.lt v d.2) = s.filter (fun d => !g.lt d.2 v) :=
        List.filter_congr h2
      simp only [h4]
      exact List.filter_append_perm (fun d => g.lt d.2 v) s
    have hself : (st.next, v) ∈ insSorted g s (st.next, v) := hperm.mem_iff.2 (by simp)
    have hst : ∀ y t a w, e.sets y = some t → (a, w) ∈ t →
        getX (some a) st = .ok w st ∧ getX (some a) st' = .ok w st' := by
      intro y t a w hy hm
      refine ⟨?_, ?_⟩
      · obtain ⟨u1, u2, rfl⟩ := List.append_of_mem hm
        exact deref_spec W hy
      · by_cases hyx : y = x
        · subst hyx
          rw [hx] at hy; cases hy
          have hm' : (a, w) ∈ insSorted g s (st.next, v) := hperm.mem_iff.2 (by simp [hm])
          obtain ⟨u1, u2, hu⟩ := List.append_of_mem hm'
          exact deref_spec (x := y) (s₁ := u1) (s₂ := u2) W1 (by rw [upd_same, hu])
        · obtain ⟨u1, u2, rfl⟩ := List.append_of_mem hm
          exact deref_spec (x := y) (s₁ := u1) (s₂ := u2) W1 (by simp [hyx, hy])
    refine ⟨some st.next, true, st', fun fuel hf => h1 fuel (Nat.lt_of_le_of_lt (depth_le _) hf), by simpa using hno,
      ?_, ?_, hst, ?_⟩
    · obtain ⟨u1, u2, hu⟩ := List.append_of_mem hself
      refine ⟨v, deref_spec (x := x) (s₁ := u1) (s₂ := u2) W1 (by rw [upd_same, hu]), ?_, by simp, by simp⟩
      simp [Cfg.equiv, hg.irrefl]
    · refine ⟨(insSorted g s (st.next, v)).map Prod.snd, ?_, ?_, ?_⟩
      · simpa using hperm.map Prod.snd
      · obtain ⟨t, _, ht⟩ := W_rep W1 (upd_same _ _ _)
        exact List.pairwise_map.2 ht.sorted
      · intro fuel hf
        refine ⟨toList_spec hg W1 (upd_same _ _ _) (by rw [hperm.length_eq]; simpa using hf), ?_⟩
        simp [size_spec W1 (upd_same _ _ _)]
    · intro y t hyx hy fuel hf
      exact toList_spec hg W1 (by simp [hyx, hy]) hf

/-! ### Insertion-only histories -/

theorem equiv_symm {a b : K} : g.equiv a b = g.equiv b a := by simp [Cfg.equiv, Bool.and_comm]

theorem equiv_cong (hg : g.Lawful) {a b c : K} (h : g.equiv a b = true) : g.equiv a c = g.equiv b c := by
  rcases Bool.eq_false_or_eq_true (g.equiv b c) with h1 | h1
  · rw [h1]; exact hg.equivTrans _ _ _ h h1
  · rw [h1]
    rcases Bool.eq_false_or_eq_true (g.equiv a c) with h2 | h2
    · rw [hg.equivTrans b a c (by rw [equiv_symm]; exact h) h2] at h1; cases h1
    · exact h2

/-- At most one element of a sorted sequence is equivalent to a key. -/
theorem lookup_unique (hg : g.Lawful) {s : Seq V} (hs : T.Sorted g s) {k : K} {d : Nat × V} (hd : d ∈ s)
    (he : g.equiv (g.key d.2) k = true) : lookup g s k = some d := by
  induction s with
  | nil => cases hd
  | cons c s ih =>
    rw [T.sorted_cons] at hs
    rcases List.mem_cons.1 hd with rfl | hm
    · simp [lookup, he]
    · have : g.equiv (g.key c.2) k = false := by
        rcases Bool.eq_false_or_eq_true (g.equiv (g.key c.2) k) with h1 | h1
        · have h2 := hs.1 d hm
          have h3 : g.equiv (g.key c.2) (g.key d.2) = true := by
            rw [equiv_symm, ← equiv_cong hg (a := k) (b := g.key d.2) (by rw [equiv_symm]; exact he), equiv_symm]
            exact h1
          simp only [Cfg.lt] at h2
          simp [Cfg.equiv, h2] at h3
        · exact h1
      have h5 := ih hs.2 hm
      simp only [lookup] at h5 ⊢
      simp [this, h5]

theorem lookup_insSorted (hg : g.Lawful) {s : Seq V} (hs : T.Sorted g s) {n : Nat} {v : V}
    (hl : lookup g s (g.key v) = none) (k : K) :
    lookup g (insSorted g s (n, v)) k = if g.equiv (g.key v) k then some (n, v) else lookup g s k := by
  have hs' := T.sorted_insSorted hg hs (n, v)
  have hmem : ∀ d, d ∈ insSorted g s (n, v) ↔ d = (n, v) ∨ d ∈ s := fun d => T.mem_insSorted hl
  split
  · rename_i h
    exact lookup_unique hg hs' ((hmem _).2 (Or.inl rfl)) h
  · rename_i h
    cases hk : lookup g s k with
    | some d =>
      obtain ⟨h1, h2⟩ := lookup_mem (a := d.1) (v := d.2) hk
      exact lookup_unique hg hs' ((hmem _).2 (Or.inr h1)) h2
    | none =>
      rw [lookup, List.find?_eq_none]
      intro d hd
      rcases (hmem d).1 hd with rfl | hd
      · exact h
      · exact List.find?_eq_none.1 hk d hd

/-- Result of inserting `vs` one after the other, by specification. -/
theorem spec_inserts (hg : g.Lawful) (x : Nat) : ∀ (vs seen : List V) (e : Env V) (s : Seq V),
    e.sets x = some s → T.Sorted g s →
    (∀ k, (lookup g s k).map Prod.snd = seen.find? (fun v => g.equiv (g.key v) k)) →
    s.length = (firsts (fun v w => g.equiv (g.key v) (g.key w)) seen).length →
    ∃ e' s', specRun g e (vs.map (fun v => Op.insert x v 0)) =
        some (e', (addedFlags (fun v w => g.equiv (g.key v) (g.key w)) seen vs).map Out.bool) ∧
      e'.sets x = some s' ∧ T.Sorted g s' ∧
      (∀ k, (lookup g s' k).map Prod.snd = (seen ++ vs).find? (fun v => g.equiv (g.key v) k)) ∧
      s'.length = (firsts (fun v w => g.equiv (g.key v) (g.key w)) (seen ++ vs)).length := by
  intro vs
  induction vs with
  | nil => intro seen e s hx hs hl hn; exact ⟨e, s, rfl, hx, hs, by simpa using hl, by simpa using hn⟩
  | cons v vs ih =>
    intro seen e s hx hs hl hn
    have hany : seen.any (fun w => g.equiv (g.key w) (g.key v)) =
        (lookup g s (g.key v)).isSome := by
      have := hl (g.key v)
      rw [← Option.isSome_map (f := Prod.snd), this, Bool.eq_iff_iff, List.find?_isSome, List.any_eq_true]
    have happ : ∀ (l : List V) (w : V), firsts (fun v w => g.equiv (g.key v) (g.key w)) (l ++ [w]) =
        firsts (fun v w => g.equiv (g.key v) (g.key w)) l ++
          (if l.any (fun u => g.equiv (g.key u) (g.key w)) then [] else [w]) := by
      intro l w
      induction l with
      | nil => rfl
      | cons u l ih =>
        simp only [List.cons_append, firsts, ih, List.filter_append, List.any_cons]
        rcases Bool.eq_false_or_eq_true (g.equiv (g.key u) (g.key w)) with h1 | h1 <;>
        rcases Bool.eq_false_or_eq_true (l.any (fun u => g.equiv (g.key u) (g.key w))) with h2 | h2 <;>
          simp [h1, h2]
    cases h0 : lookup g s (g.key v) with
    | some r =>
      obtain ⟨a, w⟩ := r
      rw [h0] at hany
      obtain ⟨e', s', h1, h2, h3, h4, h5⟩ := ih (seen ++ [v]) (e.setI 0 (.elem a)) s hx hs
        (by
          intro k
          rw [hl k, List.find?_append]
          cases hf : seen.find? (fun v => g.equiv (g.key v) k) with
          | some u => rfl
          | none =>
            have : g.equiv (g.key v) k = false := by
              rcases Bool.eq_false_or_eq_true (g.equiv (g.key v) k) with h1 | h1
              · exfalso
                obtain ⟨u, hu, hu'⟩ := List.any_eq_true.1 hany
                exact List.find?_eq_none.1 hf u hu (hg.equivTrans _ _ _ hu' h1)
              · exact h1
            simp [this])
        (by rw [happ, hany]; simpa using hn)
      refine ⟨e', s', ?_, h2, h3, by simpa using h4, by simpa using h5⟩
      simp only [List.map_cons, specRun, specStep, hx, specInsert, h0, h1, addedFlags, hany]
      rfl
    | none =>
      rw [h0] at hany
      obtain ⟨e', s', h1, h2, h3, h4, h5⟩ := ih (seen ++ [v])
        (((e.setL x (some (insSorted g s (e.next, v)))).setI 0 (.elem e.next)).bump 1)
        (insSorted g s (e.next, v)) (by simp [Env.setL, Env.setI, Env.bump]) (T.sorted_insSorted hg hs _)
        (by
          intro k
          rw [lookup_insSorted hg hs h0, List.find?_append]
          split
          · rename_i hk
            have : seen.find? (fun v => g.equiv (g.key v) k) = none := by
              rw [← hl k]
              cases hlk : lookup g s k with
              | none => rfl
              | some d =>
                exfalso
                obtain ⟨m1, m2⟩ := lookup_mem (a := d.1) (v := d.2) hlk
                have := lookup_unique hg hs m1 (k := g.key v)
                  (hg.equivTrans _ _ _ m2 (by rw [equiv_symm]; exact hk))
                rw [h0] at this; cases this
            simp [this, hk]
          · rename_i hk
            rw [hl k]
            simp [hk])
        (by rw [happ, hany, T.length_insSorted hg h0, hn]; simp)
      refine ⟨e', s', ?_, h2, h3, by simpa using h4, by simpa using h5⟩
      simp only [List.map_cons, specRun, specStep, hx, specInsert, h0, h1, addedFlags, hany]
      rfl

/-- A program of insertions into one container. -/
theorem inserts (hg : g.Lawful) (vs : List V) :
    ∃ F st its, ∀ fuel, F ≤ fuel →
      runOps g fuel (fun _ => none) (.new 0 :: vs.map (fun v => Op.insert 0 v 0)) St.init =
        .ok (its, .unit :: (addedFlags (fun v w => g.equiv (g.key v) (g.key w)) [] vs).map Out.bool) st ∧
      size 0 st = .ok (firsts (fun v w => g.equiv (g.key v) (g.key w)) vs).length st ∧
      ∀ k, ∃ p, find g fuel 0 k st = .ok p st ∧
        match vs.find? (fun v => g.equiv (g.key v) k) with
        | some v => getX p st = .ok v st
        | none => end_ 0 st = .ok p st := by
  obtain ⟨e', s', h1, h2, h3, h4, h5⟩ := spec_inserts hg 0 vs [] (Env.none.setL 0 (some []))
    [] (by simp [Env.setL]) List.Pairwise.nil (by simp [lookup]) rfl
  have hrun : specRun g Env.none (.new 0 :: vs.map (fun v => Op.insert 0 v 0)) = some (e',
      .unit :: (addedFlags (fun v w => g.equiv (g.key v) (g.key w)) [] vs).map Out.bool) := by
    simp only [specRun, specStep, Env.none]
    simp only [Env.none] at h1
    rw [h1]
  obtain ⟨F, st, its, h6, A⟩ := run_refines hg (agree_init g) hrun
  refine ⟨max F (s'.length + 1), st, its, fun fuel hf => ⟨h6 fuel (by omega), ?_, fun k => ?_⟩⟩
  · rw [size_spec A.world h2, h5]; rfl
  · have hd : depth s'.length < fuel := Nat.lt_of_le_of_lt (depth_le _) (by omega)
    refine ⟨_, find_spec hg A.world h2 k hd, ?_⟩
    have := h4 k
    rw [List.nil_append] at this
    rw [← this]
    cases hl : lookup g s' k with
    | none => exact end_spec A.world h2
    | some d =>
      obtain ⟨a, v⟩ := d
      obtain ⟨l, r, rfl⟩ := List.append_of_mem (lookup_mem hl).1
      exact deref_spec A.world h2

/-! ### Storage -/

theorem storage (hg : g.Lawful) (h : Reach g st its e) {a : Nat} {c : Cell V} (ha : st.mem a = some c) :
    ∃ n x l r, c = some n ∧ e.sets x = some (l ++ (a, n.x) :: r) ∧ a ∉ l.map Prod.fst ∧
      a ∉ r.map Prod.fst ∧ ∀ y s, e.sets y = some s → a ∈ s.map Prod.fst → y = x := by
  have W := (h.agree hg).world
  obtain ⟨x, hx⟩ := W.own a (by simp [ha])
  cases hs : e.sets x with
  | none => simp [hs] at hx
  | some s =>
    have hx' : a ∈ s.map Prod.fst := by simpa [hs, treeI] using hx
    obtain ⟨⟨b, v⟩, hm, rfl⟩ := List.mem_map.1 hx'
    obtain ⟨l, r, rfl⟩ := List.append_of_mem hm
    obtain ⟨n, hn, hv⟩ := W_cell W hs
    rw [ha] at hn; simp at hn
    obtain ⟨t, _, ht⟩ := W_rep W hs
    have hnd := ht.nodup
    rw [T.ids, ht.toL, List.map_append, List.map_cons, List.nodup_append] at hnd
    refine ⟨n, x, l, r, hn, by rw [hv]; exact hs, ?_, (List.nodup_cons.1 hnd.2.1).1, ?_⟩
    · intro hm; exact hnd.2.2 _ hm _ (by simp) rfl
    · intro y s' hy hm
      exact W.disj y x b (by rw [hy]; exact hm) hx

/-! ### Copies -/

theorem specStep_frame {e' : Env V} {op : Op V K} {o : Out V} {z : Nat}
    (h : specStep g e op = some (e', o)) (hz : z ∉ op.mutates) : e'.sets z = e.sets z := by
  cases op <;> simp only [specStep, specInsert] at h <;> simp only [Op.mutates, List.mem_cons, List.not_mem_nil,
    or_false, not_false_eq_true] at hz <;> (repeat' split at h) <;> simp at h <;>
    first
      | (obtain ⟨rfl, rfl⟩ := h; simp_all [Env.setL, Env.setI, Env.bump]; done)
      | (obtain ⟨_, rfl, rfl⟩ := h; simp_all [Env.setL, Env.setI, Env.bump])

theorem specRun_frame {ops : List (Op V K)} {e' : Env V} {os : List (Out V)} {z : Nat}
    (h : specRun g e ops = some (e', os)) (hz : ∀ op ∈ ops, z ∉ op.mutates) : e'.sets z = e.sets z := by
  induction ops generalizing e os with
  | nil => simp [specRun] at h; rw [h.1]
  | cons op ops ih =>
    simp only [specRun] at h
    split at h <;> try simp at h
    rename_i e1 o h1
    split at h <;> simp at h
    rename_i e2 os2 h2
    obtain ⟨rfl, rfl⟩ := h
    rw [ih h2 (fun op hop => hz op (List.mem_cons_of_mem _ hop)),
      specStep_frame h1 (hz op List.mem_cons_self)]

theorem copy_independent (hg : g.Lawful) (h : Reach g st its e) {x y : Nat} {t : Seq V} (hxy : x ≠ y)
    (hy : e.sets y = some t) {op : Op V K} (hop : op = .newCopy x y ∨ op = .assign x y) {ops : List (Op V K)}
    {e' : Env V} {outs : List (Out V)} (hs : specRun g e (op :: ops) = some (e', outs)) {z : Nat}
    (hz : z = x ∨ z = y) (hnm : ∀ op ∈ ops, z ∉ op.mutates) :
    ∃ F st' its', ∀ fuel, F ≤ fuel → runOps g fuel its (op :: ops) st = .ok (its', outs) st' ∧
      toList g fuel z st' = .ok (t.map Prod.snd) st' := by
  obtain ⟨F, st', its', h1, A⟩ := run_refines hg (h.agree hg) hs
  have : ∃ s, e'.sets z = some s ∧ s.map Prod.snd = t.map Prod.snd := by
    simp only [specRun] at hs
    split at hs <;> try simp at hs
    rename_i e1 o hop1
    split at hs <;> simp at hs
    rename_i e2 os2 h2
    obtain ⟨rfl, rfl⟩ := hs
    rw [specRun_frame h2 hnm]
    have h3 : e1.sets = upd e.sets x (some (number e.next (t.map Prod.snd))) := by
      rcases hop with rfl | rfl
      · simp only [specStep] at hop1
        split at hop1 <;> simp at hop1
        rename_i t' _ hy'
        rw [hy] at hy'; cases hy'
        obtain ⟨rfl, _⟩ := hop1
        rfl
      · simp only [specStep] at hop1
        split at hop1 <;> simp at hop1
        rename_i t' _ hy'
        rw [hy] at hy'; cases hy'
        obtain ⟨_, rfl, _⟩ := hop1
        rfl
    rw [h3]
    rcases hz with rfl | rfl
    · exact ⟨_, upd_same _ _ _, number_snd _ _⟩
    · exact ⟨t, by simp [Ne.symm hxy, hy], rfl⟩
  obtain ⟨s, hs1, hs2⟩ := this
  refine ⟨max F (s.length + 1), st', its', fun fuel hf => ⟨h1 fuel (by omega), ?_⟩⟩
  rw [toList_spec hg A.world hs1 (by omega), hs2]

theorem assign_other (hg : g.Lawful) (h : Reach g st its e) {x y : Nat} {s t : Seq V} (hxy : x ≠ y)
    (hx : e.sets x = some s) (hy : e.sets y = some t) :
    ∃ F st', ∀ fuel, F ≤ fuel → assign g fuel x y st = .ok () st' ∧
      toList g fuel x st' = .ok (t.map Prod.snd) st' ∧ toList g fuel y st' = .ok (t.map Prod.snd) st' := by
  obtain ⟨st', h1, W1, _⟩ := assign_spec hg (h.agree hg).world hxy hx hy
  refine ⟨s.length + t.length + 1, st', fun fuel hf => ⟨h1 fuel (by omega) (by omega), ?_, ?_⟩⟩
  · rw [toList_spec hg W1 (upd_same _ _ _) (by rw [number_length, List.length_map]; omega), number_snd]
  · exact toList_spec hg W1 (by simp [Ne.symm hxy, hy]) (by omega)

theorem self_assign (hg : g.Lawful) (h : Reach g st its e) {x : Nat} {s : Seq V} (hx : e.sets x = some s) :
    ∃ st', ∀ fuel, s.length < fuel → assign g fuel x x st = .ok () st' ∧ toList g fuel x st' = .ok [] st' := by
  obtain ⟨st', h1, W1, _⟩ := assign_self (h.agree hg).world hx
  refine ⟨st', fun fuel hf => ⟨h1 fuel hf, ?_⟩⟩
  exact toList_spec hg W1 (upd_same _ _ _) (by simp; omega)

/-! ### Exceptions -/

theorem getRef_arm {st : TSt V} {k} {n : Ref} {q} (h : At st n q) : getRef n (arm st k) = .ok q (arm st k) := by
  have h' : At (arm st k) n q := by cases n <;> exact h
  exact getRef_at h'

theorem ins_badAlloc {x : Nat} {v : V} : ∀ {t : T V} {n par}, Pre st n par t → T.look g (g.key v) t = none →
    ∀ f, t.height < f → ins g x v f n par (arm st (some 0)) = .throw .badAlloc (arm st none) := by
  intro t
  induction t with
  | nil =>
    intro n par h hl f hf
    obtain ⟨f, rfl⟩ : ∃ f', f = f' + 1 := ⟨f - 1, by omega⟩
    simp only [ins, M.bind_apply, getRef_arm h.at_, T.rt_nil]
    simp [allocNode, allocC, tick, arm]
  | node c l a w r ih1 ih2 =>
    intro n par h hl f hf
    obtain ⟨f, rfl⟩ : ∃ f', f = f' + 1 := ⟨f - 1, by omega⟩
    simp only [T.height] at hf
    have e1 : getX (some a) (arm st (some 0)) = .ok w (arm st (some 0)) := by
      have := h.repr.1
      simp [getX, getN, arm, this]
    simp only [ins, M.bind_apply, getRef_arm h.at_, T.rt_node, e1]
    simp only [T.look] at hl
    split at hl
    · rename_i hlt
      rw [if_pos (show g.lt v w = true from hlt)]
      simp only [M.bind_apply, ih1 h.left hl f (by omega)]
    · rename_i hlt
      split at hl
      · rename_i hgt
        rw [if_neg (show ¬ g.lt v w = true from hlt), if_pos (show g.lt w v = true from hgt)]
        simp only [M.bind_apply, ih2 h.right hl f (by omega)]
      · cases hl

theorem insert_badAlloc (hg : g.Lawful) (h : Reach g st its e) {x : Nat} {s : Seq V} (hx : e.sets x = some s)
    (v : V) (hno : ∀ w ∈ s.map Prod.snd, g.equiv (g.key w) (g.key v) = false) {fuel : Nat}
    (hf : s.length < fuel) : insert g fuel x v (arm st (some 0)) = .throw .badAlloc st := by
  have W := (h.agree hg).world
  obtain ⟨t, ho, ht⟩ := W_rep W hx
  have hl : lookup g s (g.key v) = none := by
    rw [lookup, List.find?_eq_none]
    intro d hd
    simp [hno d.2 (List.mem_map_of_mem hd)]
  have hlook : T.look g (g.key v) t = none := by
    rw [T.look_eq hg (by rw [ht.toL]; exact ht.sorted), ht.toL]; exact hl
  have hpre : Pre st (.root x) none t := ⟨⟨_, ho, rfl⟩, ht.repr, ht.nodup, by simp [Ref.owner]⟩
  have hh := ht.height
  have := depth_le s.length
  have hst : arm st none = st := by
    have := W.thr
    cases st; simp_all [arm]
  simp only [insert, M.bind_apply, ins_badAlloc (x := x) hpre hlook fuel (by omega), hst]

/-- If copying the element throws while the container is empty, destroying the container afterwards is
undefined: the root points to storage in which no node was constructed. -/
theorem insert_elem_throw (hg : g.Lawful) (h : Reach g st its e) {x : Nat} (hx : e.sets x = some []) (v : V) :
    ∃ st', (∀ fuel, insert g (fuel + 1) x v (arm st (some 1)) = .throw .elem st') ∧
      ∀ fuel, dtor (fuel + 1) x st' = .ub .deadRead ∧ clear (fuel + 1) x st' = .ub .deadRead := by
  have W := (h.agree hg).world
  obtain ⟨t, ho, ht⟩ := W_rep W hx
  have htn : t.rt = none := by
    have := ht.toL
    cases t with
    | nil => rfl
    | node => simp at this
  rw [htn] at ho
  refine ⟨⟨upd st.objs x (some ⟨some st.next, none, 0⟩), upd st.mem st.next (some none), st.next + 1, none⟩,
    ?_, ?_⟩
  · intro fuel
    simp [insert, ins, getRef, arm, ho, hd, allocNode, allocC, tick, setRef, constructNode]
  · intro fuel
    simp [dtor, clear, dd, getN]

/-- The same while copy-constructing: the copy constructor's own clean-up is undefined. -/
theorem copyCtor_elem_throw (hg : g.Lawful) (h : Reach g st its e) {x y : Nat} {s : Seq V}
    (hx : e.sets x = none) (hy : e.sets y = some s) (hne : s ≠ []) {fuel : Nat} (hf : 1 < fuel) :
    copyCtor g fuel x y (arm st (some 1)) = .ub .deadRead := by
  have W := (h.agree hg).world
  have hxy : y ≠ x := by rintro rfl; rw [hx] at hy; cases hy
  have ho := W.dom x hx
  obtain ⟨⟨a, v⟩, r, rfl⟩ := List.exists_cons_of_ne_nil hne
  obtain ⟨n, hn, hv⟩ := W_cell (s₁ := []) W hy
  obtain ⟨t, hoy, ht⟩ := W_rep W hy
  obtain ⟨f, rfl⟩ : ∃ f, fuel = f + 2 := ⟨fuel - 2, by omega⟩
  simp [copyCtor, ctor, arm, ho, M.onThrow, begin_, hxy, hoy, hd, copyLoop, getX, getN, hn, insert, ins, getRef,
    allocNode, allocC, tick, setRef, constructNode, dtor, clear, dd]

end
end Cest.Tree
