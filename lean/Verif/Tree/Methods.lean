import Verif.Tree.Iter
/-
Member functions on worlds of sets/maps (helper lemmas).
-/
namespace Cest.Tree
open Cest
variable {V K : Type}
set_option linter.unusedSimpArgs false

/-- Variable fields `o` and storage represent the contents `s`. -/
structure TRep (g : Cfg V K) (mem : Nat → Option (Cell V)) (o : Obj) (s : List (Nat × V)) (t : T V) : Prop where
  toL : t.toL = s
  rb : ∃ n, T.RB t .black n
  repr : Repr mem none t
  nodup : t.ids.Nodup
  sorted : T.Sorted g s
  obj : o = ⟨t.rt, hd s, s.length⟩

def treeI (g : Cfg V K) : Iface Obj (Cell V) (List (Nat × V)) where
  ids s := s.map Prod.fst
  Rep mem _ o s := ∃ t, TRep g mem o s t
  loc := by
    rintro m m' x o s ⟨t, h⟩ hm
    refine ⟨t, h.toL, h.rb, h.repr.congr fun q hq => hm q ?_, h.nodup, h.sorted, h.obj⟩
    rw [← h.toL]; exact hq
  alloc := by
    rintro m x o s ⟨t, h⟩ a ha
    refine h.repr.alloc a ?_
    rw [← h.toL] at ha; exact ha

abbrev TW (g : Cfg V K) (st : TSt V) (σ : Nat → Option (List (Nat × V))) : Prop := World (treeI g) st σ

/-- Upper bound for recursion depths and loop lengths on a container with `n` elements. -/
def depth (n : Nat) : Nat := min n (2 * Nat.log2 (n + 1))

theorem TRep.height {g : Cfg V K} {mem o s} {t : T V} (h : TRep g mem o s t) : t.height ≤ depth s.length := by
  obtain ⟨n, hn⟩ := h.rb
  have h1 := hn.height_log
  have h2 := T.height_le_length t
  rw [h.toL] at h1 h2
  exact Nat.le_min.2 ⟨h2, h1⟩

variable {g : Cfg V K} {st : TSt V} {σ : Nat → Option (List (Nat × V))}

theorem W_rep (W : TW g st σ) {x s} (hx : σ x = some s) :
    ∃ t, st.objs x = some ⟨t.rt, hd s, s.length⟩ ∧ TRep g st.mem ⟨t.rt, hd s, s.length⟩ s t := by
  obtain ⟨o, ho, t, h⟩ := W.rep x s hx
  refine ⟨t, by rw [ho, h.obj], ?_⟩
  have := h.obj
  subst this
  exact h

theorem W_cell (W : TW g st σ) {x s₁ a v s₂} (hx : σ x = some (s₁ ++ (a, v) :: s₂)) :
    ∃ n, st.mem a = some (some n) ∧ n.x = v := by
  obtain ⟨t, ho, h⟩ := W_rep W hx
  have key : ∀ (t : T V) par, Repr st.mem par t → (a, v) ∈ t.toL → ∃ n, st.mem a = some (some n) ∧ n.x = v := by
    intro t
    induction t with
    | nil => simp
    | node c l b w r ih1 ih2 =>
      intro par hr hm
      simp at hm
      rcases hm with hm | ⟨rfl, rfl⟩ | hm
      · exact ih1 _ hr.2.1 hm
      · exact ⟨_, hr.1, rfl⟩
      · exact ih2 _ hr.2.2 hm
  exact key t none h.repr (by rw [h.toL]; simp)

theorem ctor_spec (W : TW g st σ) {x} (hx : σ x = none) :
    ∃ st', ctor x st = .ok () st' ∧ TW g st' (upd σ x (some [])) ∧ st'.next = st.next := by
  have ho := W.dom x hx
  refine ⟨⟨upd st.objs x (some ⟨none, none, 0⟩), st.mem, st.next, st.thr⟩, by simp [ctor, ho], ?_, rfl⟩
  refine W.step1 x ⟨none, none, 0⟩ [] rfl ⟨.nil, rfl, ⟨_, .nil⟩, trivial, by simp, List.Pairwise.nil, rfl⟩
    (fun _ _ _ => rfl) (by simp [treeI]) (by simp [hx]) W.fresh W.thr

theorem begin_spec (W : TW g st σ) {x s} (hx : σ x = some s) : begin_ x st = .ok (hd s) st := by
  obtain ⟨t, ho, h⟩ := W_rep W hx
  simp [begin_, ho]
theorem end_spec (W : TW g st σ) {x s} (hx : σ x = some s) : end_ x st = .ok none st := by
  obtain ⟨t, ho, h⟩ := W_rep W hx
  simp [end_, ho]
theorem size_spec (W : TW g st σ) {x s} (hx : σ x = some s) : size x st = .ok s.length st := by
  obtain ⟨t, ho, h⟩ := W_rep W hx
  simp [size, ho]
theorem empty_spec (W : TW g st σ) {x s} (hx : σ x = some s) : empty x st = .ok s.isEmpty st := by
  obtain ⟨t, ho, h⟩ := W_rep W hx
  simp [empty, ho]
  cases s <;> simp

theorem deref_spec (W : TW g st σ) {x s₁ a v s₂} (hx : σ x = some (s₁ ++ (a, v) :: s₂)) :
    getX (some a) st = .ok v st := by
  obtain ⟨n, h1, h2⟩ := W_cell W hx
  simp [getX, h1, h2]

theorem clear_spec (W : TW g st σ) {x s} (hx : σ x = some s) :
    ∃ st', (∀ fuel, depth s.length < fuel → clear fuel x st = .ok () st') ∧
      TW g st' (upd σ x (some [])) ∧ st'.next = st.next := by
  obtain ⟨t, ho, h⟩ := W_rep W hx
  obtain ⟨st1, e1, o1, n1, t1, g1, f1⟩ := dd_sim h.repr h.nodup
  have hids : (treeI g).oids (σ x) = t.ids := by rw [hx]; simp [treeI, T.ids, h.toL]
  refine ⟨⟨upd st1.objs x (some ⟨none, none, 0⟩), st1.mem, st1.next, st1.thr⟩, ?_, ?_, n1⟩
  · intro fuel hf
    have := h.height
    simp [clear, ho, e1 fuel (by omega), o1, upd_upd]
  · refine W.step1 x ⟨none, none, 0⟩ [] (by rw [o1]) ⟨.nil, rfl, ⟨_, .nil⟩, trivial, by simp, List.Pairwise.nil, rfl⟩
      ?_ (by simp [treeI]) ?_ ?_ (by rw [← W.thr]; exact t1)
    · intro a ha _; rw [hids] at ha; exact f1 a ha
    · intro a ha _; rw [hids] at ha; exact g1 a ha
    · intro a ha
      by_cases hm : a ∈ t.ids
      · exact g1 a hm
      · rw [f1 a hm]; exact W.fresh a (by rw [← n1]; exact ha)

theorem dtor_spec (W : TW g st σ) {x s} (hx : σ x = some s) :
    ∃ st', (∀ fuel, depth s.length < fuel → dtor fuel x st = .ok () st') ∧
      TW g st' (upd σ x none) ∧ st'.next = st.next := by
  obtain ⟨st1, e1, W1, n1⟩ := clear_spec W hx
  obtain ⟨t, ho, h⟩ := W_rep W1 (upd_same σ x (some []))
  refine ⟨⟨upd st1.objs x none, st1.mem, st1.next, st1.thr⟩, ?_, ?_, n1⟩
  · intro fuel hf
    simp [dtor, e1 fuel hf, ho]
  · have := W1.stepDel (st' := ⟨upd st1.objs x none, st1.mem, st1.next, st1.thr⟩) x rfl (fun _ _ => rfl)
      (by simp [treeI]) W1.fresh W1.thr
    rwa [upd_upd] at this

theorem find_spec (hg : g.Lawful) (W : TW g st σ) {x s} (hx : σ x = some s) (k : K) {fuel : Nat}
    (hf : depth s.length < fuel) : find g fuel x k st = .ok ((lookup g s k).map Prod.fst) st := by
  obtain ⟨t, ho, h⟩ := W_rep W hx
  simp only [find, M.bind_apply, empty_spec W hx]
  cases s with
  | nil => simp [end_spec W hx, lookup]
  | cons e s =>
    simp only [List.isEmpty_cons, if_false, Bool.false_eq_true, M.bind_apply, getObj_some ho]
    have := h.height
    rw [find_sim k h.repr fuel (by omega), T.look_eq hg (by rw [h.toL]; exact h.sorted), h.toL]

theorem inc_spec (hg : g.Lawful) (W : TW g st σ) {x s₁ a v s₂} (hx : σ x = some (s₁ ++ (a, v) :: s₂))
    {fuel : Nat} (hf : depth (s₁ ++ (a, v) :: s₂).length ≤ fuel) :
    inc g fuel (some a) st = .ok (hd s₂) st := by
  obtain ⟨t, ho, h⟩ := W_rep W hx
  have := h.height
  exact inc_root hg h.repr h.nodup (by rw [h.toL]; exact h.sorted) h.toL fuel (by omega)

theorem toListLoop_spec (hg : g.Lawful) (W : TW g st σ) {x s₁ s₂} (hx : σ x = some (s₁ ++ s₂))
    {fuel : Nat} (hf : depth (s₁ ++ s₂).length ≤ fuel) : ∀ f, s₂.length < f →
    toListLoop g fuel f (hd s₂) st = .ok (s₂.map Prod.snd) st := by
  induction s₂ generalizing s₁ with
  | nil =>
    intro f hf
    obtain ⟨f, rfl⟩ : ∃ f', f = f' + 1 := ⟨f - 1, by omega⟩
    rfl
  | cons e s₂ ih =>
    obtain ⟨a, v⟩ := e
    intro f hf'
    obtain ⟨f, rfl⟩ : ∃ f', f = f' + 1 := ⟨f - 1, by omega⟩
    have e1 := deref_spec W hx
    have e2 := inc_spec hg W hx hf
    have e3 := ih (s₁ := s₁ ++ [(a, v)]) (by simp [hx]) (by simpa using hf) f (by simp at hf'; omega)
    simp [toListLoop, hd, e1, e2] at e3 ⊢
    simp [e3]

theorem toList_spec (hg : g.Lawful) (W : TW g st σ) {x s} (hx : σ x = some s) {fuel : Nat}
    (hf : s.length < fuel) : toList g fuel x st = .ok (s.map Prod.snd) st := by
  simp only [toList, M.bind_apply, begin_spec W hx]
  exact toListLoop_spec (s₁ := []) hg W hx (by simp [depth]; omega) fuel hf

/-- The head after a sorted insertion. -/
theorem hd_insSorted (hg : g.Lawful) {s : List (Nat × V)} (hs : T.Sorted g s) {n : Nat} {v : V}
    (hl : lookup g s (g.key v) = none) :
    hd (insSorted g s (n, v)) =
      if (match s.head?.map Prod.snd with | none => true | some w => g.lt v w) then some n else hd s := by
  cases s with
  | nil => simp [insSorted, hd]
  | cons e s =>
    obtain ⟨a, w⟩ := e
    rw [T.sorted_cons] at hs
    simp only [List.head?_cons, Option.map_some]
    rcases Bool.eq_false_or_eq_true (g.lt v w) with hlt | hlt
    · have : ((a, w) :: s).filter (fun d => g.lt d.2 v) = [] := by
        apply T.filter_none
        intro e he
        rcases List.mem_cons.1 he with rfl | he
        · exact hg.asymm hlt
        · exact hg.asymm (hg.trans _ _ _ hlt (hs.1 e he))
      simp [insSorted, this, hd, hlt]
    · have h1 := (List.find?_eq_none.1 hl) (a, w) (by simp)
      have hwv : g.lt w v = true := by
        cases h2 : g.lt w v with
        | true => rfl
        | false =>
          simp only [Cfg.lt] at h2 hlt
          simp [Cfg.equiv, h2, hlt] at h1
      simp [insSorted, hwv, hd, hlt]

theorem insert_new (hg : g.Lawful) (W : TW g st σ) {x s} (hx : σ x = some s) (v : V)
    (hl : lookup g s (g.key v) = none) :
    ∃ st', (∀ fuel, depth s.length < fuel → insert g fuel x v st = .ok (some st.next, true) st') ∧
      TW g st' (upd σ x (some (insSorted g s (st.next, v)))) ∧ st'.next = st.next + 1 := by
  obtain ⟨t, ho, h⟩ := W_rep W hx
  have hids : (treeI g).oids (σ x) = t.ids := by rw [hx]; simp [treeI, T.ids, h.toL]
  have hlook : T.look g (g.key v) t = none := by
    rw [T.look_eq hg (by rw [h.toL]; exact h.sorted), h.toL]; exact hl
  have hbv : BeginVal st.mem (Obj.mk t.rt (hd s) s.length).begin_ (s.head?.map Prod.snd) := by
    cases s with
    | nil => rfl
    | cons e s =>
      obtain ⟨a, w⟩ := e
      obtain ⟨n, h1, h2⟩ := W_cell (s₁ := []) W hx
      exact ⟨n, h1, by rw [h2]; rfl⟩
  have hpre : Pre st (.root x) none t :=
    ⟨⟨_, ho, rfl⟩, h.repr, h.nodup, by simp [Ref.owner]⟩
  obtain ⟨st1, e1, p1⟩ := ins_new_sim (g := g) (v := v) ho hbv W.thr (W.fresh _ (Nat.le_refl _)) hlook hpre
    (by intro y hy; cases hy; rfl)
  have hperm := ids_ins_new (n := st.next) hlook
  have htoL := T.ins_toL hg (by rw [h.toL]; exact h.sorted) st.next v hlook
  rw [h.toL] at htoL
  obtain ⟨n, hn⟩ := h.rb
  obtain ⟨m, hm⟩ := T.black_rb (T.ins_rb g st.next v hn).1
  have hnx : st.next ∉ t.ids := fun hm => h.repr.alloc _ hm (W.fresh _ (Nat.le_refl _))
  have hnd : (T.ins g st.next v t).ids.Nodup := by
    rw [hperm.nodup_iff, List.nodup_cons]; exact ⟨hnx, h.nodup⟩
  -- the new tree is not empty
  cases ht' : T.ins g st.next v t with
  | nil => rw [ht'] at htoL; simp [insSorted] at htoL
  | node c l a w r =>
    rw [ht'] at p1 htoL hnd hperm hm
    have ho1 : st1.objs x = some ⟨some a, hd (insSorted g s (st.next, v)), s.length + 1⟩ := by
      rw [p1.objs]
      simp [wr, bump, bumpO, hd_insSorted hg h.sorted hl]
      try rfl
    have hpre1 : Pre st1 (.root x) none (.node c l a w r) :=
      ⟨⟨_, ho1, rfl⟩, p1.repr, hnd, by simp [Ref.owner]⟩
    obtain ⟨st2, e2, p2⟩ := setBlack_sim hpre1
    have hids2 : (T.node .black l a w r : T V).ids = (T.node c l a w r).ids := by simp
    have ho2 : st2.objs = upd st.objs x (some ⟨some a, hd (insSorted g s (st.next, v)), s.length + 1⟩) := by
      rw [p2.objs]
      simp only [wr, ho1, Option.map_some, T.rt_node]
      rw [p1.objs]
      simp only [wr, bump, upd_upd]
    have hfr : ∀ q, q ∉ (T.node c l a w r).ids → st2.mem q = st.mem q := by
      intro q hq
      rw [p2.frame q (by rw [hids2]; exact hq), wr_mem (by simp [Ref.owner]), p1.frame q hq,
        wr_mem (by simp [Ref.owner])]
      rfl
    refine ⟨st2, ?_, ?_, ?_⟩
    · intro fuel hf
      have := h.height
      have e3 : getRef (.root x) st1 = .ok (some a) st1 := by simp [getRef, ho1]
      simp only [insert, M.bind_apply, e1 fuel (by omega), e3, e2, M.pure_apply]
    · have hidsS : (treeI g).ids (insSorted g s (st.next, v)) = (T.node c l a w r).ids := by
        simp only [treeI, ← htoL]; rfl
      refine W.step1 x _ _ ho2 ?_ ?_ ?_ ?_ ?_ ?_
      · refine ⟨.node .black l a w r, by rw [← htoL]; rfl, ⟨m, hm⟩, p2.repr, by rw [hids2]; exact hnd,
          T.sorted_insSorted hg h.sorted _, ?_⟩
        rw [T.length_insSorted hg hl]; rfl
      · intro q h1 h2; rw [hidsS] at h2; exact hfr q h2
      · intro q hq
        rw [hidsS] at hq
        rw [hids]
        rcases List.mem_cons.1 (hperm.mem_iff.1 hq) with rfl | hq
        · exact Or.inr (Nat.le_refl _)
        · exact Or.inl hq
      · intro q hq hn'
        rw [hidsS] at hn'; rw [hids] at hq
        exact absurd (hperm.mem_iff.2 (List.mem_cons_of_mem _ hq)) hn'
      · intro q hq
        rw [p2.next, p1.next] at hq
        simp [bump] at hq
        have : q ∉ (T.node c l a w r).ids := by
          intro hm
          rcases List.mem_cons.1 (hperm.mem_iff.1 hm) with rfl | hm
          · omega
          · exact h.repr.alloc q hm (W.fresh q (by omega))
        rw [hfr q this]; exact W.fresh q (by omega)
      · rw [p2.thr, p1.thr]; exact W.thr
    · rw [p2.next, p1.next]; rfl

theorem insert_old (hg : g.Lawful) (W : TW g st σ) {x s} (hx : σ x = some s) (v : V) {a₀ v₀}
    (hl : lookup g s (g.key v) = some (a₀, v₀)) :
    ∃ st', (∀ fuel, depth s.length < fuel → insert g fuel x v st = .ok (some a₀, false) st') ∧
      TW g st' σ ∧ st'.next = st.next := by
  obtain ⟨t, ho, h⟩ := W_rep W hx
  have hids : (treeI g).oids (σ x) = t.ids := by rw [hx]; simp [treeI, T.ids, h.toL]
  have hlook : T.look g (g.key v) t = some (a₀, v₀) := by
    rw [T.look_eq hg (by rw [h.toL]; exact h.sorted), h.toL]; exact hl
  have hpre : Pre st (.root x) none t :=
    ⟨⟨_, ho, rfl⟩, h.repr, h.nodup, by simp [Ref.owner]⟩
  obtain ⟨st1, e1, p1⟩ := ins_old_sim (g := g) (v := v) (x := x) hlook hpre
  obtain ⟨n, hn⟩ := h.rb
  rw [T.ins_same hn _ _ hlook] at p1
  have hpre1 := p1.pre hpre (List.Perm.refl _)
  cases t with
  | nil => simp [T.look] at hlook
  | node c l a w r =>
    obtain ⟨st2, e2, p2⟩ := setBlack_sim hpre1
    have hc : c = .black := by cases hn; rfl
    subst hc
    have q := p1.trans hpre (List.Perm.refl _) p2 (List.Perm.refl _)
    have hw : wr st (.root x) (some a) = st := wr_self hpre.at_
    have ho2 : st2.objs = upd st.objs x (some ⟨some a, hd s, s.length⟩) := by
      rw [q.objs, T.rt_node, hw]
      funext y; simp; intro hy; rw [hy, ho]; rfl
    have hfr : ∀ b, b ∉ (T.node .black l a w r).ids → st2.mem b = st.mem b := by
      intro b hb; rw [q.frame b hb, T.rt_node, hw]
    refine ⟨st2, ?_, ?_, q.next⟩
    · intro fuel hf
      have := h.height
      have e3 : getRef (.root x) st1 = .ok (some a) st1 := getRef_at hpre1.at_
      simp only [insert, M.bind_apply, e1 fuel (by omega), e3, e2, M.pure_apply]
    · have hσ : upd σ x (some s) = σ := by rw [← hx, upd_self]
      rw [← hσ]
      have hidsS : (treeI g).ids s = (T.node .black l a w r).ids := by rw [← hids, hx]; rfl
      refine W.step1 x _ s ho2 ⟨_, h.toL, h.rb, q.repr, h.nodup, h.sorted, rfl⟩ ?_ ?_ ?_ ?_ ?_
      · intro b h1 h2; rw [hidsS] at h2; exact hfr b h2
      · intro b hb; rw [hx]; exact Or.inl hb
      · intro b hb hn'; rw [hx] at hb; exact absurd hb hn'
      · intro b hb
        rw [q.next] at hb
        have : b ∉ (T.node .black l a w r).ids := fun hm => h.repr.alloc b hm (W.fresh b hb)
        rw [hfr b this]; exact W.fresh b hb
      · rw [q.thr]; exact W.thr

theorem setX_spec (W : TW g st σ) {x s₁ a v s₂} (w : V) (hx : σ x = some (s₁ ++ (a, v) :: s₂))
    (hk : g.key v = g.key w) :
    ∃ st', setX (some a) w st = .ok () st' ∧ TW g st' (upd σ x (some (setVal a w (s₁ ++ (a, v) :: s₂)))) ∧
      st'.next = st.next := by
  obtain ⟨t, ho, h⟩ := W_rep W hx
  obtain ⟨n, hn, hv⟩ := W_cell W hx
  have hids : (treeI g).ids (setVal a w (s₁ ++ (a, v) :: s₂)) = (treeI g).oids (σ x) := by
    rw [hx]; simp only [treeI, setVal_fst, Iface.oids]
  have ham : a ∈ (treeI g).oids (σ x) := by rw [hx]; simp [treeI]
  refine ⟨⟨st.objs, upd st.mem a (some (some { n with x := w })), st.next, st.thr⟩, ?_, ?_, rfl⟩
  · simp [setX, hn, W.thr]
  · refine W.step1 x ⟨t.rt, hd (s₁ ++ (a, v) :: s₂), (s₁ ++ (a, v) :: s₂).length⟩ _ ?_ ?_ ?_ ?_ ?_ ?_ W.thr
    · funext y; simp only [upd_apply]; split
      · rename_i hy; rw [hy, ho]
      · rfl
    · obtain ⟨m, hm⟩ := h.rb
      refine ⟨t.setV a w, by rw [T.setV_toL, h.toL], ⟨m, T.setV_rb hm⟩, ?_, by rw [T.setV_ids]; exact h.nodup,
        setV_sorted ?_ h.sorted, ?_⟩
      · exact setV_repr h.repr (fun q hq => by simp [hq]) (fun n' hn' => by rw [hn] at hn'; cases hn'; simp)
      · intro v' hv'
        have : v' = v := by
          have hnd := h.nodup
          rw [T.ids, h.toL] at hnd
          obtain ⟨u1, u2, hu⟩ := List.append_of_mem hv'
          have h1 : ∀ (l : List (Nat × V)), (l.map Prod.fst).Nodup → (a, v') ∈ l → (a, v) ∈ l → v' = v := by
            intro l
            induction l with
            | nil => simp
            | cons e l ih =>
              intro hnd h1 h2
              simp only [List.map_cons, List.nodup_cons, List.mem_map, not_exists, not_and] at hnd
              rcases List.mem_cons.1 h1 with h1 | h1 <;> rcases List.mem_cons.1 h2 with h2 | h2
              · rw [← h1] at h2; cases h2; rfl
              · exact absurd (by rw [← h1]) (hnd.1 _ h2)
              · exact absurd (by rw [← h2]) (hnd.1 _ h1)
              · exact ih hnd.2 h1 h2
          exact h1 _ hnd hv' (by simp)
        rw [this]; exact hk
      · rw [T.setV_rt]
        have h1 : hd (setVal a w (s₁ ++ (a, v) :: s₂)) = hd (s₁ ++ (a, v) :: s₂) := by
          have := setVal_fst a w (s₁ ++ (a, v) :: s₂)
          unfold hd
          rw [← List.head?_map, this, List.head?_map]
        rw [h1]
        simp [setVal]
    · intro q hq _
      have : q ≠ a := by rintro rfl; exact hq ham
      simp [this]
    · intro q hq; rw [hids] at hq; exact Or.inl hq
    · intro q hq hn'; rw [hids] at hn'; exact absurd hq hn'
    · intro q hq
      have : q ≠ a := by rintro rfl; have := W.lt_next ham; simp at hq; omega
      simp [this]; exact W.fresh q hq

/-! ### Copying -/

theorem number_length (i : Nat) (vs : List V) : (number i vs).length = vs.length := by
  induction vs generalizing i with
  | nil => rfl
  | cons v vs ih => simp [number, ih]
theorem number_snd (i : Nat) (vs : List V) : (number i vs).map Prod.snd = vs := by
  induction vs generalizing i with
  | nil => rfl
  | cons v vs ih => simp [number, ih]
theorem number_append (i : Nat) (vs : List V) (v : V) :
    number i (vs ++ [v]) = number i vs ++ [(i + vs.length, v)] := by
  induction vs generalizing i with
  | nil => simp [number]
  | cons w vs ih => simp [number, ih]; omega

/-- Inserting a value larger than all others appends it. -/
theorem insSorted_last {s : List (Nat × V)} {e : Nat × V} (hg : g.Lawful) (h : ∀ d ∈ s, g.lt d.2 e.2 = true) :
    insSorted g s e = s ++ [e] ∧ lookup g s (g.key e.2) = none := by
  constructor
  · have h1 : s.filter (fun d => g.lt d.2 e.2) = s := List.filter_eq_self.2 h
    have h2 : s.filter (fun d => g.lt e.2 d.2) = [] := T.filter_none fun d hd => hg.asymm (h d hd)
    simp [insSorted, h1, h2]
  · rw [lookup, List.find?_eq_none]
    intro d hd
    have := h d hd
    simp only [Cfg.lt] at this
    simp [Cfg.equiv, this]

theorem copyLoop_spec (hg : g.Lawful) {x y : Nat} (hxy : x ≠ y) {t₂ : List (Nat × V)} :
    ∀ {st : TSt V} {σ} {t₁ : List (Nat × V)} {n₀ : Nat}, TW g st σ → σ y = some (t₁ ++ t₂) →
      σ x = some (number n₀ (t₁.map Prod.snd)) → st.next = n₀ + t₁.length →
    ∃ st', (∀ fuel f, (t₁ ++ t₂).length < fuel → t₂.length < f → copyLoop g fuel x f (hd t₂) st = .ok () st') ∧
      TW g st' (upd σ x (some (number n₀ ((t₁ ++ t₂).map Prod.snd)))) ∧ st'.next = n₀ + (t₁ ++ t₂).length := by
  induction t₂ with
  | nil =>
    intro st σ t₁ n₀ W hy hx hn
    refine ⟨st, ?_, ?_, by simpa using hn⟩
    · intro fuel f _ hf
      obtain ⟨f, rfl⟩ : ∃ f', f = f' + 1 := ⟨f - 1, by omega⟩
      rfl
    · rw [List.append_nil, ← hx, upd_self]; exact W
  | cons e t₂ ih =>
    obtain ⟨a, v⟩ := e
    intro st σ t₁ n₀ W hy hx hn
    have hs : T.Sorted g (t₁ ++ (a, v) :: t₂) := by
      obtain ⟨t, _, h⟩ := W_rep W hy; exact h.sorted
    rw [T.sorted_append] at hs
    have hall : ∀ d ∈ number n₀ (t₁.map Prod.snd), g.lt d.2 v = true := by
      intro d hd
      have : d.2 ∈ (number n₀ (t₁.map Prod.snd)).map Prod.snd := List.mem_map_of_mem hd
      rw [number_snd] at this
      obtain ⟨e, he, h2⟩ := List.mem_map.1 this
      rw [← h2]; exact hs.2.2 e he (a, v) (by simp)
    obtain ⟨h1, h2⟩ := insSorted_last (g := g) (e := (st.next, v)) hg hall
    obtain ⟨st1, e1, W1, n1⟩ := insert_new hg W hx v h2
    have hx1 : insSorted g (number n₀ (t₁.map Prod.snd)) (st.next, v) =
        number n₀ ((t₁ ++ [(a, v)]).map Prod.snd) := by
      rw [h1, List.map_append, List.map_singleton, number_append, hn]; simp
    rw [hx1] at W1
    have hy1 : upd σ x (some (number n₀ ((t₁ ++ [(a, v)]).map Prod.snd))) y =
        some (t₁ ++ (a, v) :: t₂) := by simp [Ne.symm hxy, hy]
    obtain ⟨st2, e2, W2, n2⟩ := ih (t₁ := t₁ ++ [(a, v)]) W1 (by rw [hy1]; simp) (upd_same _ _ _)
      (by rw [n1, hn]; simp; omega)
    refine ⟨st2, ?_, ?_, by simpa using n2⟩
    · intro fuel f hfuel hf
      obtain ⟨f, rfl⟩ : ∃ f', f = f' + 1 := ⟨f - 1, by omega⟩
      have d1 : depth (number n₀ (t₁.map Prod.snd)).length < fuel := by
        rw [number_length, List.length_map]
        have : depth t₁.length ≤ t₁.length := Nat.min_le_left _ _
        simp at hfuel; omega
      have d2 : depth (t₁ ++ (a, v) :: t₂).length ≤ fuel := by
        have : depth (t₁ ++ (a, v) :: t₂).length ≤ _ := Nat.min_le_left _ _
        omega
      have i1 := inc_spec hg W1 hy1 d2
      have r := e2 fuel f (by simpa using hfuel) (by simp at hf; omega)
      simp only [hd, List.head?_cons, Option.map_some, copyLoop, M.bind_apply, deref_spec W hy, e1 fuel d1, i1]
      exact r
    · rw [upd_upd] at W2
      simpa using W2

theorem copyCtor_spec (hg : g.Lawful) (W : TW g st σ) {x y t} (hx : σ x = none) (hy : σ y = some t) :
    ∃ st', (∀ fuel, t.length < fuel → copyCtor g fuel x y st = .ok () st') ∧
      TW g st' (upd σ x (some (number st.next (t.map Prod.snd)))) ∧ st'.next = st.next + t.length := by
  have hxy : x ≠ y := by rintro rfl; rw [hx] at hy; cases hy
  obtain ⟨st1, e1, W1, n1⟩ := ctor_spec W hx
  have hy1 : upd σ x (some []) y = some ([] ++ t) := by simp [Ne.symm hxy, hy]
  obtain ⟨st2, e2, W2, n2⟩ := copyLoop_spec hg hxy W1 hy1 (n₀ := st.next) (upd_same _ _ _) (by simp [n1])
  refine ⟨st2, ?_, by simpa [upd_upd] using W2, by simpa using n2⟩
  intro fuel hf
  simp only [copyCtor, M.bind_apply, e1]
  apply M.onThrow_of_ok
  simp only [M.bind_apply, begin_spec W1 hy1, List.nil_append]
  exact e2 fuel fuel (by simpa using hf) hf

theorem assign_spec (hg : g.Lawful) (W : TW g st σ) {x y s t} (hxy : x ≠ y) (hx : σ x = some s)
    (hy : σ y = some t) :
    ∃ st', (∀ fuel, s.length < fuel → t.length < fuel → assign g fuel x y st = .ok () st') ∧
      TW g st' (upd σ x (some (number st.next (t.map Prod.snd)))) ∧ st'.next = st.next + t.length := by
  obtain ⟨st1, e1, W1, n1⟩ := clear_spec W hx
  have hy1 : upd σ x (some []) y = some ([] ++ t) := by simp [Ne.symm hxy, hy]
  obtain ⟨st2, e2, W2, n2⟩ := copyLoop_spec hg hxy W1 hy1 (n₀ := st.next) (upd_same _ _ _) (by simp [n1])
  refine ⟨st2, ?_, by simpa [upd_upd] using W2, by simpa using n2⟩
  intro fuel hs hf
  have : depth s.length ≤ s.length := Nat.min_le_left _ _
  simp only [assign, M.bind_apply, e1 fuel (by omega), begin_spec W1 hy1, List.nil_append]
  exact e2 fuel fuel (by simpa using hf) hf

/-- Self-assignment clears. -/
theorem assign_self (W : TW g st σ) {x s} (hx : σ x = some s) :
    ∃ st', (∀ fuel, s.length < fuel → assign g fuel x x st = .ok () st') ∧
      TW g st' (upd σ x (some [])) ∧ st'.next = st.next := by
  obtain ⟨st1, e1, W1, n1⟩ := clear_spec W hx
  refine ⟨st1, ?_, W1, n1⟩
  intro fuel hs
  have : depth s.length ≤ s.length := Nat.min_le_left _ _
  obtain ⟨f, rfl⟩ : ∃ f', fuel = f' + 1 := ⟨fuel - 1, by omega⟩
  simp only [assign, M.bind_apply, e1 (f+1) (by omega), begin_spec W1 (upd_same σ x (some []))]
  rfl

end Cest.Tree
