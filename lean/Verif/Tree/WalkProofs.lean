import Verif.Tree.Walk
import Verif.Tree.Generic
/-
Lemmas for C148: the moves of a traversal.
-/
namespace Cest.Tree
open Cest
variable {V K : Type}
set_option linter.unusedSimpArgs false

/-! ### The counter changes nothing -/

theorem leftmostC_fst (f a : Nat) : (do let r ← leftmostC f a; pure r.1 : TM V Nat) = leftmost f a := by
  induction f generalizing a with
  | zero => rfl
  | succ f ih =>
    funext st
    simp only [leftmostC, leftmost, M.bind_apply]
    cases h : getN a st with
    | ok n s =>
      simp only []
      cases n.l with
      | none => rfl
      | some b =>
        simp only [M.bind_apply]
        have := congrFun (ih b) s
        simp only [M.bind_apply] at this
        rw [← this]
        cases leftmostC f b s <;> rfl
    | throw e s => rfl
    | ub u => rfl
    | timeout => rfl

theorem climbC_fst (g : Cfg V K) (f a : Nat) (p : Option Nat) :
    (do let r ← climbC g f a p; pure r.1 : TM V (Option Nat)) = climb g f a p := by
  induction f generalizing a p with
  | zero => rfl
  | succ f ih =>
    funext st
    cases p with
    | none => rfl
    | some q =>
      simp only [climbC, climb, M.bind_apply]
      cases h : getN q st with
      | ok n s =>
        simp only []
        cases n.r with
        | none => rfl
        | some b =>
          simp only [M.bind_apply]
          cases h2 : sameChild g a b s with
          | ok t s2 =>
            cases t with
            | false => rfl
            | true =>
              simp only [if_true, M.bind_apply]
              cases h3 : getN q s2 with
              | ok n3 s3 =>
                simp only []
                have := congrFun (ih q n3.p) s3
                simp only [M.bind_apply] at this
                rw [← this]
                cases climbC g f q n3.p s3 <;> rfl
              | throw e s => rfl
              | ub u => rfl
              | timeout => rfl
          | throw e s => rfl
          | ub u => rfl
          | timeout => rfl
      | throw e s => rfl
      | ub u => rfl
      | timeout => rfl

theorem incC_fst (g : Cfg V K) (f : Nat) (p : Option Nat) :
    (do let r ← incC g f p; pure r.1 : TM V (Option Nat)) = inc g f p := by
  funext st
  simp only [incC, inc, M.bind_apply]
  cases h : deref p st with
  | ok a s =>
    simp only []
    cases h2 : getN a s with
    | ok n s2 =>
      simp only []
      cases n.r with
      | none =>
        simp only [M.bind_apply]
        cases h3 : getN a s2 with
        | ok n3 s3 =>
          have := congrFun (climbC_fst g f a n3.p) s3
          simp only [M.bind_apply] at this
          exact this
        | throw e s => rfl
        | ub u => rfl
        | timeout => rfl
      | some b =>
        simp only [M.bind_apply]
        have := congrFun (leftmostC_fst f b) s2
        simp only [M.bind_apply] at this
        rw [← this]
        cases leftmostC f b s2 <;> rfl
    | throw e s => rfl
    | ub u => rfl
    | timeout => rfl
  | throw e s => rfl
  | ub u => rfl
  | timeout => rfl

theorem walkLoop_fst (g : Cfg V K) (fuel f : Nat) (p : Option Nat) :
    (do let r ← walkLoop g fuel f p; pure (r.map Prod.fst) : TM V (List V)) = toListLoop g fuel f p := by
  induction f generalizing p with
  | zero => rfl
  | succ f ih =>
    funext st
    cases p with
    | none => rfl
    | some a =>
      simp only [walkLoop, toListLoop, M.bind_apply]
      cases h : getX (some a) st with
      | ok v s =>
        simp only []
        have := congrFun (incC_fst g fuel (some a)) s
        simp only [M.bind_apply] at this
        rw [← this]
        cases h2 : incC g fuel (some a) s with
        | ok q s2 =>
          simp only [M.pure_apply]
          have := congrFun (ih q.1) s2
          simp only [M.bind_apply] at this
          rw [← this]
          cases walkLoop g fuel f q.1 s2 <;> rfl
        | throw e s => rfl
        | ub u => rfl
        | timeout => rfl
      | throw e s => rfl
      | ub u => rfl
      | timeout => rfl

/-! ### Moves in a tree -/

/-- Left and right edges from the root. -/
def T.lsp : T V → Nat
  | .nil => 0
  | .node _ .nil _ _ _ => 0
  | .node _ l _ _ _ => l.lsp + 1
@[inherit_doc T.lsp]
def T.rsp : T V → Nat
  | .nil => 0
  | .node _ _ _ _ .nil => 0
  | .node _ _ _ _ r => r.rsp + 1

theorem T.lsp_node {c c2 l2 b w r2 a v r} :
    (T.node c (.node c2 l2 b w r2) a v r : T V).lsp = (T.node c2 l2 b w r2).lsp + 1 := by
  rw [T.lsp]; simp

theorem T.lsp_lt {c l a v r} : (T.node c l a v r : T V).lsp < (T.node c l a v r).height := by
  induction l generalizing c a v r with
  | nil => simp [T.lsp, T.height]
  | node c2 l2 b w r2 ih _ =>
    have := ih (c := c2) (a := b) (v := w) (r := r2)
    rw [T.lsp, T.height]
    · omega
    · simp
theorem T.rsp_lt {c l a v r} : (T.node c l a v r : T V).rsp < (T.node c l a v r).height := by
  induction r generalizing c a v l with
  | nil => simp [T.rsp, T.height]
  | node c2 l2 b w r2 _ ih =>
    have := ih (c := c2) (a := b) (v := w) (l := l2)
    rw [T.rsp, T.height]
    · omega
    · simp

theorem leftmostC_sim {st : TSt V} {c l a v r} {par} (h : Repr st.mem par (.node c l a v r)) :
    ∃ z w s, (T.node c l a v r).toL = (z, w) :: s ∧
      ∀ f, (T.node c l a v r).height ≤ f → leftmostC f a st = .ok (z, (T.node c l a v r).lsp) st := by
  generalize ht : T.node c l a v r = t at h
  induction t generalizing c l a v r par with
  | nil => cases ht
  | node c' l' a' v' r' ih1 ih2 =>
    cases ht
    cases l' with
    | nil =>
      refine ⟨a', v', r'.toL, rfl, ?_⟩
      intro f hf
      obtain ⟨f, rfl⟩ : ∃ f', f = f' + 1 := ⟨f - 1, by simp only [T.height] at hf; omega⟩
      have := h.1
      simp only [leftmostC, M.bind_apply, getN_some this, T.rt_nil, T.lsp]; rfl
    | node c2 l2 b w2 r2 =>
      obtain ⟨z, w, s, h1, h2⟩ := ih1 rfl h.2.1
      refine ⟨z, w, s ++ (a', v') :: r'.toL, by rw [T.toL_node, h1]; rfl, ?_⟩
      intro f hf
      obtain ⟨f, rfl⟩ : ∃ f', f = f' + 1 := ⟨f - 1, by simp only [T.height] at hf; omega⟩
      have := h.1
      rw [T.height] at hf
      simp only [leftmostC, M.bind_apply, getN_some this, T.rt_node, h2 f (by omega), M.pure_apply]
      rw [T.lsp_node]

/-- Consecutive elements related by `P a b c`; the `c` collected. -/
inductive Steps (P : Nat → Nat → Nat → Prop) : List (Nat × V) → List Nat → Prop
  | one (e) : Steps P [e] []
  | cons {a v b w s c cs} : P a b c → Steps P ((b, w) :: s) cs → Steps P ((a, v) :: (b, w) :: s) (c :: cs)

theorem Steps.append {P : Nat → Nat → Nat → Prop} {s₁ s₂ : List (Nat × V)} {a v b w c cs₁ cs₂}
    (h1 : Steps P (s₁ ++ [(a, v)]) cs₁) (h : P a b c) (h2 : Steps P ((b, w) :: s₂) cs₂) :
    Steps P (s₁ ++ (a, v) :: (b, w) :: s₂) (cs₁ ++ c :: cs₂) := by
  induction s₁ generalizing cs₁ with
  | nil =>
    cases h1
    exact .cons h h2
  | cons e s ih =>
    cases s with
    | nil => cases h1 with | cons p q => cases q; exact .cons p (.cons h h2)
    | cons e2 s => cases h1 with | cons p q => exact .cons p (ih q)

theorem Steps.mono {P Q : Nat → Nat → Nat → Prop} (hpq : ∀ a b c, P a b c → Q a b c) {s : List (Nat × V)} {cs}
    (h : Steps P s cs) : Steps Q s cs := by
  induction h with
  | one => exact .one _
  | cons p _ ih => exact .cons (hpq _ _ _ p) ih

theorem Steps.all {P : Nat → Nat → Nat → Prop} {Q : Nat → Prop} (hpq : ∀ a b c, P a b c → Q c) {s : List (Nat × V)}
    {cs} (h : Steps P s cs) : ∀ c ∈ cs, Q c := by
  induction h with
  | one => simp
  | cons p _ ih =>
    intro c hc
    rcases List.mem_cons.1 hc with rfl | hc
    · exact hpq _ _ _ p
    · exact ih c hc

/-- `++` with enough fuel for a tree of height `H` goes from `a` to `b` in `c` moves. -/
def Hop (g : Cfg V K) (st : TSt V) (H a b c : Nat) : Prop :=
  1 ≤ c ∧ c ≤ H ∧ ∀ f, H ≤ f → incC g f (some a) st = .ok (some b, c) st

theorem Hop.mono {g : Cfg V K} {st : TSt V} {H H' a b c : Nat} (h : Hop g st H a b c) (hH : H ≤ H') :
    Hop g st H' a b c := ⟨h.1, by have := h.2.1; omega, fun f hf => h.2.2 f (by omega)⟩

/-- Climbing on with a number of moves already made. -/
def addC {S : Type} (d : Nat) : Res S (Option Nat × Nat) → Res S (Option Nat × Nat)
  | .ok r s => .ok (r.1, r.2 + d) s
  | .throw e s => .throw e s
  | .ub u => .ub u
  | .timeout => .timeout

theorem addC_zero {S : Type} (r : Res S (Option Nat × Nat)) : addC 0 r = r := by cases r <;> rfl
theorem addC_addC {S : Type} (d e : Nat) (r : Res S (Option Nat × Nat)) : addC d (addC e r) = addC (e + d) r := by
  cases r <;> simp [addC, Nat.add_assoc]

/-- All moves inside a subtree, and how the last one continues. -/
theorem incC_sim {g : Cfg V K} (hg : g.Lawful) {st : TSt V} {c l x w r} {par}
    (h : Repr st.mem par (.node c l x w r)) (hnd : (T.node c l x w r).ids.Nodup)
    (hs : T.Sorted g (T.node c l x w r).toL) :
    ∃ s a v cs, (T.node c l x w r).toL = s ++ [(a, v)] ∧
      Steps (Hop g st (T.node c l x w r).height) (T.node c l x w r).toL cs ∧
      cs.sum + (T.node c l x w r).lsp + (T.node c l x w r).rsp + 2 = 2 * (T.node c l x w r).toL.length ∧
      ∀ f, incC g (f + (T.node c l x w r).rsp) (some a) st =
        addC (T.node c l x w r).rsp (climbC g f x par st) := by
  generalize ht : T.node c l x w r = t at h hnd hs ⊢
  induction t generalizing c l x w r par with
  | nil => cases ht
  | node c l x w r ih1 ih2 =>
    cases ht
    have hn := nodup_node hnd
    rw [T.toL_node, T.sorted_append, T.sorted_cons] at hs
    obtain ⟨hsl, ⟨hsr1, hsr⟩, hlr⟩ := hs
    have hx := h.1
    -- the right part, starting at the root
    have right : ∃ s a v cs, (x, w) :: r.toL = s ++ [(a, v)] ∧
        Steps (Hop g st (r.height + 1)) ((x, w) :: r.toL) cs ∧
        cs.sum + (T.node c l x w r).rsp = 2 * r.toL.length ∧
        ∀ f, incC g (f + (T.node c l x w r).rsp) (some a) st =
          addC (T.node c l x w r).rsp (climbC g f x par st) := by
      cases r with
      | nil =>
        refine ⟨[], x, w, [], rfl, .one _, by simp [T.rsp], ?_⟩
        intro f
        simp only [T.rsp, addC_zero, incC, M.bind_apply, deref_some, getN_some hx, T.rt_nil, Nat.add_zero]
      | node c2 l2 y w2 r2 =>
        obtain ⟨s, a, v, cs, e1, e2, e3, e4⟩ := ih2 rfl h.2.2 hn.2.1 hsr
        obtain ⟨z, w3, s3, h3, h4⟩ := leftmostC_sim h.2.2
        refine ⟨(x, w) :: s, a, v, ((T.node c2 l2 y w2 r2).lsp + 1) :: cs, by rw [e1]; rfl, ?_, ?_, ?_⟩
        · rw [h3] at e2 ⊢
          refine .cons ⟨by omega, ?_, ?_⟩ (e2.mono fun _ _ _ q => q.mono (by omega))
          · have := T.lsp_lt (c := c2) (l := l2) (a := y) (v := w2) (r := r2); omega
          · intro f hf
            simp only [incC, M.bind_apply, deref_some, getN_some hx, T.rt_node, h4 f (by omega), M.pure_apply]
        · rw [T.rsp]
          · simp only [List.sum_cons]; omega
          · simp
        · intro f
          have : (T.node c l x w (.node c2 l2 y w2 r2)).rsp = (T.node c2 l2 y w2 r2).rsp + 1 := by
            rw [T.rsp]; simp
          rw [this, show f + ((T.node c2 l2 y w2 r2).rsp + 1) = (f + 1) + (T.node c2 l2 y w2 r2).rsp by omega, e4]
          rw [Nat.add_comm (T.rsp _) 1, ← addC_addC]
          congr 1
          simp only [climbC, M.bind_apply, getN_some hx, T.rt_node, sameChild_true hg h.2.2.1, if_true]
          cases climbC g f x par st <;> rfl
    obtain ⟨s, a, v, cs, e1, e2, e3, e4⟩ := right
    cases l with
    | nil =>
      refine ⟨s, a, v, cs, e1, e2.mono fun _ _ _ q => q.mono (by simp [T.height]), ?_, e4⟩
      simp only [T.lsp, T.toL_node, T.toL_nil, List.nil_append, List.length_cons]
      omega
    | node c2 l2 y w2 r2 =>
      obtain ⟨s', a', v', cs', f1, f2, f3, f4⟩ := ih1 rfl h.2.1 hn.1 hsl
      refine ⟨s' ++ (a', v') :: s, a, v, cs' ++ ((T.node c2 l2 y w2 r2).rsp + 1) :: cs, ?_, ?_, ?_, e4⟩
      · rw [T.toL_node, f1, e1]; simp
      · rw [T.toL_node, f1]
        rw [f1] at f2
        simp only [List.append_assoc, List.singleton_append]
        refine (f2.mono fun _ _ _ q => q.mono (by simp only [T.height]; omega)).append ?_
          (e2.mono fun _ _ _ q => q.mono (by simp only [T.height]; omega))
        have hr := T.rsp_lt (c := c2) (l := l2) (a := y) (v := w2) (r := r2)
        refine ⟨by omega, by rw [T.height]; omega, ?_⟩
        intro f hf
        rw [T.height] at hf
        rw [show f = (f - (T.node c2 l2 y w2 r2).rsp) + (T.node c2 l2 y w2 r2).rsp by omega, f4]
        obtain ⟨f', hf'⟩ : ∃ f', f - (T.node c2 l2 y w2 r2).rsp = f' + 1 :=
          ⟨f - (T.node c2 l2 y w2 r2).rsp - 1, by omega⟩
        rw [hf']
        have hc : climbC g (f' + 1) y (some x) st = .ok (some x, 1) st := by
          cases r with
          | nil => simp only [climbC, M.bind_apply, getN_some hx, T.rt_nil]; rfl
          | node c3 l3 y3 w3 r3 =>
            have : sameChild g y y3 st = .ok false st := by
              refine sameChild_false hg h.2.1.1 h.2.2.1 ?_ ?_
              · have := hn.2.2.2.2.1 y (by simp)
                simp at this
                exact this.2.2.1
              · exact hg.trans _ _ _ (hlr (y, w2) (by simp) (x, w) (by simp)) (hsr1 (y3, w3) (by simp))
            simp only [climbC, M.bind_apply, getN_some hx, T.rt_node, this, if_false, Bool.false_eq_true,
              M.pure_apply]
        rw [hc]
        simp [addC, Nat.add_comm]
      · have : (T.node c (.node c2 l2 y w2 r2) x w r).lsp = (T.node c2 l2 y w2 r2).lsp + 1 := by
          rw [T.lsp]; simp
        rw [this, T.toL_node, List.sum_append, List.sum_cons, List.length_append, List.length_cons]
        omega

/-- The whole loop over the elements from `s₂` on. -/
theorem walkLoop_steps {g : Cfg V K} {st : TSt V} {H : Nat} {s : List (Nat × V)} {cs : List Nat} {a v k}
    (hst : Steps (Hop g st H) (s ++ [(a, v)]) cs) (hx : ∀ e ∈ s ++ [(a, v)], getX (some e.1) st = .ok e.2 st)
    {fuel : Nat} (hf : H ≤ fuel) (hl : incC g fuel (some a) st = .ok (none, k) st) :
    ∀ f, (s ++ [(a, v)]).length < f → walkLoop g fuel f (hd (s ++ [(a, v)])) st =
      .ok (((s ++ [(a, v)]).map Prod.snd).zip (cs ++ [k])) st := by
  induction s generalizing cs with
  | nil =>
    intro f hf
    cases hst
    obtain ⟨f, rfl⟩ : ∃ f', f = f' + 2 := ⟨f - 2, by simp at hf; omega⟩
    have := hx (a, v) (by simp)
    simp only [List.nil_append, hd, List.head?_cons, Option.map_some, walkLoop, M.bind_apply, this, hl, M.pure_apply]
    rfl
  | cons e s ih =>
    intro f hf'
    obtain ⟨f, rfl⟩ : ∃ f', f = f' + 1 := ⟨f - 1, by omega⟩
    obtain ⟨a0, v0⟩ := e
    have h0 := hx (a0, v0) (by simp)
    generalize hs' : s ++ [(a, v)] = s' at *
    have hst' : Steps (Hop g st H) ((a0, v0) :: s') cs := by rw [← hs']; exact hst
    rw [List.cons_append, hs'] at hf' ⊢
    cases hst' with
    | one => simp at hs'
    | cons p q =>
      rename_i b w s2 c0 cs2
      have i := ih q (fun e he => hx e (by rw [List.cons_append, hs']; exact List.mem_cons_of_mem _ he)) f
        (by simpa using hf')
      simp only [hd, List.head?_cons, Option.map_some, walkLoop, M.bind_apply, h0, p.2.2 fuel hf] at i ⊢
      rw [i]
      simp

theorem Steps.len {P : Nat → Nat → Nat → Prop} {s : List (Nat × V)} {cs} (h : Steps P s cs) :
    cs.length + 1 = s.length := by
  induction h with
  | one => rfl
  | cons _ _ ih => simp only [List.length_cons] at ih ⊢; omega

theorem sum_ge {l : List Nat} (h : ∀ c ∈ l, 1 ≤ c) : l.length ≤ l.sum := by
  induction l with
  | nil => simp
  | cons b l ih =>
    have := ih fun c hc => h c (List.mem_cons_of_mem _ hc)
    have := h b (by simp)
    simp only [List.sum_cons, List.length_cons]; omega

/-- A whole traversal: the moves made by the increments. -/
theorem walk_spec {g : Cfg V K} {st : TSt V} {σ : Nat → Option (List (Nat × V))} (hg : g.Lawful) (W : TW g st σ)
    {x s} (hx : σ x = some s) (hne : s ≠ []) :
    ∃ cs : List Nat, cs.length = s.length ∧ cs.sum + 1 ≤ 2 * s.length ∧ s.length ≤ cs.sum ∧
      2 * s.length ≤ cs.sum + depth s.length ∧
      (∀ c ∈ cs, 1 ≤ c ∧ c ≤ depth s.length) ∧
      ∀ fuel, s.length < fuel → walk g fuel x st = .ok ((s.map Prod.snd).zip cs) st := by
  obtain ⟨t, ho, h⟩ := W_rep W hx
  cases t with
  | nil => exact absurd h.toL.symm hne
  | node c l a v r =>
    have hh := h.height
    have hd' : depth s.length ≤ s.length := Nat.min_le_left _ _
    have hrs := T.rsp_lt (c := c) (l := l) (a := a) (v := v) (r := r)
    obtain ⟨s', z, w, cs, e1, e2, e3, e4⟩ := incC_sim hg h.repr h.nodup (by rw [h.toL]; exact h.sorted)
    rw [h.toL] at e1 e2 e3
    have hlast : ∀ f, (T.node c l a v r).height ≤ f →
        incC g f (some z) st = .ok (none, (T.node c l a v r).rsp + 1) st := by
      intro f hf
      rw [show f = (f - (T.node c l a v r).rsp) + (T.node c l a v r).rsp by omega, e4]
      obtain ⟨f', hf'⟩ : ∃ f', f - (T.node c l a v r).rsp = f' + 1 :=
        ⟨f - (T.node c l a v r).rsp - 1, by omega⟩
      rw [hf']
      simp [climbC, addC, Nat.add_comm]
    have hall : ∀ c' ∈ cs ++ [(T.node c l a v r).rsp + 1], 1 ≤ c' ∧ c' ≤ depth s.length := by
      intro c' hc'
      rcases List.mem_append.1 hc' with hc' | hc'
      · refine e2.all (Q := fun c' => 1 ≤ c' ∧ c' ≤ depth s.length) ?_ c' hc'
        intro _ _ c' p
        have := p.1; have := p.2.1
        omega
      · rw [List.mem_singleton.1 hc']; omega
    have hlen : (cs ++ [(T.node c l a v r).rsp + 1]).length = s.length := by
      have := e2.len; simp; exact this
    refine ⟨cs ++ [(T.node c l a v r).rsp + 1], hlen, ?_, ?_, ?_, hall, ?_⟩
    · simp only [List.sum_append, List.sum_cons, List.sum_nil]; omega
    · rw [← hlen]
      exact sum_ge fun c' hc' => (hall c' hc').1
    · have := T.lsp_lt (c := c) (l := l) (a := a) (v := v) (r := r)
      simp only [List.sum_append, List.sum_cons, List.sum_nil]; omega
    · intro fuel hf
      simp only [walk, M.bind_apply, begin_spec W hx]
      rw [e1] at e2 hx hf hd' hh ⊢
      exact walkLoop_steps e2 (by
        intro e he
        obtain ⟨p, q, hpq⟩ := List.append_of_mem he
        obtain ⟨a', v'⟩ := e
        exact deref_spec W (hx.trans (congrArg some hpq))) (by omega) (hlast fuel (by omega)) fuel hf

end Cest.Tree
