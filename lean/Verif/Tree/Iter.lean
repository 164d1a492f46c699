import Verif.Tree.Proofs
/-
Searching, iterating and clearing on the machine (helper lemmas).
-/
namespace Cest.Tree
open Cest
variable {V K : Type}
set_option linter.unusedSimpArgs false

theorem find_sim {g : Cfg V K} {st : TSt V} {t : T V} {par} (k : K) (h : Repr st.mem par t) :
    ∀ f, t.height < f → findLoop g k f t.rt st = .ok ((T.look g k t).map Prod.fst) st := by
  induction t generalizing par with
  | nil =>
    intro f hf
    obtain ⟨f, rfl⟩ : ∃ f', f = f' + 1 := ⟨f - 1, by omega⟩
    rfl
  | node c l a w r ih1 ih2 =>
    intro f hf
    obtain ⟨f, rfl⟩ : ∃ f', f = f' + 1 := ⟨f - 1, by omega⟩
    simp only [T.height] at hf
    simp only [findLoop, T.rt_node, M.bind_apply, getN_some h.1, T.look]
    split
    · exact ih1 h.2.1 f (by omega)
    · split
      · exact ih2 h.2.2 f (by omega)
      · rfl

theorem dd_sim {st : TSt V} {t : T V} {par} (h : Repr st.mem par t) (hnd : t.ids.Nodup) :
    ∃ st', (∀ f, t.height < f → dd f t.rt st = .ok () st') ∧ st'.objs = st.objs ∧ st'.next = st.next ∧
      st'.thr = st.thr ∧ (∀ q ∈ t.ids, st'.mem q = none) ∧ ∀ q, q ∉ t.ids → st'.mem q = st.mem q := by
  induction t generalizing par st with
  | nil =>
    refine ⟨st, ?_, rfl, rfl, rfl, by simp, by simp⟩
    intro f hf
    obtain ⟨f, rfl⟩ : ∃ f', f = f' + 1 := ⟨f - 1, by omega⟩
    rfl
  | node c l a w r ih1 ih2 =>
    have hn := nodup_node hnd
    obtain ⟨st1, e1, o1, n1, t1, g1, f1⟩ := ih1 h.2.1 hn.1
    have ha1 : st1.mem a = _ := (f1 a hn.2.2.1).trans h.1
    have hr1 : Repr st1.mem (some a) r := h.2.2.congr fun q hq => f1 q (hn.2.2.2.2.2 q hq).2
    obtain ⟨st2, e2, o2, n2, t2, g2, f2⟩ := ih2 hr1 hn.2.1
    have ha2 : st2.mem a = _ := (f2 a hn.2.2.2.1).trans ha1
    refine ⟨⟨st2.objs, upd st2.mem a none, st2.next, st2.thr⟩, ?_, by simp [o1, o2], by simp [n1, n2],
      by simp [t1, t2], ?_, ?_⟩
    · intro f hf
      obtain ⟨f, rfl⟩ : ∃ f', f = f' + 1 := ⟨f - 1, by omega⟩
      simp only [T.height] at hf
      simp only [dd, T.rt_node, M.bind_apply, getN_some h.1, e1 f (by omega), getN_some ha1, e2 f (by omega)]
      simp [destroyNode, freeNode, ha2, upd_upd]
    · intro q hq
      simp only [upd_apply]
      split
      · rfl
      · rename_i hqa
        simp [hqa] at hq
        rcases hq with hq | hq
        · rw [f2 q (hn.2.2.2.2.1 q hq).2]; exact g1 q hq
        · exact g2 q hq
    · intro q hq
      simp at hq
      simp only [upd_apply, if_neg hq.2.1]
      rw [f2 q hq.2.2, f1 q hq.1]

/-- First address in order. -/
def hd (s : List (Nat × V)) : Option Nat := s.head?.map Prod.fst

theorem leftmost_sim {st : TSt V} {c l a v r} {par} (h : Repr st.mem par (.node c l a v r)) :
    ∃ z w s, (T.node c l a v r).toL = (z, w) :: s ∧
      ∀ f, (T.node c l a v r).height ≤ f → leftmost f a st = .ok z st := by
  generalize ht : T.node c l a v r = t at h
  induction t generalizing c l a v r par with
  | nil => cases ht
  | node c' l' a' v' r' ih1 ih2 =>
    cases ht
    cases l' with
    | nil =>
      refine ⟨a', v', r'.toL, rfl, ?_⟩
      intro f hf
      obtain ⟨f, rfl⟩ : ∃ f', f = f' + 1 := ⟨f - 1, by simp only [T.height] at hf; omega⟩
      have := h.1
      simp only [leftmost, M.bind_apply, getN_some this, T.rt_nil]; rfl
    | node c2 l2 b w2 r2 =>
      obtain ⟨z, w, s, h1, h2⟩ := ih1 rfl h.2.1
      refine ⟨z, w, s ++ (a', v') :: r'.toL, by rw [T.toL_node, h1]; rfl, ?_⟩
      intro f hf
      obtain ⟨f, rfl⟩ : ∃ f', f = f' + 1 := ⟨f - 1, by simp only [T.height] at hf; omega⟩
      have := h.1
      simp only [leftmost, M.bind_apply, getN_some this, T.rt_node]
      rw [T.height] at hf
      exact h2 f (by omega)

theorem sameChild_true {g : Cfg V K} (hg : g.Lawful) {st : TSt V} {a : Nat} {n : Node V}
    (h : st.mem a = some (some n)) : sameChild g a a st = .ok true st := by
  unfold sameChild
  cases hs : g.same with
  | none => simp
  | some e => simp [getX, h, hg.sameRefl e hs]

theorem sameChild_false {g : Cfg V K} (hg : g.Lawful) {st : TSt V} {a b : Nat} {n m : Node V}
    (ha : st.mem a = some (some n)) (hb : st.mem b = some (some m)) (hab : a ≠ b)
    (hlt : g.lt n.x m.x = true) : sameChild g a b st = .ok false st := by
  unfold sameChild
  cases hs : g.same with
  | none => simp [hab]
  | some e =>
    have : e (g.key n.x) (g.key m.x) = false := by
      cases he : e (g.key n.x) (g.key m.x) with
      | false => rfl
      | true =>
        have := hg.sameEquiv e hs _ _ he
        simp [Cfg.equiv] at this
        rw [show g.comp (g.key n.x) (g.key m.x) = true from hlt] at this
        cases this.1
    simp [getX, ha, hb, this]

/-- `++` inside a subtree goes to the next element, and from the last element continues climbing from the
root of the subtree. -/
theorem inc_sim {g : Cfg V K} (hg : g.Lawful) {st : TSt V} {t : T V} {par} (h : Repr st.mem par t)
    (hnd : t.ids.Nodup) (hs : T.Sorted g t.toL) :
    ∀ {s₁ a v s₂}, t.toL = s₁ ++ (a, v) :: s₂ →
      (∀ b, hd s₂ = some b → ∀ f, t.height ≤ f → inc g f (some a) st = .ok (some b) st) ∧
      (s₂ = [] → ∃ d z, d < t.height ∧ t.rt = some z ∧ ∀ f, inc g (f + d) (some a) st = climb g f z par st) := by
  induction t generalizing par with
  | nil => intro s₁ a v s₂ h1; simp at h1
  | node c l x w r ih1 ih2 =>
    intro s₁ a v s₂ h1
    have hn := nodup_node hnd
    rw [T.toL_node, T.sorted_append, T.sorted_cons] at hs
    obtain ⟨hsl, ⟨hsr1, hsr⟩, hlr⟩ := hs
    rw [T.toL_node, List.append_eq_append_iff] at h1
    have hx := h.1
    rcases h1 with ⟨u, hu1, hu2⟩ | ⟨u, hu1, hu2⟩
    · -- `a` is the root or on the right
      cases u with
      | nil =>
        simp at hu2
        obtain ⟨⟨rfl, rfl⟩, rfl⟩ := hu2
        refine ⟨?_, ?_⟩
        · intro b hb f hf
          rw [T.height] at hf
          cases r with
          | nil => simp [hd] at hb
          | node c2 l2 y w2 r2 =>
            obtain ⟨z, w3, s, h3, h4⟩ := leftmost_sim h.2.2
            rw [h3] at hb
            simp [hd] at hb
            subst hb
            simp only [inc, M.bind_apply, deref_some, getN_some hx, T.rt_node, h4 f (by omega), M.pure_apply]
        · intro he
          have : r = .nil := by cases r with | nil => rfl | node => simp at he
          subst this
          refine ⟨0, x, by simp [T.height], rfl, ?_⟩
          intro f
          simp only [inc, M.bind_apply, deref_some, getN_some hx, T.rt_nil, Nat.add_zero]
      | cons e u =>
        simp at hu2
        obtain ⟨_, hu2⟩ := hu2
        obtain ⟨i1, i2⟩ := ih2 h.2.2 hn.2.1 hsr hu2
        refine ⟨fun b hb f hf => i1 b hb f (by rw [T.height] at hf; omega), ?_⟩
        intro he
        obtain ⟨d, z, hd, hz, hi⟩ := i2 he
        refine ⟨d + 1, x, by rw [T.height]; omega, rfl, ?_⟩
        intro f
        rw [show f + (d + 1) = (f + 1) + d by omega, hi (f + 1)]
        have hrz := h.2.2
        cases r with
        | nil => cases hz
        | node c2 l2 y w2 r2 =>
          simp at hz; subst hz
          simp only [climb, M.bind_apply, getN_some hx, T.rt_node, sameChild_true hg hrz.1, if_true]
    · -- `a` is on the left
      cases u with
      | nil =>
        simp at hu2
        obtain ⟨⟨rfl, rfl⟩, rfl⟩ := hu2
        refine ⟨?_, ?_⟩
        · intro b hb f hf
          rw [T.height] at hf
          cases r with
          | nil => simp [hd] at hb
          | node c2 l2 y w2 r2 =>
            obtain ⟨z, w3, s, h3, h4⟩ := leftmost_sim h.2.2
            rw [h3] at hb
            simp [hd] at hb
            subst hb
            simp only [inc, M.bind_apply, deref_some, getN_some hx, T.rt_node, h4 f (by omega), M.pure_apply]
        · intro he
          have : r = .nil := by cases r with | nil => rfl | node => simp at he
          subst this
          refine ⟨0, a, by simp [T.height], rfl, ?_⟩
          intro f
          simp only [inc, M.bind_apply, deref_some, getN_some hx, T.rt_nil, Nat.add_zero]
      | cons e u =>
        simp at hu2
        obtain ⟨rfl, rfl⟩ := hu2
        obtain ⟨i1, i2⟩ := ih1 h.2.1 hn.1 hsl hu1
        refine ⟨?_, by simp⟩
        intro b hb f hf
        rw [T.height] at hf
        cases u with
        | cons e u => exact i1 b (by simpa [hd] using hb) f (by omega)
        | nil =>
          simp [hd] at hb
          subst hb
          obtain ⟨d, z, hd, hz, hi⟩ := i2 rfl
          rw [show f = (f - d) + d by omega, hi]
          obtain ⟨f', hf'⟩ : ∃ f', f - d = f' + 1 := ⟨f - d - 1, by omega⟩
          rw [hf']
          have hrl := h.2.1
          have hrr := h.2.2
          cases l with
          | nil => cases hz
          | node c2 l2 y w2 r2 =>
            simp at hz; subst hz
            cases r with
            | nil => simp only [climb, M.bind_apply, getN_some hx, T.rt_nil]; rfl
            | node c3 l3 y3 w3 r3 =>
              have : sameChild g y y3 st = .ok false st := by
                refine sameChild_false hg hrl.1 hrr.1 ?_ ?_
                · have := hn.2.2.2.2.1 y (by simp)
                  simp at this
                  exact this.2.2.1
                · exact hg.trans _ _ _ (hlr (y, w2) (by simp) (x, w) (by simp)) (hsr1 (y3, w3) (by simp))
              simp only [climb, M.bind_apply, getN_some hx, T.rt_node, this, if_false, Bool.false_eq_true,
                M.pure_apply]

/-- `++` in a whole tree. -/
theorem inc_root {g : Cfg V K} (hg : g.Lawful) {st : TSt V} {t : T V} (h : Repr st.mem none t)
    (hnd : t.ids.Nodup) (hs : T.Sorted g t.toL) {s₁ a v s₂} (hl : t.toL = s₁ ++ (a, v) :: s₂) :
    ∀ f, t.height ≤ f → inc g f (some a) st = .ok (hd s₂) st := by
  obtain ⟨i1, i2⟩ := inc_sim hg h hnd hs hl
  intro f hf
  cases s₂ with
  | nil =>
    obtain ⟨d, z, hd', hz, hi⟩ := i2 rfl
    rw [show f = (f - d) + d by omega, hi]
    obtain ⟨f', hf'⟩ : ∃ f', f - d = f' + 1 := ⟨f - d - 1, by omega⟩
    rw [hf']
    rfl
  | cons e s => exact i1 e.1 rfl f hf

/-! ### Changing a value -/

def T.setV (b : Nat) (w : V) : T V → T V
  | .nil => .nil
  | .node c l a v r => .node c (setV b w l) a (if a = b then w else v) (setV b w r)

theorem T.setV_rt (b : Nat) (w : V) (t : T V) : (t.setV b w).rt = t.rt := by cases t <;> rfl
theorem T.setV_toL (b : Nat) (w : V) (t : T V) : (t.setV b w).toL = setVal b w t.toL := by
  induction t with
  | nil => rfl
  | node c l a v r ih1 ih2 =>
    simp only [setV, toL_node, ih1, ih2, Tree.setVal, List.map_append, List.map_cons]
    by_cases h : a = b
    · simp [h]
    · simp [h]
theorem setVal_fst (b : Nat) (w : V) (s : List (Nat × V)) : (setVal b w s).map Prod.fst = s.map Prod.fst := by
  simp only [setVal, List.map_map]
  apply List.map_congr_left
  intro e _
  simp only [Function.comp_apply]
  split
  · rename_i h; exact h.symm
  · rfl
theorem T.setV_ids (b : Nat) (w : V) (t : T V) : (t.setV b w).ids = t.ids := by
  simp only [ids, setV_toL, setVal_fst]
theorem T.setV_rb {b : Nat} {w : V} {t : T V} {c n} (h : RB t c n) : RB (t.setV b w) c n := by
  induction h with
  | nil => exact .nil
  | red _ _ ih1 ih2 => exact .red ih1 ih2
  | black _ _ ih1 ih2 => exact .black ih1 ih2

theorem setV_repr {m m' : Nat → Option (Cell V)} {b : Nat} {w : V} {t : T V} {par}
    (h : Repr m par t) (hm : ∀ q, q ≠ b → m' q = m q)
    (hb : ∀ n, m b = some (some n) → m' b = some (some { n with x := w })) : Repr m' par (t.setV b w) := by
  induction t generalizing par with
  | nil => trivial
  | node c l a v r ih1 ih2 =>
    refine ⟨?_, ih1 h.2.1, ih2 h.2.2⟩
    rw [T.setV_rt, T.setV_rt]
    by_cases hab : a = b
    · subst hab
      simp [hb _ h.1]
    · rw [if_neg hab, hm a hab]
      exact h.1

/-- If the key stays the same the order is kept. -/
theorem setV_sorted {g : Cfg V K} {b : Nat} {w : V} {s : List (Nat × V)}
    (hk : ∀ v, (b, v) ∈ s → g.key v = g.key w) (hs : T.Sorted g s) : T.Sorted g (setVal b w s) := by
  unfold T.Sorted setVal
  rw [List.pairwise_map]
  have hkey : ∀ e ∈ s, g.key (if e.1 = b then (b, w) else e).2 = g.key e.2 := by
    intro e he
    split
    · rename_i h
      obtain ⟨a, v⟩ := e
      simp at h; subst h
      exact (hk v he).symm
    · rfl
  refine List.Pairwise.imp_of_mem ?_ hs
  intro d e hd he hlt
  simp only [Cfg.lt]
  rw [hkey d hd, hkey e he]
  exact hlt

end Cest.Tree
