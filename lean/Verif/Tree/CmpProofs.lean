import Verif.Tree.Cmp
import Verif.Tree.Generic
import Verif.Tree.Cost
/-
Lemmas for C134: comparisons made and exceptions thrown by them.
-/
namespace Cest.Tree
open Cest
variable {V K : Type} {g : Cfg V K} {st : TSt V} {ex : Exc}

namespace T
/-- Comparisons made on the way down, looking for `k`. -/
def path (g : Cfg V K) (k : K) : T V → Nat
  | nil => 0
  | node _ l _ w r =>
    if g.comp k (g.key w) then path g k l + 1
    else if g.comp (g.key w) k then path g k r + 2
    else 2

theorem path_le (g : Cfg V K) (k : K) (t : T V) : t.path g k ≤ 2 * t.height := by
  induction t with
  | nil => simp [path]
  | node c l a w r ih1 ih2 =>
    simp only [path, height]
    split
    · omega
    · split <;> omega

/-- The tree with a new red leaf, not rebalanced. -/
def insRaw (g : Cfg V K) (n : Nat) (v : V) : T V → T V
  | nil => node .red nil n v nil
  | node c l a w r =>
    if g.lt v w then node c (insRaw g n v l) a w r
    else if g.lt w v then node c l a w (insRaw g n v r)
    else node c l a w r

theorem look_insRaw (hg : g.Lawful) {n : Nat} {v : V} {t : T V} (h : look g (g.key v) t = none) :
    look g (g.key v) (insRaw g n v t) = some (n, v) := by
  induction t with
  | nil => simp [insRaw, look, hg.irrefl]
  | node c l a w r ih1 ih2 =>
    simp only [look] at h
    split at h
    · rename_i hk
      rw [insRaw, if_pos (show g.lt v w = true from hk), look, if_pos hk, ih1 h]
    · rename_i hk
      split at h
      · rename_i hk2
        rw [insRaw, if_neg (show ¬ g.lt v w = true from hk), if_pos (show g.lt w v = true from hk2), look,
          if_neg hk, if_pos hk2, ih2 h]
      · simp at h

theorem height_insRaw (n : Nat) (v : V) (t : T V) : (insRaw g n v t).height ≤ t.height + 1 := by
  induction t with
  | nil => simp [insRaw, height]
  | node c l a w r ih1 ih2 =>
    simp only [insRaw]
    split
    · simp only [height]; omega
    · split
      · simp only [height]; omega
      · omega

theorem ids_insRaw {n : Nat} {v : V} {t : T V} (h : look g (g.key v) t = none) :
    (insRaw g n v t).ids.Perm (n :: t.ids) := by
  induction t with
  | nil => simp [insRaw]
  | node c l a w r ih1 ih2 =>
    simp only [look] at h
    simp only [insRaw]
    split at h
    · rename_i hk
      rw [if_pos (show g.lt v w = true from hk), ids_node, ids_node]
      exact ((ih1 h).append_right _).trans (by simp)
    · rename_i hk
      rw [if_neg (show ¬ g.lt v w = true from hk)]
      split at h
      · rename_i hk2
        rw [if_pos (show g.lt w v = true from hk2), ids_node, ids_node]
        refine (((ih2 h).cons a).append_left _).trans ?_
        refine List.Perm.trans ?_ List.perm_middle
        exact (List.Perm.swap _ _ _).append_left _
      · simp at h
end T

/-! ### Arming -/

@[simp] theorem arm_mem (τ : Option Nat) : (arm st τ).mem = st.mem := rfl
@[simp] theorem arm_objs (τ : Option Nat) : (arm st τ).objs = st.objs := rfl
@[simp] theorem arm_next (τ : Option Nat) : (arm st τ).next = st.next := rfl
@[simp] theorem arm_thr (τ : Option Nat) : (arm st τ).thr = τ := rfl
@[simp] theorem arm_arm (τ τ' : Option Nat) : arm (arm st τ) τ' = arm st τ' := rfl

theorem arm_none (h : st.thr = none) : arm st none = st := by cases st; simp_all [arm]

theorem at_arm {n q τ} (h : At st n q) : At (arm st τ) n q := by cases n <;> exact h

theorem cmpT_none (h : st.thr = none) (a b : K) : cmpT ex g a b st = .ok (g.comp a b) st := by
  simp [cmpT, h]
theorem cmpT_succ (j : Nat) (a b : K) :
    cmpT ex g a b (arm st (some (j + 1))) = .ok (g.comp a b) (arm st (some j)) := by
  simp [cmpT, tick, arm]
theorem cmpT_zero (a b : K) : cmpT ex g a b (arm st (some 0)) = .throw ex (arm st none) := by
  simp [cmpT, tick, arm]

/-! ### `find` -/

theorem findLoopC_count {t : T V} {par} (k : K) (h : Repr st.mem par t) (j : Nat) :
    ∀ f, t.height < f → findLoopC g (cmpT ex g) k f t.rt (arm st (some (j + t.path g k))) =
      .ok ((T.look g k t).map Prod.fst) (arm st (some j)) := by
  induction t generalizing par with
  | nil =>
    intro f hf
    obtain ⟨f, rfl⟩ : ∃ f', f = f' + 1 := ⟨f - 1, by omega⟩
    rfl
  | node c l a w r ih1 ih2 =>
    intro f hf
    obtain ⟨f, rfl⟩ : ∃ f', f = f' + 1 := ⟨f - 1, by omega⟩
    simp only [T.height] at hf
    have hn : ∀ τ, getN a (arm st τ) = .ok ⟨w, l.rt, r.rt, par, c⟩ (arm st τ) := fun τ => getN_some h.1
    simp only [T.rt_node, findLoopC, M.bind_apply, hn, T.path, T.look]
    by_cases h1 : g.comp k (g.key w) = true
    · rw [if_pos h1, if_pos h1, ← Nat.add_assoc, cmpT_succ]
      simp only [h1, if_true]
      exact ih1 h.2.1 f (by omega)
    · rw [if_neg h1, if_neg h1]
      by_cases h2 : g.comp (g.key w) k = true
      · rw [if_pos h2, if_pos h2, show j + (r.path g k + 2) = j + r.path g k + 1 + 1 by omega, cmpT_succ]
        simp only [h1, if_false, M.bind_apply, cmpT_succ, h2, if_true, Bool.false_eq_true]
        exact ih2 h.2.2 f (by omega)
      · rw [if_neg h2, if_neg h2, show j + 2 = j + 1 + 1 by omega, cmpT_succ]
        simp [h1, h2, cmpT_succ]

theorem findLoopC_throw {t : T V} {par} (k : K) (h : Repr st.mem par t) :
    ∀ f j, t.height < f → j < t.path g k →
      findLoopC g (cmpT ex g) k f t.rt (arm st (some j)) = .throw ex (arm st none) := by
  induction t generalizing par with
  | nil => intro f j _ hj; simp [T.path] at hj
  | node c l a w r ih1 ih2 =>
    intro f j hf hj
    obtain ⟨f, rfl⟩ : ∃ f', f = f' + 1 := ⟨f - 1, by omega⟩
    simp only [T.height] at hf
    have hn : ∀ τ, getN a (arm st τ) = .ok ⟨w, l.rt, r.rt, par, c⟩ (arm st τ) := fun τ => getN_some h.1
    simp only [T.rt_node, findLoopC, M.bind_apply, hn]
    cases j with
    | zero => rw [cmpT_zero]
    | succ j =>
      rw [cmpT_succ]
      simp only [T.path] at hj
      by_cases h1 : g.comp k (g.key w) = true
      · rw [if_pos h1] at hj
        simp only [h1, if_true]
        exact ih1 h.2.1 f j (by omega) (by omega)
      · rw [if_neg h1] at hj
        simp only [h1, if_false, Bool.false_eq_true, M.bind_apply]
        cases j with
        | zero => rw [cmpT_zero]
        | succ j =>
          rw [cmpT_succ]
          by_cases h2 : g.comp (g.key w) k = true
          · rw [if_pos h2] at hj
            simp only [h2, if_true]
            exact ih2 h.2.2 f j (by omega) (by omega)
          · rw [if_neg h2] at hj; omega

/-! ### `insert` -/

theorem bind_congr_calm {α β : Type} {m : TM V α} {f h : α → TM V β} (hm : (m st).Calm)
    (hf : ∀ a s', m st = .ok a s' → s'.thr = none → f a s' = h a s') : (m >>= f) st = (m >>= h) st := by
  simp only [M.bind_apply]
  cases e : m st with
  | ok a s' => rw [e] at hm; exact hf a s' e hm
  | _ => rfl

theorem NCost.calm {w : Nat} {α : Type} {m : TM V α} {b : Int} (h : NCost w m b) (hs : st.thr = none) :
    (m st).Calm := (h st hs).1

/-- While nothing throws the instrumented code is the code. -/
theorem insC_none (x : Nat) (v : V) : ∀ (f : Nat) (n : Ref) (p : Option Nat) (st : TSt V), st.thr = none →
    insC g (cmpT ex g) x v f n p st = ins g x v f n p st
  | 0, _, _, _, _ => rfl
  | f+1, n, p, st, hs => by
    unfold insC ins
    refine bind_congr_calm (NCost.calm (w := 3) (getRef_cost n) hs) fun q s1 _ h1 => ?_
    cases q with
    | none =>
      unfold leafC
      refine bind_congr_calm (NCost.calm (w := 3) (NCost.allocC _) h1) fun a s2 _ h2 => ?_
      refine bind_congr_calm (NCost.calm (w := 3) (setRef_cost _ _) h2) fun _ s3 _ h3 => ?_
      refine bind_congr_calm (NCost.calm (constructNode_cost _ _ _) h3) fun _ s4 _ h4 => ?_
      refine bind_congr_calm (NCost.calm (w := 3) (NCost.getObj _) h4) fun o s5 _ h5 => ?_
      cases hb : o.begin_ with
      | none => simp [firstC]
      | some b =>
        simp only [M.bind_apply, firstC]
        cases hx : getX (some b) s5 with
        | ok w s6 =>
          have h6 := NCost.calm (w := 3) (getX_cost (some b)) h5
          rw [hx] at h6
          simp only [cmpT_none h6, M.pure_apply, Cfg.lt]
        | _ => rfl
    | some a =>
      refine bind_congr_calm (NCost.calm (w := 3) (getX_cost _) h1) fun w s2 _ h2 => ?_
      simp only [M.bind_apply, cmpT_none h2]
      by_cases hk : g.lt v w = true
      · rw [if_pos hk, if_pos (show g.comp (g.key v) (g.key w) = true from hk)]
        simp only [M.bind_apply, insC_none x v f _ _ s2 h2]
      · rw [if_neg hk, if_neg (show ¬ g.comp (g.key v) (g.key w) = true from hk)]
        simp only [M.bind_apply, cmpT_none h2]
        by_cases hk2 : g.lt w v = true
        · rw [if_pos hk2, if_pos (show g.comp (g.key w) (g.key v) = true from hk2)]
          simp only [M.bind_apply, insC_none x v f _ _ s2 h2]
        · rw [if_neg hk2, if_neg (show ¬ g.comp (g.key w) (g.key v) = true from hk2)]

section
variable {n : Ref} {par : Option Nat} {c : Color} {l r : T V} {a : Nat} {w v : V} {x : Nat}

theorem insC_left (h : Pre st n par (.node c l a w r)) (hk : g.comp (g.key v) (g.key w) = true) (f j : Nat) :
    insC g (cmpT ex g) x v (f+1) n par (arm st (some (j + 1))) =
      (insC g (cmpT ex g) x v f (.left a) (some a) >>= fun r => rebalance n >>= fun _ => pure r)
        (arm st (some j)) := by
  have hx : getX (some a) (arm st (some (j + 1))) = .ok w (arm st (some (j + 1))) := by
    simp [getX, h.repr.1]
  rw [insC]
  simp only [M.bind_apply, getRef_arm h.at_, T.rt_node, hx, cmpT_succ, hk, if_true]

theorem insC_right (h : Pre st n par (.node c l a w r)) (hk : ¬ g.comp (g.key v) (g.key w) = true)
    (hk2 : g.comp (g.key w) (g.key v) = true) (f j : Nat) :
    insC g (cmpT ex g) x v (f+1) n par (arm st (some (j + 2))) =
      (insC g (cmpT ex g) x v f (.right a) (some a) >>= fun r => rebalance n >>= fun _ => pure r)
        (arm st (some j)) := by
  have hx : getX (some a) (arm st (some (j + 1 + 1))) = .ok w (arm st (some (j + 1 + 1))) := by
    simp [getX, h.repr.1]
  rw [insC, show j + 2 = j + 1 + 1 by omega]
  simp only [M.bind_apply, getRef_arm h.at_, T.rt_node, hx, cmpT_succ, hk, if_false, hk2, if_true,
    Bool.false_eq_true]

theorem insC_hit (h : Pre st n par (.node c l a w r)) (hk : ¬ g.comp (g.key v) (g.key w) = true)
    (hk2 : ¬ g.comp (g.key w) (g.key v) = true) (f j : Nat) :
    insC g (cmpT ex g) x v (f+1) n par (arm st (some (j + 2))) = .ok (some a, false) (arm st (some j)) := by
  have hx : getX (some a) (arm st (some (j + 1 + 1))) = .ok w (arm st (some (j + 1 + 1))) := by
    simp [getX, h.repr.1]
  rw [insC, show j + 2 = j + 1 + 1 by omega]
  simp only [M.bind_apply, getRef_arm h.at_, T.rt_node, hx, cmpT_succ, hk, if_false, hk2,
    Bool.false_eq_true, M.pure_apply]
end

/-- A comparison of the descent throws: nothing was changed. -/
theorem insC_throw {x : Nat} {v : V} {t : T V} : ∀ {n par}, Pre st n par t →
    ∀ f j, t.height < f → j < t.path g (g.key v) →
      insC g (cmpT ex g) x v f n par (arm st (some j)) = .throw ex (arm st none) := by
  induction t with
  | nil => intro n par _ f j _ hj; simp [T.path] at hj
  | node c l a w r ih1 ih2 =>
    intro n par h f j hf hj
    obtain ⟨f, rfl⟩ : ∃ f', f = f' + 1 := ⟨f - 1, by omega⟩
    simp only [T.height] at hf
    have hx : ∀ τ, getX (some a) (arm st τ) = .ok w (arm st τ) := fun τ => by simp [getX, h.repr.1]
    cases j with
    | zero =>
      rw [insC]
      simp only [M.bind_apply, getRef_arm h.at_, T.rt_node, hx, cmpT_zero]
    | succ j =>
      simp only [T.path] at hj
      by_cases h1 : g.comp (g.key v) (g.key w) = true
      · rw [if_pos h1] at hj
        rw [insC_left h h1]
        simp only [M.bind_apply, ih1 h.left f j (by omega) (by omega)]
      · rw [if_neg h1] at hj
        cases j with
        | zero =>
          rw [insC]
          simp only [M.bind_apply, getRef_arm h.at_, T.rt_node, hx, cmpT_succ, h1, if_false,
            Bool.false_eq_true, cmpT_zero]
        | succ j =>
          by_cases h2 : g.comp (g.key w) (g.key v) = true
          · rw [if_pos h2] at hj
            rw [show j + 1 + 1 = j + 2 by omega, insC_right h h1 h2]
            simp only [M.bind_apply, ih2 h.right f j (by omega) (by omega)]
          · rw [if_neg h2] at hj; omega

/-- What is thrown where the new node goes is thrown by the whole descent. -/
theorem insC_throw_at {x : Nat} {v : V} {i : Nat} {ex' : Exc} (hleaf : ∀ n par, At st n none →
      (∀ y, n = .root y → y = x) → ∀ f, ∃ st', insC g (cmpT ex g) x v (f+1) n par (arm st (some i)) =
        .throw ex' st') {t : T V} (hlook : T.look g (g.key v) t = none) :
    ∀ {n par}, Pre st n par t → (∀ y, n = .root y → y = x) → ∀ f, t.height < f →
      ∃ st', insC g (cmpT ex g) x v f n par (arm st (some (i + t.path g (g.key v)))) = .throw ex' st' := by
  induction t with
  | nil =>
    intro n par h hn f hf
    obtain ⟨f, rfl⟩ : ∃ f', f = f' + 1 := ⟨f - 1, by omega⟩
    exact hleaf n par h.at_ hn f
  | node c l a w r ih1 ih2 =>
    intro n par h hn f hf
    obtain ⟨f, rfl⟩ : ∃ f', f = f' + 1 := ⟨f - 1, by omega⟩
    simp only [T.height] at hf
    simp only [T.look] at hlook
    simp only [T.path]
    by_cases h1 : g.comp (g.key v) (g.key w) = true
    · rw [if_pos h1] at hlook ⊢
      obtain ⟨st', e⟩ := ih1 hlook h.left (by simp) f (by omega)
      refine ⟨st', ?_⟩
      rw [← Nat.add_assoc, insC_left h h1]
      simp only [M.bind_apply, e]
    · rw [if_neg h1] at hlook ⊢
      by_cases h2 : g.comp (g.key w) (g.key v) = true
      · rw [if_pos h2] at hlook ⊢
        obtain ⟨st', e⟩ := ih2 hlook h.right (by simp) f (by omega)
        refine ⟨st', ?_⟩
        rw [← Nat.add_assoc, insC_right h h1 h2]
        simp only [M.bind_apply, e]
      · rw [if_neg h2] at hlook; cases hlook

/-! ### Counting -/

theorem cmpT_cost {w : Nat} (a b : K) : NCost w (cmpT ex g a b) 1 := by
  unfold cmpT
  exact NCost.bind (b₁ := 1) (b₂ := 0) (NCost.tick _) (fun _ => NCost.pure _)

/-- One allocation, two copies and a comparison at the place of the new node. -/
theorem leafC_cost (x : Nat) (v : V) (n : Ref) (par : Option Nat) :
    NCost 3 (leafC g (cmpT ex g) x v n par) 1 := by
  unfold leafC
  refine NCost.bind (b₁ := -2) (b₂ := 3) (NCost.allocC (w := 3) _) (fun a => ?_)
  refine NCost.bind (b₁ := 0) (b₂ := 3) (setRef_cost _ _) (fun _ => ?_)
  refine NCost.bind (b₁ := 2) (b₂ := 1) (constructNode_cost _ _ _) (fun _ => ?_)
  refine NCost.bind (b₁ := 0) (b₂ := 1) (NCost.getObj _) (fun o => ?_)
  refine NCost.bind (b₁ := 1) (b₂ := 0) ?_ (fun b => ?_)
  · cases o.begin_ with
    | none => exact (NCost.pure _).mono (by omega)
    | some b => exact NCost.bind (b₁ := 0) (b₂ := 1) (getX_cost _) (fun _ => cmpT_cost _ _)
  · tcost

theorem insC_count {x : Nat} {v : V} {t : T V} : ∀ {n par}, Pre st n par t → st.thr = none →
    ∀ f, t.height < f → ∀ r st', ins g x v f n par st = .ok r st' → st'.thr = none ∧ st.next ≤ st'.next ∧
      ∃ c, c ≤ t.path g (g.key v) +
          (if (T.look g (g.key v) t).isNone then 3 * (st'.next - st.next) + 1 else 0) ∧
        ∀ k, insC g (cmpT ex g) x v f n par (arm st (some (k + c))) = .ok r (arm st' (some k)) := by
  induction t with
  | nil =>
    intro n par h hs f hf r st' he
    obtain ⟨f, rfl⟩ : ∃ f', f = f' + 1 := ⟨f - 1, by omega⟩
    have hc := leafC_cost (g := g) (ex := ex) x v n par
    obtain ⟨h1, c, h2, h3⟩ := hc st hs
    have hi : ∀ τ, insC g (cmpT ex g) x v (f+1) n par (arm st τ) = _ := fun τ => by
      rw [insC, M.bind_apply, getRef_arm h.at_]
    have e0 := insC_none (g := g) (ex := ex) x v (f+1) n par st hs
    rw [he] at e0
    have e1 := hi none
    rw [arm_none hs, e0] at e1
    simp only [T.rt_nil] at e1
    rw [← e1] at h1 h3
    refine ⟨h1, (h2 _ _ e1.symm).1, c, ?_, fun k => ?_⟩
    · obtain ⟨h4, h5⟩ := h2 _ _ e1.symm
      simp only [T.path, T.look, Option.isNone_none, if_true]; omega
    · rw [hi]; exact h3 k
  | node c l a w r ih1 ih2 =>
    intro n par h hs f hf q st' he
    obtain ⟨f, rfl⟩ : ∃ f', f = f' + 1 := ⟨f - 1, by omega⟩
    simp only [T.height] at hf
    have hx : getX (some a) st = .ok w st := by simp [getX, h.repr.1]
    simp only [ins, M.bind_apply, getRef_at h.at_, T.rt_node, hx] at he
    simp only [T.path]
    have key : ∀ (r' : Ref) (d : Nat) (p : Nat) (b : Bool), (∀ q st', ins g x v f r' (some a) st = .ok q st' →
        st'.thr = none ∧ st.next ≤ st'.next ∧ ∃ c, c ≤ p + (if b then 3 * (st'.next - st.next) + 1 else 0) ∧
        ∀ k, insC g (cmpT ex g) x v f r' (some a) (arm st (some (k + c))) = .ok q (arm st' (some k))) →
        (∀ j, insC g (cmpT ex g) x v (f+1) n par (arm st (some (j + d))) =
          (insC g (cmpT ex g) x v f r' (some a) >>= fun r => rebalance n >>= fun _ => pure r)
            (arm st (some j))) →
        (ins g x v f r' (some a) >>= fun r => rebalance n >>= fun _ => pure r) st = .ok q st' →
        st'.thr = none ∧ st.next ≤ st'.next ∧ ∃ c, c ≤ p + d + (if b then 3 * (st'.next - st.next) + 1 else 0) ∧
        ∀ k, insC g (cmpT ex g) x v (f+1) n par (arm st (some (k + c))) = .ok q (arm st' (some k)) := by
      intro r' d p b ih hstep he
      simp only [M.bind_apply] at he
      cases hi : ins g x v f r' (some a) st with
      | ok q1 st1 =>
        rw [hi] at he
        obtain ⟨t1, n1, c1, b1, k1⟩ := ih q1 st1 hi
        obtain ⟨t2, c2, b2, k2⟩ := rebalance_cost (w := 0) (V := V) n st1 t1
        simp only [] at he
        cases hr : rebalance n st1 with
        | ok u st2 =>
          rw [hr] at he t2 k2
          simp only [M.pure_apply] at he
          cases he
          obtain ⟨n2, b2⟩ := b2 _ _ hr
          refine ⟨t2, by omega, c1 + d, by cases b <;> simp at b1 ⊢ <;> omega, fun k => ?_⟩
          have hc2 : c2 = 0 := by omega
          subst hc2
          rw [← Nat.add_assoc, hstep]
          simp only [M.bind_apply, k1]
          have := k2 k
          rw [Nat.add_zero] at this
          rw [show arm st1 (some k) = { st1 with thr := some k } from rfl, this]
          rfl
        | throw e s => rw [hr] at he; cases he
        | ub u => rw [hr] at he; cases he
        | timeout => rw [hr] at he; cases he
      | throw e s => rw [hi] at he; cases he
      | ub u => rw [hi] at he; cases he
      | timeout => rw [hi] at he; cases he
    by_cases h1 : g.comp (g.key v) (g.key w) = true
    · rw [if_pos (show g.lt v w = true from h1)] at he
      rw [if_pos h1, show T.look g (g.key v) (.node c l a w r) = T.look g (g.key v) l by rw [T.look, if_pos h1]]
      exact key (.left a) 1 _ _ (fun q st' => ih1 h.left hs f (by omega) q st') (insC_left h h1 f) he
    · rw [if_neg (show ¬ g.lt v w = true from h1)] at he
      rw [if_neg h1]
      by_cases h2 : g.comp (g.key w) (g.key v) = true
      · rw [if_pos (show g.lt w v = true from h2)] at he
        rw [if_pos h2, show T.look g (g.key v) (.node c l a w r) = T.look g (g.key v) r by
          rw [T.look, if_neg h1, if_pos h2]]
        exact key (.right a) 2 _ _ (fun q st' => ih2 h.right hs f (by omega) q st') (insC_right h h1 h2 f) he
      · rw [if_neg (show ¬ g.lt w v = true from h2)] at he
        rw [if_neg h2]
        cases he
        exact ⟨hs, Nat.le_refl _, 2, by simp, fun k => insC_hit h h1 h2 f k⟩

/-! ### The comparison with `m_begin->x` throws -/

/-- The state before the new node is linked, with its storage counted. -/
def raw (st : TSt V) : TSt V := ⟨st.objs, st.mem, st.next + 1, none⟩

theorem pre_raw {n par} {t : T V} (h : Pre st n par t) : Pre (raw st) n par t := by
  refine ⟨?_, h.repr, h.nodup, h.own⟩
  have := h.at_
  cases n <;> exact this

theorem insC_raw_nil {x o b v n par} (ho : st.objs x = some o) (hbo : o.begin_ = some b) {nb : Node V}
    (h1 : st.mem b = some (some nb)) (hfresh : st.mem st.next = none)
    (hroot : ∀ y, n = .root y → y = x) (hat : At st n none) (f : Nat) :
    ∃ st', insC g (cmpT ex g) x v (f+1) n par (arm st (some 3)) = .throw ex st' ∧
      Post (raw st) n par (.node .red .nil st.next v .nil) st' := by
  have hb : b ≠ st.next := by rintro rfl; rw [hfresh] at h1; cases h1
  refine ⟨⟨(wr (raw st) n (some st.next)).objs,
    upd (wr (raw st) n (some st.next)).mem st.next (some (some ⟨v, none, none, par, .red⟩)),
    st.next + 1, none⟩, ?_, rfl, by simp [raw], by simp [raw], ?_, by simp, trivial, trivial⟩
  · simp only [insC, leafC, M.bind_apply, getRef_arm hat]
    cases n with
    | root y =>
      obtain rfl := hroot y rfl
      simp [allocNode, allocC, tick, cmpT, firstC, setRef, arm, ho, constructNode, raw, hbo, wr, getX, getN, hb, h1, upd_upd]
    | left a | right a | par a =>
      obtain ⟨na, h2, h3⟩ := hat
      have ha : a ≠ st.next := by rintro rfl; rw [hfresh] at h2; cases h2
      by_cases hba : b = a
      · subst hba
        rw [h1] at h2; cases h2
        simp [allocNode, allocC, tick, cmpT, firstC, setRef, arm, ho, constructNode, raw, hbo, wr, getX, getN, ha,
          Ne.symm ha, h1]
        funext q; simp; grind
      · simp [allocNode, allocC, tick, cmpT, firstC, setRef, arm, ho, constructNode, raw, hbo, wr, getX, getN, ha,
          Ne.symm ha, h1, h2, hb, hba]
        funext q; simp; grind
  · intro q hq
    simp at hq
    simp [hq]

theorem insC_raw {x o b v} (ho : st.objs x = some o) (hbo : o.begin_ = some b) {nb : Node V}
    (h1 : st.mem b = some (some nb)) (hfresh : st.mem st.next = none) {t : T V}
    (hlook : T.look g (g.key v) t = none) :
    ∀ {n par}, Pre st n par t → (∀ y, n = .root y → y = x) →
    ∃ st', (∀ f, t.height < f →
        insC g (cmpT ex g) x v f n par (arm st (some (3 + t.path g (g.key v)))) = .throw ex st') ∧
      Post (raw st) n par (T.insRaw g st.next v t) st' := by
  induction t with
  | nil =>
    intro n par hpre hroot
    obtain ⟨st', e1, e2⟩ := insC_raw_nil (g := g) (ex := ex) (v := v) (par := par) ho hbo h1 hfresh hroot
      hpre.at_ 0
    refine ⟨st', ?_, e2⟩
    intro f hf
    obtain ⟨f, rfl⟩ : ∃ f', f = f' + 1 := ⟨f - 1, by omega⟩
    rw [← e1]; simp only [insC, M.bind_apply, getRef_arm hpre.at_, T.rt_nil, T.path]
  | node c l a w r ih1 ih2 =>
    intro n par hpre hroot
    have hnd := nodup_node hpre.nodup
    have hne : ∀ q, st.mem q ≠ none → q ≠ st.next := by
      rintro q hq rfl; exact hq hfresh
    have halloc := hpre.repr.alloc
    have hpb := pre_raw hpre
    simp only [T.look] at hlook
    simp only [T.insRaw, T.path]
    by_cases hk : g.comp (g.key v) (g.key w) = true
    · rw [if_pos hk] at hlook ⊢
      rw [if_pos (show g.lt v w = true from hk)]
      obtain ⟨st1, e1, p1⟩ := ih1 hlook hpre.left (by simp)
      have hperm := T.ids_insRaw (n := st.next) hlook
      refine ⟨st1, ?_, Post.liftL hpb.repr hpb.at_ p1 ?_ hnd.2.2.2.1⟩
      · intro f hf
        obtain ⟨f, rfl⟩ : ∃ f', f = f' + 1 := ⟨f - 1, by omega⟩
        simp only [T.height] at hf
        rw [← Nat.add_assoc, insC_left hpre hk]
        simp only [M.bind_apply, e1 f (by omega)]
      · intro q hq
        rcases List.mem_cons.1 (hperm.mem_iff.1 hq) with rfl | hq
        · exact ⟨fun h => hne a (halloc a (by simp)) h.symm, fun h => hne _ (halloc _ (by simp [h])) rfl⟩
        · exact hnd.2.2.2.2.1 q hq
    · rw [if_neg hk] at hlook ⊢
      rw [if_neg (show ¬ g.lt v w = true from hk)]
      by_cases hk2 : g.comp (g.key w) (g.key v) = true
      · rw [if_pos hk2] at hlook ⊢
        rw [if_pos (show g.lt w v = true from hk2)]
        obtain ⟨st1, e1, p1⟩ := ih2 hlook hpre.right (by simp)
        have hperm := T.ids_insRaw (n := st.next) hlook
        refine ⟨st1, ?_, Post.liftR hpb.repr hpb.at_ p1 ?_ hnd.2.2.1⟩
        · intro f hf
          obtain ⟨f, rfl⟩ : ∃ f', f = f' + 1 := ⟨f - 1, by omega⟩
          simp only [T.height] at hf
          rw [← Nat.add_assoc, insC_right hpre hk hk2]
          simp only [M.bind_apply, e1 f (by omega)]
        · intro q hq
          rcases List.mem_cons.1 (hperm.mem_iff.1 hq) with rfl | hq
          · exact ⟨fun h => hne a (halloc a (by simp)) h.symm, fun h => hne _ (halloc _ (by simp [h])) rfl⟩
          · exact hnd.2.2.2.2.2 q hq
      · rw [if_neg hk2] at hlook; cases hlook

/-! ### The methods -/

section
variable [DecidableEq K] {its : Its} {e : Env V}

theorem findC_spec (hg : g.Lawful) (h : Reach g st its e) {x : Nat} {s : Seq V} (hx : e.sets x = some s) (k : K)
    {fuel : Nat} (hf : s.length < fuel) : ∃ c, c ≤ 2 * depth s.length ∧
    (∀ j, findC g (cmpT ex g) fuel x k (arm st (some (j + c))) =
      .ok ((lookup g s k).map Prod.fst) (arm st (some j))) ∧
    ∀ j, j < c → findC g (cmpT ex g) fuel x k (arm st (some j)) = .throw ex st := by
  have W := (h.agree hg).world
  obtain ⟨t, ho, ht⟩ := W_rep W hx
  have hh := ht.height
  have hd := depth_le s.length
  have hemp : ∀ τ, empty x (arm st τ) = .ok (s.length == 0) (arm st τ) := fun τ => by simp [empty, ho]
  have hobj : ∀ τ, getObj x (arm st τ) = .ok ⟨t.rt, _root_.Cest.Tree.hd s, s.length⟩ (arm st τ) :=
    fun τ => getObj_some ho
  have hend : ∀ τ, end_ x (arm st τ) = .ok none (arm st τ) := fun τ => by simp [end_, ho]
  cases s with
  | nil =>
    refine ⟨0, Nat.zero_le _, fun j => ?_, fun j hj => by omega⟩
    simp only [findC, M.bind_apply, hemp, List.length_nil, beq_self_eq_true, if_true, hend, Nat.add_zero]
    rfl
  | cons d s =>
    have hne : ((d :: s).length == 0) = false := by simp
    refine ⟨t.path g k, by have := T.path_le g k t; omega, fun j => ?_, fun j hj => ?_⟩
    · simp only [findC, M.bind_apply, hemp, hne, Bool.false_eq_true, if_false, hobj]
      rw [findLoopC_count k ht.repr j fuel (by omega), T.look_eq hg (by rw [ht.toL]; exact ht.sorted), ht.toL]
    · simp only [findC, M.bind_apply, hemp, hne, Bool.false_eq_true, if_false, hobj]
      rw [findLoopC_throw k ht.repr fuel j (by omega) hj, arm_none W.thr]

omit [DecidableEq K] in
theorem insertC_none (hs : st.thr = none) (fuel x : Nat) (v : V) :
    insertC g (cmpT ex g) fuel x v st = insert g fuel x v st := by
  unfold insertC insert
  simp only [M.bind_apply, insC_none x v fuel _ _ st hs]

theorem insertC_count (hg : g.Lawful) (h : Reach g st its e) {x : Nat} {s : Seq V} (hx : e.sets x = some s)
    (v : V) {fuel : Nat} (hf : s.length < fuel) {t : T V} (ho : st.objs x = some ⟨t.rt, hd s, s.length⟩)
    (ht : TRep g st.mem ⟨t.rt, hd s, s.length⟩ s t) : ∃ r st' c,
    c ≤ t.path g (g.key v) + (if (lookup g s (g.key v)).isNone then 4 else 0) ∧
    insert g fuel x v st = .ok r st' ∧
    ∀ j, insertC g (cmpT ex g) fuel x v (arm st (some (j + c))) = .ok r (arm st' (some j)) := by
  have W := (h.agree hg).world
  have hh := ht.height
  have hdl := depth_le s.length
  have hlook : T.look g (g.key v) t = lookup g s (g.key v) := by
    rw [T.look_eq hg (by rw [ht.toL]; exact ht.sorted), ht.toL]
  have hpre : Pre st (.root x) none t := ⟨⟨_, ho, rfl⟩, ht.repr, ht.nodup, by simp [Ref.owner]⟩
  have hins : ∃ r st', insert g fuel x v st = .ok r st' ∧ st'.next ≤ st.next + 1 := by
    cases hl : lookup g s (g.key v) with
    | none =>
      obtain ⟨st', h1, _, h2⟩ := insert_new hg W hx v hl
      exact ⟨_, st', h1 fuel (by omega), by omega⟩
    | some d =>
      obtain ⟨st', h1, _, h2⟩ := insert_old hg W hx v (a₀ := d.1) (v₀ := d.2) hl
      exact ⟨_, st', h1 fuel (by omega), by omega⟩
  obtain ⟨r, st', hi, hn⟩ := hins
  have hi' := hi
  simp only [insert, M.bind_apply] at hi
  cases h1 : ins g x v fuel (.root x) none st with
  | ok q st1 =>
    rw [h1] at hi
    obtain ⟨t1, n1, c, b1, k1⟩ := insC_count (ex := ex) hpre W.thr fuel (by omega) q st1 h1
    rw [hlook] at b1
    have htail : NCost 0 (do let root ← getRef (.root x); setBlack root : TM V Unit) 0 :=
      NCost.bind (b₁ := 0) (b₂ := 0) (getRef_cost _) (fun _ => setBlack_cost _)
    obtain ⟨t2, c2, b2, k2⟩ := htail st1 t1
    have hi2 : (do let root ← getRef (.root x); setBlack root : TM V Unit) st1 = .ok () st' ∧ q = r := by
      simp only [M.bind_apply] at hi ⊢
      cases h2 : getRef (.root x) st1 with
      | ok p st2 =>
        rw [h2] at hi
        simp only [] at hi ⊢
        cases h3 : setBlack p st2 with
        | ok u st3 =>
          rw [h3] at hi
          simp only [M.pure_apply] at hi
          cases hi
          exact ⟨rfl, rfl⟩
        | throw _ _ => rw [h3] at hi; cases hi
        | ub _ => rw [h3] at hi; cases hi
        | timeout => rw [h3] at hi; cases hi
      | throw _ _ => rw [h2] at hi; cases hi
      | ub _ => rw [h2] at hi; cases hi
      | timeout => rw [h2] at hi; cases hi
    obtain ⟨hi2, rfl⟩ := hi2
    obtain ⟨n2, b2⟩ := b2 _ _ hi2
    obtain rfl : c2 = 0 := by omega
    refine ⟨q, st', c, ?_, hi', fun j => ?_⟩
    · cases hl : (lookup g s (g.key v)).isNone <;> simp [hl] at b1 ⊢ <;> omega
    · have k3 := k2 j
      rw [hi2, Nat.add_zero] at k3
      simp only [insertC, M.bind_apply, k1]
      simp only [M.bind_apply] at k3
      rw [show arm st1 (some j) = { st1 with thr := some j } from rfl]
      cases h2 : getRef (.root x) { st1 with thr := some j } with
      | ok p st2 =>
        rw [h2] at k3
        simp only [] at k3 ⊢
        rw [k3]; rfl
      | throw _ _ => rw [h2] at k3; cases k3
      | ub _ => rw [h2] at k3; cases k3
      | timeout => rw [h2] at k3; cases k3
  | throw _ _ => rw [h1] at hi; cases hi
  | ub _ => rw [h1] at hi; cases hi
  | timeout => rw [h1] at hi; cases hi

/-- What is left when the comparison with `m_begin->x` throws: the new element is in the tree but not counted,
and `m_begin` was not updated. The container can still be destroyed. -/
structure Uncounted (g : Cfg V K) (st : TSt V) (x : Nat) (s : Seq V) (v : V) (st' : TSt V) : Prop where
  found : ∀ fuel, s.length + 1 < fuel → find g fuel x (g.key v) st' = .ok (some st.next) st'
  value : getX (some st.next) st' = .ok v st'
  size : size x st' = .ok s.length st'
  begin_ : begin_ x st' = .ok (hd s) st'
  destroy : ∃ st'', (∀ fuel, s.length + 1 < fuel → dtor fuel x st' = .ok () st'') ∧
    st''.objs = upd st.objs x none ∧ ∀ a, st''.mem a = if a ∈ s.map Prod.fst then none else st.mem a

theorem insertC_begin (hg : g.Lawful) (h : Reach g st its e) {x : Nat} {s : Seq V} (hx : e.sets x = some s)
    (v : V) (hne : s ≠ []) (hl : lookup g s (g.key v) = none) {t : T V}
    (ho : st.objs x = some ⟨t.rt, hd s, s.length⟩) (ht : TRep g st.mem ⟨t.rt, hd s, s.length⟩ s t) :
    ∃ st', (∀ fuel, s.length < fuel →
        insertC g (cmpT ex g) fuel x v (arm st (some (3 + t.path g (g.key v)))) = .throw ex st') ∧
      Uncounted g st x s v st' := by
  have W := (h.agree hg).world
  have hh := ht.height
  have hdl := depth_le s.length
  have hlook : T.look g (g.key v) t = none := by
    rw [T.look_eq hg (by rw [ht.toL]; exact ht.sorted), ht.toL]; exact hl
  have hpre : Pre st (.root x) none t := ⟨⟨_, ho, rfl⟩, ht.repr, ht.nodup, by simp [Ref.owner]⟩
  obtain ⟨d, s', rfl⟩ : ∃ d s', s = d :: s' := by cases s with | nil => exact absurd rfl hne | cons d s' => exact ⟨d, s', rfl⟩
  obtain ⟨nb, hb1, hb2⟩ := W_cell W (s₁ := []) (a := d.1) (v := d.2) (s₂ := s') hx
  obtain ⟨st', e1, p1⟩ := insC_raw (ex := ex) (g := g) (v := v) ho (b := d.1) rfl hb1 (W.fresh _ (Nat.le_refl _))
    hlook hpre (by intro y hy; cases hy; rfl)
  have hperm := T.ids_insRaw (g := g) (n := st.next) hlook
  have hnext : st.next ∉ t.ids := fun hm => (ht.repr.alloc _ hm) (W.fresh _ (Nat.le_refl _))
  have hnd : (T.insRaw g st.next v t).ids.Nodup := by
    rw [hperm.nodup_iff, List.nodup_cons]; exact ⟨hnext, ht.nodup⟩
  have hhr := T.height_insRaw (g := g) st.next v t
  have hobj : st'.objs = upd st.objs x (some ⟨(T.insRaw g st.next v t).rt, hd (d :: s'), (d :: s').length⟩) := by
    rw [p1.objs]; simp [wr, raw, ho]
  have hox : st'.objs x = some ⟨(T.insRaw g st.next v t).rt, hd (d :: s'), (d :: s').length⟩ := by
    rw [hobj]; simp
  have hfind := T.look_insRaw hg (n := st.next) hlook
  refine ⟨st', fun fuel hf => ?_, ?_, ?_, ?_, ?_, ?_⟩
  · simp only [insertC, M.bind_apply, e1 fuel (by omega)]
  · intro fuel hf
    have he : empty x st' = .ok false st' := by simp [empty, hox]
    simp only [find, M.bind_apply, he, Bool.false_eq_true, if_false, getObj_some hox]
    rw [find_sim (g.key v) p1.repr fuel (by omega), hfind]; rfl
  · have key : ∀ (t : T V) par, Repr st'.mem par t → ∀ a w, T.look g (g.key v) t = some (a, w) →
        getX (some a) st' = .ok w st' := by
      intro t
      induction t with
      | nil => intro _ _ a w h; simp [T.look] at h
      | node c l b u r ih1 ih2 =>
        intro par hr a w hlk
        simp only [T.look] at hlk
        split at hlk
        · exact ih1 _ hr.2.1 a w hlk
        · split at hlk
          · exact ih2 _ hr.2.2 a w hlk
          · cases hlk; simp [getX, hr.1]
    exact key _ _ p1.repr _ _ hfind
  · simp [Tree.size, hox]
  · simp [Tree.begin_, hox]
  · obtain ⟨st2, e2, o2, n2, t2, g2, f2⟩ := dd_sim p1.repr hnd
    refine ⟨⟨upd st2.objs x none, st2.mem, st2.next, st2.thr⟩, fun fuel hf => ?_, ?_, fun a => ?_⟩
    · simp [dtor, clear, hox, e2 fuel (by omega), o2, upd_upd]
    · simp [o2, hobj, upd_upd]
    · have hids : t.ids = (d :: s').map Prod.fst := by rw [T.ids, ht.toL]
      rw [← hids]
      by_cases ha : a ∈ (T.insRaw g st.next v t).ids
      · simp only [g2 a ha]
        rcases List.mem_cons.1 (hperm.mem_iff.1 ha) with rfl | hm
        · simp [hnext, W.fresh _ (Nat.le_refl _)]
        · simp [hm]
      · simp only [f2 a ha]
        have : a ∉ t.ids := fun hm => ha (hperm.mem_iff.2 (List.mem_cons_of_mem _ hm))
        rw [if_neg this, p1.frame a ha]; rfl

theorem insertC_throw (hg : g.Lawful) (h : Reach g st its e) {x : Nat} {s : Seq V} (hx : e.sets x = some s)
    (v : V) {fuel : Nat} (hf : s.length < fuel) (h1 : ex ≠ .badAlloc) (h2 : ex ≠ .elem) {j : Nat} {st' : TSt V}
    (ht : insertC g (cmpT ex g) fuel x v (arm st (some j)) = .throw ex st') :
    st' = st ∨ s ≠ [] ∧ lookup g s (g.key v) = none ∧ Uncounted g st x s v st' := by
  have W := (h.agree hg).world
  obtain ⟨t, ho, hr⟩ := W_rep W hx
  have hh := hr.height
  have hdl := depth_le s.length
  have hlook : T.look g (g.key v) t = lookup g s (g.key v) := by
    rw [T.look_eq hg (by rw [hr.toL]; exact hr.sorted), hr.toL]
  have hpre : Pre st (.root x) none t := ⟨⟨_, ho, rfl⟩, hr.repr, hr.nodup, by simp [Ref.owner]⟩
  have hfresh := W.fresh st.next (Nat.le_refl _)
  by_cases hj : j < t.path g (g.key v)
  · left
    simp only [insertC, M.bind_apply, insC_throw (ex := ex) (x := x) (v := v) hpre fuel j (by omega) hj,
      arm_none W.thr] at ht
    cases ht; rfl
  · obtain ⟨i, rfl⟩ : ∃ i, j = i + t.path g (g.key v) := ⟨j - t.path g (g.key v), by omega⟩
    have hcount : ∀ c r st1, (∀ k, insertC g (cmpT ex g) fuel x v (arm st (some (k + c))) =
        .ok r (arm st1 (some k))) → ¬ c ≤ i + t.path g (g.key v) := by
      intro c r st1 hc hle
      have := hc (i + t.path g (g.key v) - c)
      rw [Nat.sub_add_cancel hle, ht] at this
      cases this
    obtain ⟨r, st1, c, hc, _, hok⟩ := insertC_count (ex := ex) hg h hx v hf ho hr
    cases hl : lookup g s (g.key v) with
    | some d =>
      rw [hl] at hc
      exact absurd (by simpa using Nat.le_trans hc (by simp)) (hcount c r st1 hok)
    | none =>
      right
      rw [hl] at hlook hc
      have hleaf : ∀ i' ex', ex' ≠ ex → (∀ n par, At st n none → (∀ y, n = .root y → y = x) → ∀ f,
          ∃ st', insC g (cmpT ex g) x v (f+1) n par (arm st (some i')) = .throw ex' st') → i ≠ i' := by
        rintro i' ex' hne hl rfl
        obtain ⟨st2, e2⟩ := insC_throw_at hl hlook hpre (by intro y hy; cases hy; rfl) fuel (by omega)
        simp only [insertC, M.bind_apply, e2] at ht
        cases ht; exact hne rfl
      have i0 : i ≠ 0 := hleaf 0 .badAlloc (Ne.symm h1) (by
        intro n par hat hn f
        refine ⟨arm st none, ?_⟩
        simp only [insC, M.bind_apply, getRef_arm hat]
        simp [leafC, allocNode, allocC, tick, arm])
      have hel : ∀ i', i' = 1 ∨ i' = 2 → i ≠ i' := fun i' hi' => hleaf i' .elem (Ne.symm h2) (by
        intro n par hat hn f
        simp only [insC, M.bind_apply, getRef_arm hat]
        cases n with
        | root y =>
          obtain rfl := hn y rfl
          rcases hi' with rfl | rfl <;>
            simp [leafC, allocNode, allocC, tick, arm, setRef, ho, constructNode]
        | left a | right a | par a =>
          obtain ⟨na, h2, h3⟩ := hat
          have ha : a ≠ st.next := by rintro rfl; rw [hfresh] at h2; cases h2
          rcases hi' with rfl | rfl <;>
            simp [leafC, allocNode, allocC, tick, arm, setRef, getN, h2, ha, Ne.symm ha, constructNode])
      have i1 := hel 1 (.inl rfl)
      have i2 := hel 2 (.inr rfl)
      have hs : s ≠ [] := by
        rintro rfl
        have htn : t = .nil := by
          have := hr.toL
          cases t with
          | nil => rfl
          | node => simp at this
        subst htn
        obtain ⟨fuel, rfl⟩ : ∃ f, fuel = f + 1 := ⟨fuel - 1, by omega⟩
        obtain ⟨i, rfl⟩ : ∃ i', i = i' + 3 := ⟨i - 3, by omega⟩
        have hat : At st (.root x) none := hpre.at_
        simp [insertC, insC, T.path, getRef, ho, hd, leafC, firstC, allocNode, allocC, tick, arm, setRef,
          constructNode, setBlack, getN] at ht
      refine ⟨hs, rfl, ?_⟩
      have i3 : i = 3 := by
        have := hcount c r st1 hok
        simp at hc
        omega
      subst i3
      obtain ⟨st2, e2, U⟩ := insertC_begin (ex := ex) hg h hx v hs hl ho hr
      rw [e2 fuel hf] at ht
      cases ht
      exact U
end

end Cest.Tree
