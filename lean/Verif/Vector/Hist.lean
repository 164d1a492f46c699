import Verif.Core.FrameArr
import Verif.Vector.Refine
import Verif.Vector.Cost
import Verif.Vector.Throw
import Verif.Vector.ThrowProps
import Verif.Vector.HistSpec
import Verif.Vector.HistRun
/-
Lemmas for C141: operations of cest::vector that throw, in a state with leaked storage; capacities.
-/
namespace Cest.Vec
open Cest
variable {V : Type}

/-! ### The functions do not notice leaked storage -/

/-- Code without loops. -/
macro "vloc" : tactic => `(tactic| repeat (first
  | exact Local.pure _ | exact Local.ub _ | exact Local.throw _
  | exact Local.getObj _ | exact Local.setObj _ _ | exact Local.newObj _ _ | exact Local.delObj _
  | exact Local.allocArr _ | exact Local.freeArr _ _ | exact Local.load _ _ | exact Local.store _ _ _
  | exact Local.constructAt _ _ _ | exact Local.destroyN _ _ _
  | assumption
  | refine Local.bind ?_ (fun _ => ?_)
  | refine Local.onThrow ?_ ?_
  | refine Local.forN (fun _ => ?_) _ _
  | refine Local.ite ?_ ?_
  | split))

theorem swap_loc (x y : Nat) : Local (swap x y : VM V Unit) := by unfold swap; vloc
theorem reserve_loc (x n : Nat) : Local (reserve x n : VM V Unit) := by unfold reserve; vloc
theorem clear_loc (x : Nat) : Local (clear x : VM V Unit) := by unfold clear; vloc
theorem dtor_loc (x : Nat) : Local (dtor x : VM V Unit) := by
  have := clear_loc (V := V) x
  unfold dtor; vloc
theorem read_loc (r : Ref V) : Local r.read := by
  cases r with
  | ext v => exact Local.pure _
  | cell p i => exact Local.load _ _
theorem pushBack_loc (x : Nat) (r : Ref V) : Local (pushBack x r) := by
  have h1 := reserve_loc (V := V) x
  have h2 := read_loc r
  unfold pushBack grow
  refine Local.bind (Local.bind (Local.getObj _) fun o => ?_) fun _ => by vloc
  split
  · exact h1 _
  · split
    · exact h1 _
    · exact Local.pure _
theorem pushAll_loc (x : Nat) (vs : List V) : Local (pushAll x vs) := by
  induction vs with
  | nil => exact Local.pure _
  | cons v vs ih => exact Local.bind (pushBack_loc _ _) fun _ => ih
theorem copyCtor_loc (x y : Nat) : Local (copyCtor x y : VM V Unit) := by
  have h1 := fun n => reserve_loc (V := V) x n
  have h2 := dtor_loc (V := V) x
  unfold copyCtor ctor
  refine Local.bind (Local.newObj _ _) fun _ => Local.onThrow (Local.bind (Local.getObj _) fun o => ?_) h2
  exact Local.bind (h1 _) fun _ => by vloc
theorem copyAssign_loc (x y : Nat) : Local (copyAssign x y : VM V Unit) := by
  unfold copyAssign
  refine Local.bind (Local.getObj _) fun o => Local.bind (reserve_loc _ _) fun _ => by vloc
theorem ctorN_loc [Inhabited V] (x n : Nat) : Local (ctorN x n : VM V Unit) := by
  have h1 := reserve_loc (V := V) x n
  unfold ctorN ctor; vloc
theorem ctorList_loc (x : Nat) (vs : List V) : Local (ctorList x vs) := by
  have h1 := pushAll_loc x vs
  unfold ctorList ctor; vloc
theorem resize_loc [Inhabited V] (x n : Nat) : Local (resize x n : VM V Unit) := by
  have h1 := reserve_loc (V := V) x n
  unfold resize; vloc
theorem collect_loc (p : Option Nat) (i n : Nat) : Local (collect p i n : VM V (List V)) := by
  induction n generalizing i with
  | zero => exact Local.pure _
  | succ n ih => have := ih (i+1); unfold collect; vloc
theorem equalLoop_loc [BEq V] (p q : Option Nat) (i n : Nat) : Local (equalLoop p q i n : VM V Bool) := by
  induction n generalizing i with
  | zero => exact Local.pure _
  | succ n ih => have := ih (i+1); unfold equalLoop; vloc

theorem runOp_loc [Inhabited V] [BEq V] (op : Op V) : Local (runOp op) := by
  cases op with
  | new x => unfold runOp ctor; vloc
  | newN x n => exact Local.bind (ctorN_loc _ _) fun _ => Local.pure _
  | newList x vs => exact Local.bind (ctorList_loc _ _) fun _ => Local.pure _
  | newCopy x y => exact Local.bind (copyCtor_loc _ _) fun _ => Local.pure _
  | newMove x y =>
    exact Local.bind (Local.bind (Local.newObj _ _) fun _ => swap_loc _ _) fun _ => Local.pure _
  | assign x y => exact Local.bind (copyAssign_loc _ _) fun _ => Local.pure _
  | moveAssign x y => exact Local.bind (swap_loc _ _) fun _ => Local.pure _
  | swap x y => exact Local.bind (swap_loc _ _) fun _ => Local.pure _
  | pushBack x v => exact Local.bind (pushBack_loc _ _) fun _ => Local.pure _
  | pushBackFrom x y i =>
    exact Local.bind (Local.getObj _) fun _ => Local.bind (pushBack_loc _ _) fun _ => Local.pure _
  | popBack x => unfold runOp popBack; vloc
  | resize x n => exact Local.bind (resize_loc _ _) fun _ => Local.pure _
  | reserve x n => exact Local.bind (reserve_loc _ _) fun _ => Local.pure _
  | clear x => exact Local.bind (clear_loc _) fun _ => Local.pure _
  | erase x i j => unfold runOp erase; vloc
  | set x i v => unfold runOp Vec.set; vloc
  | destroy x => exact Local.bind (dtor_loc _) fun _ => Local.pure _
  | size x => unfold runOp Vec.size; vloc
  | empty x => unfold runOp Vec.empty; vloc
  | get x i => unfold runOp Vec.get; vloc
  | at_ x i =>
    refine Local.tryCatch (Local.bind ?_ fun _ => Local.pure _) fun e => ?_
    · unfold Vec.at_; vloc
    · cases e <;> vloc
  | front x => unfold runOp Vec.front; vloc
  | back x => unfold runOp Vec.back; vloc
  | toList x => exact Local.bind (Local.bind (Local.getObj _) fun _ => collect_loc _ _ _) fun _ => Local.pure _
  | eq x y =>
    have := fun p q i n => equalLoop_loc (V := V) p q i n
    refine Local.bind (Local.bind (Local.getObj _) fun _ => Local.bind (Local.getObj _) fun _ => ?_)
      fun _ => Local.pure _
    split
    · exact this _ _ _ _
    · exact Local.pure _

/-! ### Capacities -/

/-- The vectors have the capacities `c`. -/
def CapsOf (σ : Nat → Option (AV V)) (c : Caps) : Prop := ∀ x s, σ x = some s → s.cap = c x

theorem CapsOf.upd {σ : Nat → Option (AV V)} {c : Caps} (h : CapsOf σ c) (x : Nat) {s : AV V} {n : Nat}
    (hn : s.cap = n) : CapsOf (Cest.upd σ x (some s)) (c.set x n) := by
  intro y t hy
  simp only [Cest.upd, Caps.set] at hy ⊢
  split at hy
  · rw [if_pos ‹_›]; simp only [Option.some.injEq] at hy; rw [← hy]; exact hn
  · rw [if_neg ‹_›]; exact h y t hy
theorem CapsOf.keep {σ : Nat → Option (AV V)} {c : Caps} (h : CapsOf σ c) {x : Nat} {s t : AV V}
    (hx : σ x = some s) (ht : t.cap = s.cap) : CapsOf (Cest.upd σ x (some t)) c := by
  intro y u hy
  simp only [Cest.upd] at hy
  split at hy
  · rename_i hyx
    subst hyx
    simp only [Option.some.injEq] at hy; rw [← hy, ht]; exact h _ _ hx
  · exact h y u hy
theorem CapsOf.del {σ : Nat → Option (AV V)} {c : Caps} (h : CapsOf σ c) (x : Nat) :
    CapsOf (Cest.upd σ x none) c := by
  intro y t hy
  simp only [Cest.upd] at hy
  split at hy
  · cases hy
  · exact h y t hy

theorem obj_cap {st : VSt V} {σ : Nat → Option (AV V)} {x : Nat} {s : AV V} {n : Nat} {p : Option Nat}
    (W : VW st σ) (h : σ x = some s) (ho : ∃ k, st.objs x = some ⟨k, n, p⟩) : s.cap = n := by
  obtain ⟨k, ho⟩ := ho
  rw [W_obj W h] at ho
  simp only [Option.some.injEq, Obj.mk.injEq] at ho
  exact ho.2.1

theorem pushAll_caps {vs : List V} {st : VSt V} {σ : Nat → Option (AV V)} {x : Nat} {s : AV V}
    (W : VW st σ) (h : σ x = some s) :
    ∃ st' s', pushAll x vs st = .ok () st' ∧ VW st' (upd σ x (some s')) ∧ s'.xs = s.xs ++ vs ∧
      s'.cap = pushCaps s.cap s.xs.length vs.length := by
  induction vs generalizing st σ s with
  | nil => exact ⟨st, s, rfl, by rw [upd_eq_self h]; exact W, by simp, rfl⟩
  | cons v vs ih =>
    obtain ⟨st1, h1, W1⟩ := pushBack_ext (v := v) W h
    obtain ⟨st2, s2, h2, W2, hs2, hc⟩ := ih W1 (upd_same _ _ _)
    refine ⟨st2, s2, by simp [pushAll, h1, h2], by rwa [upd_upd] at W2, ?_, ?_⟩
    · rw [hs2]; simp [AV.push]
    · rw [hc]; simp [AV.push, pushCaps, pushCap]

theorem ctorList_caps {vs : List V} {st : VSt V} {σ : Nat → Option (AV V)} {x : Nat}
    (W : VW st σ) (h : σ x = none) :
    ∃ st' s', ctorList x vs st = .ok () st' ∧ VW st' (upd σ x (some s')) ∧ s'.xs = vs ∧
      s'.cap = pushCaps 0 0 vs.length := by
  obtain ⟨st1, h1, W1⟩ := ctor_spec W h
  obtain ⟨st2, s2, h2, W2, hs2, hc⟩ := pushAll_caps (vs := vs) W1 (upd_same _ _ _)
  refine ⟨st2, s2, ?_, by rwa [upd_upd] at W2, by simpa using hs2, hc⟩
  unfold ctorList
  simp only [M.bind_apply, h1]
  rw [M.onThrow_of_ok h2]

variable [Inhabited V] [BEq V]

/-- Agreement with the specification. -/
def Agree (st : VSt V) (e : Env V) (c : Caps) : Prop :=
  ∃ σ, VW st σ ∧ envOf σ = e ∧ CapsOf σ c

theorem step_ok {st : VSt V} {σ : Nat → Option (AV V)} {e e' : Env V} {c : Caps} {op : Op V} {o : Out V}
    (W : VW st σ) (he : envOf σ = e) (hc : CapsOf σ c) (hs : specStep e op = some (e', o)) :
    ∃ st' σ', runOp op st = .ok o st' ∧ VW st' σ' ∧ envOf σ' = e' ∧ CapsOf σ' (capsAfter e c op) := by
  cases op with
  | new x =>
    simp only [specStep] at hs
    split at hs <;> simp at hs
    rename_i hx; obtain ⟨rfl, rfl⟩ := hs
    obtain ⟨st', h1, W'⟩ := ctor_spec W (envOf_none he hx)
    exact ⟨st', _, by simp [runOp, h1], W', by rw [envOf_upd, he]; rfl, hc.upd x rfl⟩
  | newN x n =>
    simp only [specStep] at hs
    split at hs <;> simp at hs
    rename_i hx; obtain ⟨rfl, rfl⟩ := hs
    obtain ⟨st', s', h1, W', h2, h3⟩ := ctorN_spec' (n := n) W (envOf_none he hx)
    exact ⟨st', _, by simp [runOp, h1], W', by rw [envOf_upd, he]; simp [h2], hc.upd x h3⟩
  | newList x vs =>
    simp only [specStep] at hs
    split at hs <;> simp at hs
    rename_i hx; obtain ⟨rfl, rfl⟩ := hs
    obtain ⟨st', s', h1, W', h2, h3⟩ := ctorList_caps (vs := vs) W (envOf_none he hx)
    exact ⟨st', _, by simp [runOp, h1], W', by rw [envOf_upd, he]; simp [h2], hc.upd x h3⟩
  | newCopy x y =>
    simp only [specStep] at hs
    split at hs <;> simp at hs
    rename_i ys hx hy; obtain ⟨rfl, rfl⟩ := hs
    obtain ⟨s, hy', rfl⟩ := envOf_some he hy
    obtain ⟨st', h1, W'⟩ := copyCtor_spec W (envOf_none he hx) hy'
    exact ⟨st', _, by simp [runOp, h1], W', by rw [envOf_upd, he]; simp, hc.upd x (hc y s hy')⟩
  | newMove x y =>
    simp only [specStep] at hs
    split at hs <;> simp at hs
    rename_i ys hx hy; obtain ⟨rfl, rfl⟩ := hs
    obtain ⟨s, hy', rfl⟩ := envOf_some he hy
    obtain ⟨st', h1, W'⟩ := moveCtor_spec W (envOf_none he hx) hy'
    exact ⟨st', _, by simp [runOp, h1], W', by rw [envOf_upd, envOf_upd, he]; simp,
      (hc.upd x (hc y s hy')).upd y rfl⟩
  | assign x y =>
    simp only [specStep] at hs
    split at hs <;> simp at hs
    rename_i xs ys hx hy; obtain ⟨rfl, rfl⟩ := hs
    obtain ⟨s, hx', rfl⟩ := envOf_some he hx
    obtain ⟨sy, hy', rfl⟩ := envOf_some he hy
    obtain ⟨st', h1, W'⟩ := copyAssign_spec W hx' hy'
    refine ⟨st', _, by simp [runOp, h1], W', by rw [envOf_upd, he]; simp [AV.assign], hc.upd x ?_⟩
    simp only [AV.assign, ← hc x s hx', ← hc y sy hy']
  | moveAssign x y =>
    simp only [specStep] at hs
    split at hs <;> simp at hs
    rename_i xs ys hx hy; obtain ⟨rfl, rfl⟩ := hs
    obtain ⟨s, hx', rfl⟩ := envOf_some he hx
    obtain ⟨sy, hy', rfl⟩ := envOf_some he hy
    obtain ⟨st', h1, W'⟩ := swap_spec W hx' hy'
    exact ⟨st', _, by simp [runOp, Vec.moveAssign, h1], W', by rw [envOf_upd, envOf_upd, he]; simp,
      (hc.upd x (hc y sy hy')).upd y (hc x s hx')⟩
  | swap x y =>
    simp only [specStep] at hs
    split at hs <;> simp at hs
    rename_i xs ys hx hy; obtain ⟨rfl, rfl⟩ := hs
    obtain ⟨s, hx', rfl⟩ := envOf_some he hx
    obtain ⟨sy, hy', rfl⟩ := envOf_some he hy
    obtain ⟨st', h1, W'⟩ := swap_spec W hx' hy'
    exact ⟨st', _, by simp [runOp, h1], W', by rw [envOf_upd, envOf_upd, he]; simp,
      (hc.upd x (hc y sy hy')).upd y (hc x s hx')⟩
  | pushBack x v =>
    simp only [specStep] at hs
    split at hs <;> simp at hs
    rename_i xs hx; obtain ⟨rfl, rfl⟩ := hs
    obtain ⟨s, hx', rfl⟩ := envOf_some he hx
    obtain ⟨st', h1, W'⟩ := pushBack_ext (v := v) W hx'
    refine ⟨st', _, by simp [runOp, h1], W', by rw [envOf_upd, he]; simp [AV.push], ?_⟩
    simp only [capsAfter, hx]
    exact hc.upd x (by simp only [AV.push, pushCap, ← hc x s hx'])
  | pushBackFrom x y i =>
    have hs' := hs
    simp only [specStep] at hs'
    split at hs' <;> try simp at hs'
    rename_i xs ys hx hy
    by_cases hxy : x = y
    · simp [hxy] at hs'
    · simp only [hxy] at hs'
      split at hs' <;> simp at hs'
      rename_i v hv
      obtain ⟨rfl, rfl⟩ := hs'
      obtain ⟨s, hx', rfl⟩ := envOf_some he hx
      obtain ⟨sy, hy', rfl⟩ := envOf_some he hy
      obtain ⟨st', h1, W'⟩ := pushBack_spec (r := .cell sy.p i) (v := v) W hx' (by
        intro st1 c' p' W1 _ objs'
        have hyx : y ≠ x := Ne.symm hxy
        have hy1 : (upd σ x (some ⟨s.xs, c', p'⟩)) y = some sy := by simp [hyx, hy']
        obtain ⟨ys, d, q⟩ := sy
        have hl := W_len W1 hy1
        simp only [] at hv hl
        cases q with
        | none => have := (W_null W1 hy1).2; simp [this] at hv
        | some b => exact load_arr (by exact (W_mem W1 hy1).1) hl hv)
      refine ⟨st', _, ?_, W', by rw [envOf_upd, he]; simp [AV.push], ?_⟩
      · simp [runOp, getObj_some (W_obj W hy'), h1]
      · simp only [capsAfter, hx]
        exact hc.upd x (by simp only [AV.push, pushCap, ← hc x s hx'])
  | popBack x =>
    simp only [specStep] at hs
    split at hs <;> simp at hs
    rename_i xs hx; obtain ⟨hne, rfl, rfl⟩ := hs
    obtain ⟨s, hx', rfl⟩ := envOf_some he hx
    obtain ⟨st', h1, W'⟩ := popBack_spec W hx' hne
    exact ⟨st', _, by simp [runOp, h1], W', by rw [envOf_upd, he]; simp, hc.keep hx' rfl⟩
  | resize x n =>
    simp only [specStep] at hs
    split at hs <;> simp at hs
    rename_i xs hx; obtain ⟨rfl, rfl⟩ := hs
    obtain ⟨s, hx', rfl⟩ := envOf_some he hx
    obtain ⟨st', s', h1, W', h2, h3, _⟩ := resize_spec (n := n) W hx'
    exact ⟨st', _, by simp [runOp, h1], W', by rw [envOf_upd, he]; simp [h2],
      hc.upd x (by rw [h3, hc x s hx'])⟩
  | reserve x n =>
    simp only [specStep] at hs
    split at hs <;> simp at hs
    rename_i xs hx; obtain ⟨rfl, rfl⟩ := hs
    obtain ⟨s, hx', rfl⟩ := envOf_some he hx
    obtain ⟨st', h1, W'⟩ := reserve_spec (n := n) W hx'
    refine ⟨st', _, by simp [runOp, h1], W', ?_, hc.upd x ?_⟩
    · rw [envOf_upd, he]
      funext z
      simp only [Env.set, Option.map_some]
      split
      · rename_i hz; subst hz
        rw [hx]; simp only [AV.reserve]; split <;> rfl
      · rfl
    · simp only [AV.reserve, ← hc x s hx']; split
      · show n = _; omega
      · omega
  | clear x =>
    simp only [specStep] at hs
    split at hs <;> simp at hs
    rename_i xs hx; obtain ⟨rfl, rfl⟩ := hs
    obtain ⟨s, hx', rfl⟩ := envOf_some he hx
    obtain ⟨st', h1, W'⟩ := clear_spec W hx'
    exact ⟨st', _, by simp [runOp, h1], W', by rw [envOf_upd, he]; simp, hc.keep hx' rfl⟩
  | erase x i j =>
    simp only [specStep] at hs
    split at hs <;> simp at hs
    rename_i xs hx; obtain ⟨⟨hij, hj⟩, rfl, rfl⟩ := hs
    obtain ⟨s, hx', rfl⟩ := envOf_some he hx
    obtain ⟨st', h1, W'⟩ := erase_spec W hx' hij hj
    exact ⟨st', _, by simp [runOp, h1], W', by rw [envOf_upd, he]; simp, hc.keep hx' rfl⟩
  | set x i v =>
    simp only [specStep] at hs
    split at hs <;> simp at hs
    rename_i xs hx; obtain ⟨hi, rfl, rfl⟩ := hs
    obtain ⟨s, hx', rfl⟩ := envOf_some he hx
    obtain ⟨st', h1, W'⟩ := set_spec (v := v) W hx' hi
    exact ⟨st', _, by simp [runOp, h1], W', by rw [envOf_upd, he]; simp, hc.keep hx' rfl⟩
  | destroy x =>
    simp only [specStep] at hs
    split at hs <;> simp at hs
    rename_i xs hx; obtain ⟨rfl, rfl⟩ := hs
    obtain ⟨s, hx', rfl⟩ := envOf_some he hx
    obtain ⟨st', h1, W'⟩ := dtor_spec W hx'
    exact ⟨st', _, by simp [runOp, h1], W', by rw [envOf_upd, he]; simp, hc.del x⟩
  | size x =>
    simp only [specStep] at hs
    split at hs <;> simp at hs
    rename_i xs hx; obtain ⟨rfl, rfl⟩ := hs
    obtain ⟨s, hx', rfl⟩ := envOf_some he hx
    exact ⟨st, σ, by simp [runOp, size_spec W hx'], W, he, hc⟩
  | empty x =>
    simp only [specStep] at hs
    split at hs <;> simp at hs
    rename_i xs hx; obtain ⟨rfl, rfl⟩ := hs
    obtain ⟨s, hx', rfl⟩ := envOf_some he hx
    exact ⟨st, σ, by simp [runOp, empty_spec W hx'], W, he, hc⟩
  | get x i =>
    simp only [specStep] at hs
    split at hs <;> try simp at hs
    split at hs <;> simp at hs
    rename_i xs hx _ v hv; obtain ⟨rfl, rfl⟩ := hs
    obtain ⟨s, hx', rfl⟩ := envOf_some he hx
    exact ⟨st, σ, by simp [runOp, get_spec W hx' hv], W, he, hc⟩
  | at_ x i =>
    simp only [specStep] at hs
    split at hs <;> try simp at hs
    rename_i xs hx
    obtain ⟨s, hx', rfl⟩ := envOf_some he hx
    split at hs <;> simp at hs
    · rename_i v hv; obtain ⟨rfl, rfl⟩ := hs
      exact ⟨st, σ, by simp [runOp, M.tryCatch, at_spec W hx' hv], W, he, hc⟩
    · rename_i hv; obtain ⟨rfl, rfl⟩ := hs
      simp at hv
      exact ⟨st, σ, by simp [runOp, M.tryCatch, at_throw W hx' hv], W, he, hc⟩
  | front x =>
    simp only [specStep] at hs
    split at hs <;> try simp at hs
    split at hs <;> simp at hs
    rename_i xs hx _ v hv; obtain ⟨rfl, rfl⟩ := hs
    obtain ⟨s, hx', rfl⟩ := envOf_some he hx
    exact ⟨st, σ, by simp [runOp, front_spec W hx' hv], W, he, hc⟩
  | back x =>
    simp only [specStep] at hs
    split at hs <;> try simp at hs
    split at hs <;> simp at hs
    rename_i xs hx _ v hv; obtain ⟨rfl, rfl⟩ := hs
    obtain ⟨s, hx', rfl⟩ := envOf_some he hx
    exact ⟨st, σ, by simp [runOp, back_spec W hx' hv], W, he, hc⟩
  | toList x =>
    simp only [specStep] at hs
    split at hs <;> simp at hs
    rename_i xs hx; obtain ⟨rfl, rfl⟩ := hs
    obtain ⟨s, hx', rfl⟩ := envOf_some he hx
    exact ⟨st, σ, by simp [runOp, toList_spec W hx'], W, he, hc⟩
  | eq x y =>
    simp only [specStep] at hs
    split at hs <;> simp at hs
    rename_i xs ys hx hy; obtain ⟨rfl, rfl⟩ := hs
    obtain ⟨s, hx', rfl⟩ := envOf_some he hx
    obtain ⟨sy, hy', rfl⟩ := envOf_some he hy
    exact ⟨st, σ, by simp [runOp, eq_spec W hx' hy'], W, he, hc⟩

end Cest.Vec
