import Verif.Vector.Proofs
import Verif.Vector.Run
/-
Every step of a client program refines the specification (used by Vector/Props.lean).
-/
namespace Cest.Vec
open Cest
variable {V : Type}

/-- The environment seen by the specification. -/
def envOf (σ : Nat → Option (AV V)) : Env V := fun x => (σ x).map AV.xs

theorem envOf_upd (σ : Nat → Option (AV V)) (x : Nat) (s : Option (AV V)) :
    envOf (upd σ x s) = (envOf σ).set x (s.map AV.xs) := by
  funext y; simp [envOf, Env.set]; split <;> rfl

theorem envOf_some {σ : Nat → Option (AV V)} {e : Env V} (h : envOf σ = e) {x : Nat} {xs : List V}
    (hx : e x = some xs) : ∃ s, σ x = some s ∧ s.xs = xs := by
  subst h; simpa [envOf] using hx
theorem envOf_none {σ : Nat → Option (AV V)} {e : Env V} (h : envOf σ = e) {x : Nat}
    (hx : e x = none) : σ x = none := by
  subst h; simpa [envOf] using hx

variable [Inhabited V] [BEq V]

theorem step_refines {st : VSt V} {σ : Nat → Option (AV V)} {e e' : Env V} {op : Op V} {o : Out V}
    (W : VW st σ) (he : envOf σ = e) (hs : specStep e op = some (e', o)) :
    ∃ st' σ', runOp op st = .ok o st' ∧ VW st' σ' ∧ envOf σ' = e' := by
  cases op with
  | new x =>
    simp only [specStep] at hs
    split at hs <;> simp at hs
    rename_i hx; obtain ⟨rfl, rfl⟩ := hs
    obtain ⟨st', h1, W'⟩ := ctor_spec W (envOf_none he hx)
    exact ⟨st', _, by simp [runOp, h1], W', by rw [envOf_upd, he]; rfl⟩
  | newN x n =>
    simp only [specStep] at hs
    split at hs <;> simp at hs
    rename_i hx; obtain ⟨rfl, rfl⟩ := hs
    obtain ⟨st', s', h1, W', h2⟩ := ctorN_spec (n := n) W (envOf_none he hx)
    exact ⟨st', _, by simp [runOp, h1], W', by rw [envOf_upd, he]; simp [h2]⟩
  | newList x vs =>
    simp only [specStep] at hs
    split at hs <;> simp at hs
    rename_i hx; obtain ⟨rfl, rfl⟩ := hs
    obtain ⟨st', s', h1, W', h2⟩ := ctorList_spec (vs := vs) W (envOf_none he hx)
    exact ⟨st', _, by simp [runOp, h1], W', by rw [envOf_upd, he]; simp [h2]⟩
  | newCopy x y =>
    simp only [specStep] at hs
    split at hs <;> simp at hs
    rename_i ys hx hy; obtain ⟨rfl, rfl⟩ := hs
    obtain ⟨s, hy', rfl⟩ := envOf_some he hy
    obtain ⟨st', h1, W'⟩ := copyCtor_spec W (envOf_none he hx) hy'
    exact ⟨st', _, by simp [runOp, h1], W', by rw [envOf_upd, he]; simp⟩
  | newMove x y =>
    simp only [specStep] at hs
    split at hs <;> simp at hs
    rename_i ys hx hy; obtain ⟨rfl, rfl⟩ := hs
    obtain ⟨s, hy', rfl⟩ := envOf_some he hy
    obtain ⟨st', h1, W'⟩ := moveCtor_spec W (envOf_none he hx) hy'
    exact ⟨st', _, by simp [runOp, h1], W', by rw [envOf_upd, envOf_upd, he]; simp⟩
  | assign x y =>
    simp only [specStep] at hs
    split at hs <;> simp at hs
    rename_i xs ys hx hy; obtain ⟨rfl, rfl⟩ := hs
    obtain ⟨s, hx', rfl⟩ := envOf_some he hx
    obtain ⟨sy, hy', rfl⟩ := envOf_some he hy
    obtain ⟨st', h1, W'⟩ := copyAssign_spec W hx' hy'
    exact ⟨st', _, by simp [runOp, h1], W', by rw [envOf_upd, he]; simp [AV.assign]⟩
  | moveAssign x y =>
    simp only [specStep] at hs
    split at hs <;> simp at hs
    rename_i xs ys hx hy; obtain ⟨rfl, rfl⟩ := hs
    obtain ⟨s, hx', rfl⟩ := envOf_some he hx
    obtain ⟨sy, hy', rfl⟩ := envOf_some he hy
    obtain ⟨st', h1, W'⟩ := swap_spec W hx' hy'
    exact ⟨st', _, by simp [runOp, moveAssign, h1], W', by rw [envOf_upd, envOf_upd, he]; simp⟩
  | swap x y =>
    simp only [specStep] at hs
    split at hs <;> simp at hs
    rename_i xs ys hx hy; obtain ⟨rfl, rfl⟩ := hs
    obtain ⟨s, hx', rfl⟩ := envOf_some he hx
    obtain ⟨sy, hy', rfl⟩ := envOf_some he hy
    obtain ⟨st', h1, W'⟩ := swap_spec W hx' hy'
    exact ⟨st', _, by simp [runOp, h1], W', by rw [envOf_upd, envOf_upd, he]; simp⟩
  | pushBack x v =>
    simp only [specStep] at hs
    split at hs <;> simp at hs
    rename_i xs hx; obtain ⟨rfl, rfl⟩ := hs
    obtain ⟨s, hx', rfl⟩ := envOf_some he hx
    obtain ⟨st', h1, W'⟩ := pushBack_ext (v := v) W hx'
    exact ⟨st', _, by simp [runOp, h1], W', by rw [envOf_upd, he]; simp [AV.push]⟩
  | pushBackFrom x y i =>
    simp only [specStep] at hs
    split at hs <;> try simp at hs
    rename_i xs ys hx hy
    by_cases hxy : x = y
    · simp [hxy] at hs
    · simp only [hxy] at hs
      split at hs <;> simp at hs
      rename_i v hv
      obtain ⟨rfl, rfl⟩ := hs
      obtain ⟨s, hx', rfl⟩ := envOf_some he hx
      obtain ⟨sy, hy', rfl⟩ := envOf_some he hy
      obtain ⟨st', h1, W'⟩ := pushBack_spec (r := .cell sy.p i) (v := v) W hx' (by
        intro st1 c' p' W1 _ objs'
        have hyx : y ≠ x := Ne.symm hxy
        have hy1 : (upd σ x (some ⟨s.xs, c', p'⟩)) y = some sy := by simp [hyx, hy']
        obtain ⟨ys, d, q⟩ := sy
        have hl := W_len W1 hy1
        simp only [] at hv hl
        cases q with
        | none => have := (W_null W1 hy1).2; simp [this] at hv
        | some b => exact load_arr (by exact (W_mem W1 hy1).1) hl hv)
      refine ⟨st', _, ?_, W', by rw [envOf_upd, he]; simp [AV.push]⟩
      simp [runOp, getObj_some (W_obj W hy'), h1]
  | popBack x =>
    simp only [specStep] at hs
    split at hs <;> simp at hs
    rename_i xs hx; obtain ⟨hne, rfl, rfl⟩ := hs
    obtain ⟨s, hx', rfl⟩ := envOf_some he hx
    obtain ⟨st', h1, W'⟩ := popBack_spec W hx' hne
    exact ⟨st', _, by simp [runOp, h1], W', by rw [envOf_upd, he]; simp⟩
  | resize x n =>
    simp only [specStep] at hs
    split at hs <;> simp at hs
    rename_i xs hx; obtain ⟨rfl, rfl⟩ := hs
    obtain ⟨s, hx', rfl⟩ := envOf_some he hx
    obtain ⟨st', s', h1, W', h2, _⟩ := resize_spec (n := n) W hx'
    exact ⟨st', _, by simp [runOp, h1], W', by rw [envOf_upd, he]; simp [h2]⟩
  | reserve x n =>
    simp only [specStep] at hs
    split at hs <;> simp at hs
    rename_i xs hx; obtain ⟨rfl, rfl⟩ := hs
    obtain ⟨s, hx', rfl⟩ := envOf_some he hx
    obtain ⟨st', h1, W'⟩ := reserve_spec (n := n) W hx'
    refine ⟨st', _, by simp [runOp, h1], W', ?_⟩
    rw [envOf_upd, he]
    funext z
    simp only [Env.set, Option.map_some]
    split
    · rename_i hz; subst hz; rw [hx]; simp [AV.reserve]; split <;> rfl
    · rfl
  | clear x =>
    simp only [specStep] at hs
    split at hs <;> simp at hs
    rename_i xs hx; obtain ⟨rfl, rfl⟩ := hs
    obtain ⟨s, hx', rfl⟩ := envOf_some he hx
    obtain ⟨st', h1, W'⟩ := clear_spec W hx'
    exact ⟨st', _, by simp [runOp, h1], W', by rw [envOf_upd, he]; simp⟩
  | erase x i j =>
    simp only [specStep] at hs
    split at hs <;> simp at hs
    rename_i xs hx; obtain ⟨⟨hij, hj⟩, rfl, rfl⟩ := hs
    obtain ⟨s, hx', rfl⟩ := envOf_some he hx
    obtain ⟨st', h1, W'⟩ := erase_spec W hx' hij hj
    exact ⟨st', _, by simp [runOp, h1], W', by rw [envOf_upd, he]; simp⟩
  | set x i v =>
    simp only [specStep] at hs
    split at hs <;> simp at hs
    rename_i xs hx; obtain ⟨hi, rfl, rfl⟩ := hs
    obtain ⟨s, hx', rfl⟩ := envOf_some he hx
    obtain ⟨st', h1, W'⟩ := set_spec (v := v) W hx' hi
    exact ⟨st', _, by simp [runOp, h1], W', by rw [envOf_upd, he]; simp⟩
  | destroy x =>
    simp only [specStep] at hs
    split at hs <;> simp at hs
    rename_i xs hx; obtain ⟨rfl, rfl⟩ := hs
    obtain ⟨s, hx', rfl⟩ := envOf_some he hx
    obtain ⟨st', h1, W'⟩ := dtor_spec W hx'
    exact ⟨st', _, by simp [runOp, h1], W', by rw [envOf_upd, he]; simp⟩
  | size x =>
    simp only [specStep] at hs
    split at hs <;> simp at hs
    rename_i xs hx; obtain ⟨rfl, rfl⟩ := hs
    obtain ⟨s, hx', rfl⟩ := envOf_some he hx
    exact ⟨st, σ, by simp [runOp, size_spec W hx'], W, he⟩
  | empty x =>
    simp only [specStep] at hs
    split at hs <;> simp at hs
    rename_i xs hx; obtain ⟨rfl, rfl⟩ := hs
    obtain ⟨s, hx', rfl⟩ := envOf_some he hx
    exact ⟨st, σ, by simp [runOp, empty_spec W hx'], W, he⟩
  | get x i =>
    simp only [specStep] at hs
    split at hs <;> try simp at hs
    split at hs <;> simp at hs
    rename_i xs hx _ v hv; obtain ⟨rfl, rfl⟩ := hs
    obtain ⟨s, hx', rfl⟩ := envOf_some he hx
    exact ⟨st, σ, by simp [runOp, get_spec W hx' hv], W, he⟩
  | at_ x i =>
    simp only [specStep] at hs
    split at hs <;> try simp at hs
    rename_i xs hx
    obtain ⟨s, hx', rfl⟩ := envOf_some he hx
    split at hs <;> simp at hs
    · rename_i v hv; obtain ⟨rfl, rfl⟩ := hs
      exact ⟨st, σ, by simp [runOp, M.tryCatch, at_spec W hx' hv], W, he⟩
    · rename_i hv; obtain ⟨rfl, rfl⟩ := hs
      simp at hv
      exact ⟨st, σ, by simp [runOp, M.tryCatch, at_throw W hx' hv], W, he⟩
  | front x =>
    simp only [specStep] at hs
    split at hs <;> try simp at hs
    split at hs <;> simp at hs
    rename_i xs hx _ v hv; obtain ⟨rfl, rfl⟩ := hs
    obtain ⟨s, hx', rfl⟩ := envOf_some he hx
    exact ⟨st, σ, by simp [runOp, front_spec W hx' hv], W, he⟩
  | back x =>
    simp only [specStep] at hs
    split at hs <;> try simp at hs
    split at hs <;> simp at hs
    rename_i xs hx _ v hv; obtain ⟨rfl, rfl⟩ := hs
    obtain ⟨s, hx', rfl⟩ := envOf_some he hx
    exact ⟨st, σ, by simp [runOp, back_spec W hx' hv], W, he⟩
  | toList x =>
    simp only [specStep] at hs
    split at hs <;> simp at hs
    rename_i xs hx; obtain ⟨rfl, rfl⟩ := hs
    obtain ⟨s, hx', rfl⟩ := envOf_some he hx
    exact ⟨st, σ, by simp [runOp, toList_spec W hx'], W, he⟩
  | eq x y =>
    simp only [specStep] at hs
    split at hs <;> simp at hs
    rename_i xs ys hx hy; obtain ⟨rfl, rfl⟩ := hs
    obtain ⟨s, hx', rfl⟩ := envOf_some he hx
    obtain ⟨sy, hy', rfl⟩ := envOf_some he hy
    exact ⟨st, σ, by simp [runOp, eq_spec W hx' hy'], W, he⟩

theorem run_refines {ops : List (Op V)} {st : VSt V} {σ : Nat → Option (AV V)} {e e' : Env V}
    {os : List (Out V)} (W : VW st σ) (he : envOf σ = e) (hs : specRun e ops = some (e', os)) :
    ∃ st' σ', runOps ops st = .ok os st' ∧ VW st' σ' ∧ envOf σ' = e' := by
  induction ops generalizing st σ e os with
  | nil =>
    simp only [specRun] at hs; cases hs
    exact ⟨st, σ, rfl, W, he⟩
  | cons op ops ih =>
    simp only [specRun] at hs
    split at hs <;> try simp at hs
    rename_i e1 o h1
    split at hs <;> simp at hs
    rename_i e2 os2 h2
    obtain ⟨rfl, rfl⟩ := hs
    obtain ⟨st1, σ1, r1, W1, he1⟩ := step_refines W he h1
    obtain ⟨st2, σ2, r2, W2, he2⟩ := ih W1 he1 h2
    exact ⟨st2, σ2, by simp [runOps, r1, r2], W2, he2⟩

end Cest.Vec
