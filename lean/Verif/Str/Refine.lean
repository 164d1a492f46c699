import Verif.Str.Search
import Verif.Str.Input
/-
Every step of a client program refines the specification (used by Str/Props.lean).
-/
namespace Cest.Str
open Cest
set_option linter.unusedSectionVars false
variable {V : Type} [DecidableEq V]

/-- The environment seen by the specification. -/
def envOf (σ : Nat → Option (SV V)) : Env V := fun x => (σ x).map SV.val

theorem envOf_upd (σ : Nat → Option (SV V)) (x : Nat) (s : Option (SV V)) :
    envOf (upd σ x s) = (envOf σ).set x (s.map SV.val) := by
  funext y; simp [envOf, Env.set]; split <;> rfl

theorem envOf_some {σ : Nat → Option (SV V)} {e : Env V} (h : envOf σ = e) {x : Nat} {xs : List V}
    (hx : e x = some xs) : ∃ s, σ x = some s ∧ s.val = xs := by
  subst h; simpa [envOf] using hx
theorem envOf_none {σ : Nat → Option (SV V)} {e : Env V} (h : envOf σ = e) {x : Nat}
    (hx : e x = none) : σ x = none := by
  subst h; simpa [envOf] using hx

variable {t : Traits V}

theorem arg_sees {st : SSt V} {σ : Nat → Option (SV V)} {e : Env V} (W : SW t st σ)
    (he : envOf σ = e) {a : Arg V} {v : List V} (hv : view t.nul e a = some v) :
    ∃ p, a.eval st = .ok p st ∧ Sees st p v ∧
      ∀ x s, σ x = some s → p.blk = some s.blk →
        ∃ off, a = .str x off ∧ p = .cell (some s.blk) off := by
  cases a with
  | ext l off =>
    simp only [view] at hv
    split at hv <;> simp at hv
    subst hv
    exact ⟨.ext l off, rfl, Sees.ext st l off, by intro x s _ h; simp [Ptr.blk] at h⟩
  | str y off =>
    simp only [view] at hv
    split at hv <;> try simp at hv
    rename_i ys hy
    obtain ⟨hoff, rfl⟩ := hv
    obtain ⟨s, hs, rfl⟩ := envOf_some he hy
    obtain ⟨h1, h2, h3⟩ := get_rep W hs
    refine ⟨.cell (some s.blk) off, by simp [Arg.eval, h1, SV.obj], ?_, ?_⟩
    · refine ⟨?_, s.buf.length - off, by simp [Ptr.avail, h2], ?_⟩
      · intro k c hk
        rw [List.getElem?_drop] at hk
        exact load_arr h2 (Nat.le_refl _) (SV.get_val h3 hk)
      · have := h3.lt
        have := SV.val_length h3
        simp; omega
    · intro x s' hx hb
      simp [Ptr.blk] at hb
      have : x = y := by
        apply Classical.byContradiction
        intro hne
        exact blk_ne W hx hs hne hb.symm
      subst this
      rw [hs] at hx
      injection hx with hx
      subst hx
      exact ⟨off, rfl, rfl⟩

theorem cstr_view {e : Env V} {a : Arg V} {cs : List V} (h : cstr t.nul e a = some cs) :
    ∃ v, view t.nul e a = some v ∧ t.nul ∈ v ∧ v.takeWhile (· ≠ t.nul) = cs := by
  simp only [cstr] at h
  split at h <;> simp at h
  rename_i v hv
  exact ⟨v, hv, h.1, by simpa using h.2⟩

theorem chars_view {e : Env V} {a : Arg V} {n : Nat} {cs : List V} (h : chars t.nul e a n = some cs) :
    ∃ v, view t.nul e a = some v ∧ n ≤ v.length ∧ v.take n = cs := by
  simp only [chars] at h
  split at h <;> simp at h
  rename_i v hv
  exact ⟨v, hv, h⟩

theorem step_refines (ht : t.Lawful) {st : SSt V} {σ : Nat → Option (SV V)} {e e' : Env V} {op : Op V}
    {o : Out V} (W : SW t st σ) (he : envOf σ = e) (hs : specStep t.nul t.lt e op = some (e', o)) :
    ∃ st' σ', runOp t op st = .ok o st' ∧ SW t st' σ' ∧ envOf σ' = e' := by
  cases op with
  | new x =>
    simp only [specStep] at hs
    split at hs <;> simp at hs
    rename_i hx; obtain ⟨rfl, rfl⟩ := hs
    obtain ⟨st', s', h1, W', h2⟩ := ctor_spec W (envOf_none he hx)
    exact ⟨st', _, by simp [runOp, h1], W', by rw [envOf_upd, he]; simp [h2]⟩
  | newPC x a n =>
    simp only [specStep] at hs
    split at hs <;> simp at hs
    rename_i cs hx hv; obtain ⟨rfl, rfl⟩ := hs
    obtain ⟨v, hw, hn, rfl⟩ := chars_view hv
    obtain ⟨p, hp, hsee, _⟩ := arg_sees W he hw
    obtain ⟨st', s', h1, W', h2⟩ := ctorPC_spec W (envOf_none he hx) hsee hn
    exact ⟨st', _, by simp [runOp, hp, h1], W', by rw [envOf_upd, he]; simp [h2]⟩
  | newC x a =>
    simp only [specStep] at hs
    split at hs <;> simp at hs
    rename_i cs hx hv; obtain ⟨rfl, rfl⟩ := hs
    obtain ⟨v, hw, hn, rfl⟩ := cstr_view hv
    obtain ⟨p, hp, hsee, _⟩ := arg_sees W he hw
    obtain ⟨st', s', h1, W', h2⟩ := ctorC_spec W (envOf_none he hx) hsee hn
    exact ⟨st', _, by simp [runOp, hp, h1], W', by rw [envOf_upd, he]; simp [h2]⟩
  | newCopy x y =>
    simp only [specStep] at hs
    split at hs <;> simp at hs
    rename_i ys hx hy; obtain ⟨hn, rfl, rfl⟩ := hs
    obtain ⟨s, hy', rfl⟩ := envOf_some he hy
    obtain ⟨st', s', h1, W', h2⟩ := copyCtor_spec W (envOf_none he hx) hy' hn
    exact ⟨st', _, by simp [runOp, h1], W', by rw [envOf_upd, he]; simp [h2]⟩
  | newInput x cs =>
    simp only [specStep] at hs
    split at hs <;> simp at hs
    rename_i hx; obtain ⟨hn, rfl, rfl⟩ := hs
    obtain ⟨st', s', h1, W', h2⟩ := ctorInput_spec W (envOf_none he hx) cs hn
    exact ⟨st', _, by simp [runOp, h1], W', by rw [envOf_upd, he]; simp [h2]⟩
  | assignC x a =>
    simp only [specStep] at hs
    split at hs <;> simp at hs
    rename_i xs cs hx hv; obtain ⟨hal, rfl, rfl⟩ := hs
    obtain ⟨s, hx', rfl⟩ := envOf_some he hx
    obtain ⟨v, hw, hn, rfl⟩ := cstr_view hv
    obtain ⟨p, hp, hsee, hb⟩ := arg_sees W he hw
    obtain ⟨st', s', h1, W', h2⟩ := assignC_spec W hx' hsee hn (by
      intro h
      obtain ⟨off, ha, _⟩ := hb x s hx' h
      subst ha
      simp [Arg.into] at hal)
    exact ⟨st', _, by simp [runOp, hp, h1], W', by rw [envOf_upd, he]; simp [h2]⟩
  | assign x y =>
    simp only [specStep] at hs
    split at hs <;> simp at hs
    rename_i xs ys hx hy; obtain ⟨⟨hn, hxy⟩, rfl, rfl⟩ := hs
    obtain ⟨s, hx', rfl⟩ := envOf_some he hx
    obtain ⟨s2, hy', rfl⟩ := envOf_some he hy
    obtain ⟨st', s', h1, W', h2⟩ := assign_spec W hx' hy' hxy hn
    exact ⟨st', _, by simp [runOp, h1], W', by rw [envOf_upd, he]; simp [h2]⟩
  | append x a n =>
    simp only [specStep] at hs
    split at hs <;> try simp at hs
    rename_i xs cs hx hv
    have hv0 := hv
    obtain ⟨s, hx', rfl⟩ := envOf_some he hx
    obtain ⟨v, hw, hn, rfl⟩ := chars_view hv
    obtain ⟨p, hp, hsee, hb⟩ := arg_sees W he hw
    have hl := SV.val_length (get_rep W hx').2.2
    have key : (∀ off, a = .str x off → off + n ≤ s.val.length) ∧
        some (e.set x (some (s.val ++ v.take n)), Out.unit) = some (e', o) := by
      cases a with
      | ext l off => exact ⟨(by intro off h; cases h), hs⟩
      | str y off =>
        simp only [] at hs
        split at hs
        · simp at hs
        · rename_i hc
          refine ⟨?_, hs⟩
          intro off' h
          injection h with h1 h2
          subst h1; subst h2
          simp at hc; omega
    obtain ⟨hal, hs⟩ := key
    simp at hs
    obtain ⟨rfl, rfl⟩ := hs
    obtain ⟨st', s', h1, W', h2⟩ := append_spec W hx' hsee hn (by
      intro off h
      obtain ⟨off', ha, hc⟩ := hb x s hx' (by rw [h]; rfl)
      rw [h] at hc
      injection hc with _ hc
      subst hc
      have := hal off ha
      omega)
    exact ⟨st', _, by simp [runOp, hp, h1], W', by rw [envOf_upd, he]; simp [h2]⟩
  | appendStr x y =>
    simp only [specStep] at hs
    split at hs <;> simp at hs
    rename_i xs ys hx hy; obtain ⟨rfl, rfl⟩ := hs
    obtain ⟨s, hx', rfl⟩ := envOf_some he hx
    obtain ⟨s2, hy', rfl⟩ := envOf_some he hy
    have hl := SV.val_length (get_rep W hy').2.2
    obtain ⟨st', s', h1, W', h2⟩ := append_spec W hx' (sees_val W hy') (n := s2.n) (by omega) (by
      intro off h
      injection h with h1 h2
      subst h2
      have : x = y := by
        apply Classical.byContradiction
        intro hne
        exact blk_ne W hx' hy' hne (Option.some.inj h1).symm
      subst this
      rw [hx'] at hy'
      injection hy' with hy'
      subst hy'
      omega)
    refine ⟨st', _, by simp [runOp, appendStr, (get_rep W hy').1, SV.obj, h1], W', ?_⟩
    rw [envOf_upd, he]
    simp [h2, ← hl]
  | pushBack x c =>
    simp only [specStep] at hs
    split at hs <;> simp at hs
    rename_i xs hx; obtain ⟨rfl, rfl⟩ := hs
    obtain ⟨s, hx', rfl⟩ := envOf_some he hx
    obtain ⟨st', s', h1, W', h2⟩ := pushBack_spec W hx' (r := .ext [c] 0) (c := c)
      (Sees.ext st [c] 0) (by simp [Ptr.blk])
    exact ⟨st', _, by simp [runOp, h1], W', by rw [envOf_upd, he]; simp [h2]⟩
  | pushBackFrom x y i =>
    simp only [specStep] at hs
    split at hs <;> try simp at hs
    rename_i xs ys hx hy
    obtain ⟨hxy, hs⟩ := hs
    split at hs <;> simp at hs
    rename_i c hc; obtain ⟨rfl, rfl⟩ := hs
    obtain ⟨s, hx', rfl⟩ := envOf_some he hx
    obtain ⟨s2, hy', rfl⟩ := envOf_some he hy
    obtain ⟨g1, g2, g3⟩ := get_rep W hy'
    have hcv : s2.buf[i]? = some c := by
      refine SV.get_val g3 ?_
      rw [List.getElem?_append_left]
      · exact hc
      · apply Classical.byContradiction
        intro h
        rw [List.getElem?_eq_none (by omega)] at hc; simp at hc
    obtain ⟨st', s', h1, W', h2⟩ := pushBack_spec W hx' (r := .cell (some s2.blk) i) (c := c)
      (by
        have := (sees_data W hy' i).take 1
        have e : (s2.buf.drop i).take 1 = [c] := by
          have hi : i < s2.buf.length := by
            apply Classical.byContradiction
            intro h
            rw [List.getElem?_eq_none (by omega)] at hcv; simp at hcv
          have e1 : s2.buf.drop i = s2.buf[i] :: s2.buf.drop (i+1) := by simp
          rw [List.getElem?_eq_getElem hi] at hcv
          rw [e1, List.take_succ_cons]
          simpa using hcv
        rw [e] at this
        exact this)
      (by
        simp only [Ptr.blk]
        intro h
        exact absurd (Option.some.inj h).symm (blk_ne W hx' hy' hxy))
    exact ⟨st', _, by simp [runOp, g1, SV.obj, h1], W', by rw [envOf_upd, he]; simp [h2]⟩
  | plusEqCh x c =>
    simp only [specStep] at hs
    split at hs <;> simp at hs
    rename_i xs hx; obtain ⟨rfl, rfl⟩ := hs
    obtain ⟨s, hx', rfl⟩ := envOf_some he hx
    obtain ⟨st', s', h1, W', h2⟩ := pushBack_spec W hx' (r := .ext [c] 0) (c := c)
      (Sees.ext st [c] 0) (by simp [Ptr.blk])
    exact ⟨st', _, by simp [runOp, plusEqCh, h1], W', by rw [envOf_upd, he]; simp [h2]⟩
  | popBack x =>
    simp only [specStep] at hs
    split at hs <;> simp at hs
    rename_i xs hx; obtain ⟨hn, rfl, rfl⟩ := hs
    obtain ⟨s, hx', rfl⟩ := envOf_some he hx
    obtain ⟨st', s', h1, W', h2⟩ := popBack_spec W hx' hn
    exact ⟨st', _, by simp [runOp, h1], W', by rw [envOf_upd, he]; simp [h2]⟩
  | reserve x n =>
    simp only [specStep] at hs
    split at hs <;> simp at hs
    rename_i xs hx; obtain ⟨rfl, rfl⟩ := hs
    obtain ⟨s, hx', rfl⟩ := envOf_some he hx
    obtain ⟨st', s', h1, W', h2, _⟩ := reserve_spec W hx' n
    refine ⟨st', _, by simp [runOp, h1], W', ?_⟩
    rw [envOf_upd, he]
    funext y
    simp only [Env.set]
    split
    · rename_i h; subst h; simp [h2, hx]
    · rfl
  | clear x =>
    simp only [specStep] at hs
    split at hs <;> simp at hs
    rename_i xs hx; obtain ⟨rfl, rfl⟩ := hs
    obtain ⟨s, hx', rfl⟩ := envOf_some he hx
    obtain ⟨st', s', h1, W', h2⟩ := clear_spec W hx'
    exact ⟨st', _, by simp [runOp, h1], W', by rw [envOf_upd, he]; simp [h2]⟩
  | set x i c =>
    simp only [specStep] at hs
    split at hs <;> simp at hs
    rename_i xs hx; obtain ⟨hn, rfl, rfl⟩ := hs
    obtain ⟨s, hx', rfl⟩ := envOf_some he hx
    obtain ⟨st', s', h1, W', h2⟩ := set_spec W hx' hn c
    exact ⟨st', _, by simp [runOp, h1], W', by rw [envOf_upd, he]; simp [h2]⟩
  | destroy x =>
    simp only [specStep] at hs
    split at hs <;> simp at hs
    rename_i xs hx; obtain ⟨rfl, rfl⟩ := hs
    obtain ⟨s, hx', rfl⟩ := envOf_some he hx
    obtain ⟨st', h1, W'⟩ := dtor_spec W hx'
    exact ⟨st', _, by simp [runOp, h1], W', by rw [envOf_upd, he]; simp⟩
  | size x =>
    simp only [specStep] at hs
    split at hs <;> simp at hs
    rename_i xs hx; obtain ⟨rfl, rfl⟩ := hs
    obtain ⟨s, hx', rfl⟩ := envOf_some he hx
    exact ⟨st, σ, by simp [runOp, size_spec W hx'], W, he⟩
  | empty x =>
    simp only [specStep] at hs
    split at hs <;> simp at hs
    rename_i xs hx; obtain ⟨rfl, rfl⟩ := hs
    obtain ⟨s, hx', rfl⟩ := envOf_some he hx
    exact ⟨st, σ, by simp [runOp, empty_spec W hx'], W, he⟩
  | get x i =>
    simp only [specStep] at hs
    split at hs <;> try simp at hs
    rename_i xs hx
    split at hs <;> simp at hs
    rename_i c hc; obtain ⟨rfl, rfl⟩ := hs
    obtain ⟨s, hx', rfl⟩ := envOf_some he hx
    exact ⟨st, σ, by simp [runOp, get_spec W hx' hc], W, he⟩
  | front x =>
    simp only [specStep] at hs
    split at hs <;> try simp at hs
    rename_i xs hx
    split at hs <;> simp at hs
    rename_i c hc; obtain ⟨rfl, rfl⟩ := hs
    obtain ⟨s, hx', rfl⟩ := envOf_some he hx
    exact ⟨st, σ, by simp [runOp, front_spec W hx' hc], W, he⟩
  | back x =>
    simp only [specStep] at hs
    split at hs <;> try simp at hs
    rename_i xs hx
    split at hs <;> simp at hs
    rename_i c hc; obtain ⟨rfl, rfl⟩ := hs
    obtain ⟨s, hx', rfl⟩ := envOf_some he hx
    exact ⟨st, σ, by simp [runOp, back_spec W hx' hc], W, he⟩
  | toList x =>
    simp only [specStep] at hs
    split at hs <;> simp at hs
    rename_i xs hx; obtain ⟨rfl, rfl⟩ := hs
    obtain ⟨s, hx', rfl⟩ := envOf_some he hx
    exact ⟨st, σ, by simp [runOp, toList_spec W hx'], W, he⟩
  | findPC x a pos n =>
    simp only [specStep] at hs
    split at hs <;> simp at hs
    rename_i xs cs hx hv; obtain ⟨rfl, rfl⟩ := hs
    obtain ⟨s, hx', rfl⟩ := envOf_some he hx
    obtain ⟨v, hw, hn, rfl⟩ := chars_view hv
    obtain ⟨p, hp, hsee, _⟩ := arg_sees W he hw
    have h1 := findPC_spec ht W hx' (hsee.take n) pos
    have e1 : (v.take n).length = n := by simp; omega
    rw [e1] at h1
    exact ⟨st, σ, by simp [runOp, hp, h1], W, he⟩
  | findC x a pos =>
    simp only [specStep] at hs
    split at hs <;> simp at hs
    rename_i xs cs hx hv; obtain ⟨rfl, rfl⟩ := hs
    obtain ⟨s, hx', rfl⟩ := envOf_some he hx
    obtain ⟨v, hw, hn, rfl⟩ := cstr_view hv
    obtain ⟨p, hp, hsee, _⟩ := arg_sees W he hw
    exact ⟨st, σ, by simp [runOp, hp, findC_spec ht W hx' hsee hn pos], W, he⟩
  | findStr x y pos =>
    simp only [specStep] at hs
    split at hs <;> simp at hs
    rename_i xs ys hx hy; obtain ⟨hn, rfl, rfl⟩ := hs
    obtain ⟨s, hx', rfl⟩ := envOf_some he hx
    obtain ⟨s2, hy', rfl⟩ := envOf_some he hy
    exact ⟨st, σ, by simp [runOp, findStr_spec ht W hx' hy' hn pos], W, he⟩
  | findCh x c =>
    simp only [specStep] at hs
    split at hs <;> simp at hs
    rename_i xs hx; obtain ⟨rfl, rfl⟩ := hs
    obtain ⟨s, hx', rfl⟩ := envOf_some he hx
    exact ⟨st, σ, by simp [runOp, findCh_spec W hx'], W, he⟩
  | compare x y =>
    simp only [specStep] at hs
    split at hs <;> simp at hs
    rename_i xs ys hx hy; obtain ⟨hn, rfl, rfl⟩ := hs
    obtain ⟨s, hx', rfl⟩ := envOf_some he hx
    obtain ⟨s2, hy', rfl⟩ := envOf_some he hy
    exact ⟨st, σ, by simp [runOp, compare_spec W hx' hy', cmpRes_sign _ _ _ hn.1 hn.2], W, he⟩
  | compareC x a =>
    simp only [specStep] at hs
    split at hs <;> simp at hs
    rename_i xs cs hx hv; obtain ⟨hl, rfl, rfl⟩ := hs
    obtain ⟨s, hx', rfl⟩ := envOf_some he hx
    obtain ⟨v, hw, hn, rfl⟩ := cstr_view hv
    obtain ⟨p, hp, hsee, _⟩ := arg_sees W he hw
    exact ⟨st, σ, by simp only [runOp, M.bind_apply, hp, compareC_spec W hx' hsee hn,
      cmpRes_sign _ _ _ hl.1 hl.2, M.pure_apply], W, he⟩
  | eq x y =>
    simp only [specStep] at hs
    split at hs <;> simp at hs
    rename_i xs ys hx hy; obtain ⟨rfl, rfl⟩ := hs
    obtain ⟨s, hx', rfl⟩ := envOf_some he hx
    obtain ⟨s2, hy', rfl⟩ := envOf_some he hy
    exact ⟨st, σ, by simp [runOp, eq_spec ht W hx' hy'], W, he⟩
  | eqGen x y =>
    simp only [specStep] at hs
    split at hs <;> simp at hs
    rename_i xs ys hx hy; obtain ⟨hl, rfl, rfl⟩ := hs
    obtain ⟨s, hx', rfl⟩ := envOf_some he hx
    obtain ⟨s2, hy', rfl⟩ := envOf_some he hy
    exact ⟨st, σ, by simp only [runOp, eqGen, M.bind_apply, compare_spec W hx' hy', M.pure_apply,
      cmpRes_zero ht _ _ hl.1 hl.2], W, he⟩
  | eqC x a =>
    simp only [specStep] at hs
    split at hs <;> simp at hs
    rename_i xs cs hx hv; obtain ⟨hl, rfl, rfl⟩ := hs
    obtain ⟨s, hx', rfl⟩ := envOf_some he hx
    obtain ⟨v, hw, hn, rfl⟩ := cstr_view hv
    obtain ⟨p, hp, hsee, _⟩ := arg_sees W he hw
    exact ⟨st, σ, by simp only [runOp, eqC, M.bind_apply, hp, compareC_spec W hx' hsee hn,
      M.pure_apply, cmpRes_zero ht _ _ hl.1 hl.2], W, he⟩
  | neC x a =>
    simp only [specStep] at hs
    split at hs <;> simp at hs
    rename_i xs cs hx hv; obtain ⟨hl, rfl, rfl⟩ := hs
    obtain ⟨s, hx', rfl⟩ := envOf_some he hx
    obtain ⟨v, hw, hn, rfl⟩ := cstr_view hv
    obtain ⟨p, hp, hsee, _⟩ := arg_sees W he hw
    exact ⟨st, σ, by simp only [runOp, neC, eqC, M.bind_apply, hp, compareC_spec W hx' hsee hn,
      M.pure_apply, cmpRes_zero ht _ _ hl.1 hl.2], W, he⟩
  | ne x y =>
    simp only [specStep] at hs
    split at hs <;> simp at hs
    rename_i xs ys hx hy; obtain ⟨rfl, rfl⟩ := hs
    obtain ⟨s, hx', rfl⟩ := envOf_some he hx
    obtain ⟨s2, hy', rfl⟩ := envOf_some he hy
    exact ⟨st, σ, by simp [runOp, ne, eq_spec ht W hx' hy'], W, he⟩
  | lt x y =>
    simp only [specStep] at hs
    split at hs <;> simp at hs
    rename_i xs ys hx hy; obtain ⟨hl, rfl, rfl⟩ := hs
    obtain ⟨s, hx', rfl⟩ := envOf_some he hx
    obtain ⟨s2, hy', rfl⟩ := envOf_some he hy
    exact ⟨st, σ, by simp only [runOp, lt, M.bind_apply, compare_spec W hx' hy', M.pure_apply,
      cmpRes_neg _ _ hl.1 hl.2], W, he⟩
  | ltC x a =>
    simp only [specStep] at hs
    split at hs <;> simp at hs
    rename_i xs cs hx hv; obtain ⟨hl, rfl, rfl⟩ := hs
    obtain ⟨s, hx', rfl⟩ := envOf_some he hx
    obtain ⟨v, hw, hn, rfl⟩ := cstr_view hv
    obtain ⟨p, hp, hsee, _⟩ := arg_sees W he hw
    exact ⟨st, σ, by simp only [runOp, ltC, M.bind_apply, hp, compareC_spec W hx' hsee hn,
      M.pure_apply, cmpRes_neg _ _ hl.1 hl.2], W, he⟩
  | cLt a x =>
    simp only [specStep] at hs
    split at hs <;> simp at hs
    rename_i xs cs hx hv; obtain ⟨hl, rfl, rfl⟩ := hs
    obtain ⟨s, hx', rfl⟩ := envOf_some he hx
    obtain ⟨v, hw, hn, rfl⟩ := cstr_view hv
    obtain ⟨p, hp, hsee, _⟩ := arg_sees W he hw
    exact ⟨st, σ, by simp only [runOp, cLt, M.bind_apply, hp, compareC_spec W hx' hsee hn,
      M.pure_apply, cmpRes_pos ht _ _ hl.1 hl.2], W, he⟩

theorem run_refines (ht : t.Lawful) {ops : List (Op V)} {st : SSt V} {σ : Nat → Option (SV V)}
    {e e' : Env V} {os : List (Out V)} (W : SW t st σ) (he : envOf σ = e)
    (hs : specRun t.nul t.lt e ops = some (e', os)) :
    ∃ st' σ', runOps t ops st = .ok os st' ∧ SW t st' σ' ∧ envOf σ' = e' := by
  induction ops generalizing st σ e os with
  | nil =>
    simp [specRun] at hs
    obtain ⟨rfl, rfl⟩ := hs
    exact ⟨st, σ, rfl, W, he⟩
  | cons op ops ih =>
    simp only [specRun] at hs
    split at hs <;> try simp at hs
    rename_i e1 o h1
    split at hs <;> simp at hs
    rename_i e2 os' h2
    obtain ⟨rfl, rfl⟩ := hs
    obtain ⟨st1, σ1, a1, W1, a2⟩ := step_refines ht W he h1
    obtain ⟨st2, σ2, b1, W2, b2⟩ := ih W1 a2 h2
    exact ⟨st2, σ2, by simp [runOps, a1, b1], W2, b2⟩

end Cest.Str
