import Verif.Core.Mem
/-
Worlds: any number of container variables, each represented in memory, owning disjoint storage,
with no storage unowned.  Used for the proofs only (the property theorems speak about histories).
-/
namespace Cest

/-- How a kind of container represents abstract values of type `S`:
`ids s` is the storage owned by a value, `Rep mem x o s` says that the fields `o` of variable `x`
together with the storage `mem` represent `s`. -/
structure Iface (O C S : Type) where
  ids : S → List Nat
  Rep : (Nat → Option C) → Nat → O → S → Prop
  loc : ∀ {m m' : Nat → Option C} {x o s}, Rep m x o s → (∀ a ∈ ids s, m' a = m a) → Rep m' x o s
  alloc : ∀ {m : Nat → Option C} {x o s}, Rep m x o s → ∀ a ∈ ids s, m a ≠ none

variable {O C S : Type}

/-- Storage owned by an optional value. -/
def Iface.oids (I : Iface O C S) : Option S → List Nat
  | none => []
  | some s => I.ids s

@[simp] theorem Iface.oids_none (I : Iface O C S) : I.oids none = [] := rfl
@[simp] theorem Iface.oids_some (I : Iface O C S) (s : S) : I.oids (some s) = I.ids s := rfl

structure World (I : Iface O C S) (st : St O C) (σ : Nat → Option S) : Prop where
  dom : ∀ x, σ x = none → st.objs x = none
  rep : ∀ x s, σ x = some s → ∃ o, st.objs x = some o ∧ I.Rep st.mem x o s
  disj : ∀ x y a, a ∈ I.oids (σ x) → a ∈ I.oids (σ y) → x = y
  own : ∀ a, st.mem a ≠ none → ∃ x, a ∈ I.oids (σ x)
  fresh : ∀ a, st.next ≤ a → st.mem a = none
  thr : st.thr = none

namespace World
variable {I : Iface O C S} {st st' : St O C} {σ : Nat → Option S}

theorem alloc (W : World I st σ) {x a : Nat} (h : a ∈ I.oids (σ x)) : st.mem a ≠ none := by
  cases hs : σ x with
  | none => simp [hs] at h
  | some s =>
    obtain ⟨o, _, hr⟩ := W.rep x s hs
    exact I.alloc hr a (by simpa [hs] using h)

theorem lt_next (W : World I st σ) {x a : Nat} (h : a ∈ I.oids (σ x)) : a < st.next := by
  have := W.alloc h
  have := W.fresh a
  apply Classical.byContradiction
  intro hc
  exact W.alloc h (W.fresh a (by omega))

/-- A step that changes only variable `x` and storage owned by it (or fresh storage). -/
theorem step1 (W : World I st σ) (x : Nat) (o' : O) (s' : S)
    (hobjs : st'.objs = upd st.objs x (some o'))
    (hrep : I.Rep st'.mem x o' s')
    (hframe : ∀ a, a ∉ I.oids (σ x) → a ∉ I.ids s' → st'.mem a = st.mem a)
    (hids : ∀ a ∈ I.ids s', a ∈ I.oids (σ x) ∨ st.next ≤ a)
    (hgone : ∀ a ∈ I.oids (σ x), a ∉ I.ids s' → st'.mem a = none)
    (hfresh : ∀ a, st'.next ≤ a → st'.mem a = none)
    (hthr : st'.thr = none) : World I st' (upd σ x (some s')) := by
  have nd : ∀ y a, y ≠ x → a ∈ I.oids (σ y) → a ∉ I.oids (σ x) ∧ a ∉ I.ids s' := by
    intro y a hy ha
    have h1 : a ∉ I.oids (σ x) := fun h => hy (W.disj y x a ha h)
    refine ⟨h1, fun h2 => ?_⟩
    rcases hids a h2 with h | h
    · exact h1 h
    · have := W.lt_next ha; omega
  refine ⟨?_, ?_, ?_, ?_, hfresh, hthr⟩
  · intro y hy
    rw [hobjs]
    by_cases h : y = x
    · simp [h] at hy
    · simp [h] at hy ⊢; exact W.dom y hy
  · intro y s hy
    rw [hobjs]
    by_cases h : y = x
    · subst h
      simp at hy
      subst hy
      exact ⟨o', by simp, hrep⟩
    · simp [h] at hy
      obtain ⟨o, ho, hr⟩ := W.rep y s hy
      refine ⟨o, by simp [h, ho], I.loc hr ?_⟩
      intro a ha
      have := nd y a h (by simpa [hy] using ha)
      exact hframe a this.1 this.2
  · intro y z a hy hz
    by_cases h1 : y = x <;> by_cases h2 : z = x
    · rw [h1, h2]
    · simp [h1, h2] at hy hz
      exact absurd hy (nd z a h2 hz).2
    · simp [h1, h2] at hy hz
      exact absurd hz (nd y a h1 hy).2
    · simp [h1, h2] at hy hz
      exact W.disj y z a hy hz
  · intro a ha
    by_cases h1 : a ∈ I.ids s'
    · exact ⟨x, by simpa using h1⟩
    · by_cases h2 : a ∈ I.oids (σ x)
      · exact absurd (hgone a h2 h1) ha
      · rw [hframe a h2 h1] at ha
        obtain ⟨y, hy⟩ := W.own a ha
        refine ⟨y, ?_⟩
        by_cases h : y = x
        · subst h; exact absurd hy h2
        · simpa [h] using hy

/-- Destroying variable `x`: everything it owned is released. -/
theorem stepDel (W : World I st σ) (x : Nat)
    (hobjs : st'.objs = upd st.objs x none)
    (hframe : ∀ a, a ∉ I.oids (σ x) → st'.mem a = st.mem a)
    (hgone : ∀ a ∈ I.oids (σ x), st'.mem a = none)
    (hfresh : ∀ a, st'.next ≤ a → st'.mem a = none)
    (hthr : st'.thr = none) : World I st' (upd σ x none) := by
  have nd : ∀ y a, y ≠ x → a ∈ I.oids (σ y) → a ∉ I.oids (σ x) := by
    intro y a hy ha h
    exact hy (W.disj y x a ha h)
  refine ⟨?_, ?_, ?_, ?_, hfresh, hthr⟩
  · intro y hy
    rw [hobjs]
    by_cases h : y = x
    · simp [h]
    · simp [h] at hy ⊢; exact W.dom y hy
  · intro y s hy
    rw [hobjs]
    by_cases h : y = x
    · simp [h] at hy
    · simp [h] at hy
      obtain ⟨o, ho, hr⟩ := W.rep y s hy
      refine ⟨o, by simp [h, ho], I.loc hr ?_⟩
      intro a ha
      exact hframe a (nd y a h (by simpa [hy] using ha))
  · intro y z a hy hz
    by_cases h1 : y = x <;> by_cases h2 : z = x
    · rw [h1, h2]
    · simp [h1] at hy
    · simp [h2] at hz
    · simp [h1, h2] at hy hz
      exact W.disj y z a hy hz
  · intro a ha
    by_cases h2 : a ∈ I.oids (σ x)
    · exact absurd (hgone a h2) ha
    · rw [hframe a h2] at ha
      obtain ⟨y, hy⟩ := W.own a ha
      refine ⟨y, ?_⟩
      by_cases h : y = x
      · subst h; exact absurd hy h2
      · simpa [h] using hy

/-- Two distinct variables exchange (parts of) their storage; memory contents unchanged. -/
theorem step2 (W : World I st σ) {x y : Nat} (hxy : x ≠ y) (ox oy : O) (sx sy : S)
    (hobjs : st'.objs = upd (upd st.objs x (some ox)) y (some oy))
    (hmem : st'.mem = st.mem) (hnext : st'.next = st.next) (hthr : st'.thr = none)
    (hrx : I.Rep st.mem x ox sx) (hry : I.Rep st.mem y oy sy)
    (hperm : ∀ a, (a ∈ I.ids sx ∨ a ∈ I.ids sy) ↔ (a ∈ I.oids (σ x) ∨ a ∈ I.oids (σ y)))
    (hdis : ∀ a, a ∈ I.ids sx → a ∉ I.ids sy) :
    World I st' (upd (upd σ x (some sx)) y (some sy)) := by
  have hyx : y ≠ x := Ne.symm hxy
  have nd : ∀ z a, z ≠ x → z ≠ y → a ∈ I.oids (σ z) → a ∉ I.ids sx ∧ a ∉ I.ids sy := by
    intro z a h1 h2 ha
    have : ¬ (a ∈ I.oids (σ x) ∨ a ∈ I.oids (σ y)) := by
      rintro (h | h)
      · exact h1 (W.disj _ _ a ha h)
      · exact h2 (W.disj _ _ a ha h)
    rw [← hperm] at this
    simpa using this
  refine ⟨?_, ?_, ?_, ?_, ?_, hthr⟩
  · intro z hz
    rw [hobjs]
    by_cases h1 : z = y
    · simp [h1] at hz
    · by_cases h2 : z = x
      · simp [h2, hxy] at hz
      · simp [h1, h2] at hz ⊢; exact W.dom z hz
  · intro z s hz
    rw [hobjs, hmem]
    by_cases h1 : z = y
    · subst h1; simp at hz; subst hz; exact ⟨oy, by simp, hry⟩
    · by_cases h2 : z = x
      · subst h2; simp [h1] at hz; subst hz; exact ⟨ox, by simp [h1], hrx⟩
      · simp [h1, h2] at hz ⊢; exact W.rep z s hz
  · intro z w a hz hw
    by_cases h1 : z = y
    · subst h1
      by_cases h2 : w = z
      · exact h2.symm
      · by_cases h3 : w = x
        · subst h3; simp [hxy] at hz hw; exact absurd hz (hdis a hw)
        · simp [h2, h3] at hz hw; exact absurd hz (nd w a h3 h2 hw).2
    · by_cases h2 : z = x
      · subst h2
        by_cases h3 : w = y
        · subst h3; simp [h1] at hz hw; exact absurd hw (hdis a hz)
        · by_cases h4 : w = z
          · exact h4.symm
          · simp [h1, h3, h4] at hz hw; exact absurd hz (nd w a h4 h3 hw).1
      · by_cases h3 : w = y
        · subst h3; simp [h1, h2] at hz hw; exact absurd hw (nd z a h2 h1 hz).2
        · by_cases h4 : w = x
          · subst h4; simp [h1, h2, h3] at hz hw; exact absurd hw (nd z a h2 h1 hz).1
          · simp [h1, h2, h3, h4] at hz hw; exact W.disj z w a hz hw
  · intro a ha
    rw [hmem] at ha
    obtain ⟨z, hz⟩ := W.own a ha
    by_cases h1 : z = y ∨ z = x
    · have : a ∈ I.oids (σ x) ∨ a ∈ I.oids (σ y) := by
        rcases h1 with h | h
        · subst h; exact Or.inr hz
        · subst h; exact Or.inl hz
      rw [← hperm] at this
      rcases this with h | h
      · exact ⟨x, by simpa [hxy] using h⟩
      · exact ⟨y, by simpa using h⟩
    · have h2 : z ≠ y := fun h => h1 (Or.inl h)
      have h3 : z ≠ x := fun h => h1 (Or.inr h)
      exact ⟨z, by simpa [h2, h3] using hz⟩
  · intro a ha
    rw [hmem]; rw [hnext] at ha; exact W.fresh a ha

/-- When no variable is alive, nothing is allocated. -/
theorem empty_mem (W : World I st σ) (h : ∀ x, σ x = none) : ∀ a, st.mem a = none := by
  intro a
  apply Classical.byContradiction
  intro hc
  obtain ⟨x, hx⟩ := W.own a hc
  simp [h x] at hx

theorem init : World I (St.init : St O C) (fun _ => none) :=
  ⟨fun _ _ => rfl, fun _ _ h => by simp at h, fun _ _ _ h => by simp at h,
   fun _ h => absurd rfl h, fun _ _ => rfl, rfl⟩

theorem objs_none (W : World I st σ) {x : Nat} (h : σ x = none) : st.objs x = none := W.dom x h

end World
end Cest
