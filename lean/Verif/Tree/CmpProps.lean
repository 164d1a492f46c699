import Verif.Tree.CmpProofs
import Verif.Tree.MapProps
/-
Property C134 of cest::set and cest::map: the number of comparisons, and comparators that throw.
The theorems are about any lawful configuration `g`; `setCfg_lawful` and `map_lawful` give sets and maps.
The exceptions of the comparator are told apart from those of allocations and copies by their kind `ex`.
-/
namespace Cest.Tree
open Cest
variable {V K : Type} [DecidableEq K] {g : Cfg V K} {st : TSt V} {its : Its} {e : Env V} {ex : Exc}

/-- **C134 (find).** In a container with `n` elements `find` calls the comparator at most
`2·min(n, 2·log₂(n+1))` times and does nothing else that may throw; if one of these calls throws, the exception
is passed on and nothing has changed. -/
theorem C134_find_comparisons (hg : g.Lawful) (h : Reach g st its e) {x : Nat} {s : Seq V}
    (hx : e.sets x = some s) (k : K) {fuel : Nat} (hf : s.length < fuel) :
    ∃ p c, c ≤ 2 * min s.length (2 * Nat.log2 (s.length + 1)) ∧ find g fuel x k st = .ok p st ∧
      (∀ j, findC g (cmpT ex g) fuel x k (arm st (some (j + c))) = .ok p (arm st (some j))) ∧
      ∀ j, j < c → findC g (cmpT ex g) fuel x k (arm st (some j)) = .throw ex st := by
  obtain ⟨c, h1, h2, h3⟩ := findC_spec (ex := ex) hg h hx k hf
  exact ⟨_, c, h1, find_spec hg (h.agree hg).world hx k (Nat.lt_of_le_of_lt (depth_le _) hf), h2, h3⟩

/-- **C134 (insert, number of comparisons).** Inserting a value whose key is present calls the comparator at
most `2·min(n, 2·log₂(n+1))` times and does nothing else that may throw; inserting a new one adds one comparison,
one allocation and two copies. The result is that of the insertion in which nothing is counted. -/
theorem C134_insert_comparisons (hg : g.Lawful) (h : Reach g st its e) {x : Nat} {s : Seq V}
    (hx : e.sets x = some s) (v : V) {fuel : Nat} (hf : s.length < fuel) :
    insertC g (cmpT ex g) fuel x v st = insert g fuel x v st ∧
    ∃ r st' c, insert g fuel x v st = .ok r st' ∧
      c ≤ 2 * min s.length (2 * Nat.log2 (s.length + 1)) +
        (if (∃ w ∈ s.map Prod.snd, g.equiv (g.key w) (g.key v) = true) then 0 else 4) ∧
      ∀ j, insertC g (cmpT ex g) fuel x v (arm st (some (j + c))) = .ok r (arm st' (some j)) := by
  have W := (h.agree hg).world
  obtain ⟨t, ho, ht⟩ := W_rep W hx
  obtain ⟨r, st', c, h1, h2, h3⟩ := insertC_count (ex := ex) hg h hx v hf ho ht
  refine ⟨insertC_none W.thr _ _ _, r, st', c, h2, ?_, h3⟩
  have hp := T.path_le g (g.key v) t
  have hh := ht.height
  unfold depth at hh
  by_cases hl : ∃ w ∈ s.map Prod.snd, g.equiv (g.key w) (g.key v) = true
  · rw [if_pos hl]
    have : (lookup g s (g.key v)).isNone = false := by
      cases hl' : lookup g s (g.key v) with
      | some d => rfl
      | none =>
        rw [lookup, List.find?_eq_none] at hl'
        obtain ⟨w, hw, hw2⟩ := hl
        obtain ⟨d, hd, rfl⟩ := List.mem_map.1 hw
        exact absurd hw2 (hl' d hd)
    rw [this] at h1
    simp at h1
    omega
  · rw [if_neg hl]
    split at h1 <;> omega

/-! ### Comparators that throw in `insert` -/

/-- The full claim: if the comparator throws during an insertion, the container is as it was before. -/
def C134_full_statement : Prop :=
  ∀ (comp : Nat → Nat → Bool) (st st' : TSt Nat) (its : Its) (e : Env Nat) (x j : Nat) (s : Seq Nat) (v : Nat),
    StrictWeak comp → Reach (setCfg comp) st its e → e.sets x = some s →
    ∀ fuel, s.length < fuel →
      insertC (setCfg comp) (cmpT .outOfRange (setCfg comp)) fuel x v (arm st (some j)) = .throw .outOfRange st' →
      st' = st

/-- **C134 (part that holds).** If the comparator throws during an insertion, then either the container is as
before or all of this is true: the container was not empty, the key was new, and the comparison that threw is
the last one, with the first element, after the new element was put into the tree. In this case the new
element is found although `size()` does not count it and `begin()` is still the former first element; the
container can be destroyed, which frees the new element too. Missing: the last comparison should come before
any change. -/
theorem C134_insert_throw_partial (hg : g.Lawful) (h : Reach g st its e) {x : Nat} {s : Seq V}
    (hx : e.sets x = some s) (v : V) {fuel : Nat} (hf : s.length < fuel) (h1 : ex ≠ .badAlloc) (h2 : ex ≠ .elem)
    {j : Nat} {st' : TSt V} (ht : insertC g (cmpT ex g) fuel x v (arm st (some j)) = .throw ex st') :
    st' = st ∨
      s ≠ [] ∧ (∀ w ∈ s.map Prod.snd, g.equiv (g.key w) (g.key v) = false) ∧
      (∀ fuel, s.length + 1 < fuel → find g fuel x (g.key v) st' = .ok (some st.next) st') ∧
      getX (some st.next) st' = .ok v st' ∧ size x st' = .ok s.length st' ∧
      begin_ x st' = .ok (s.head?.map Prod.fst) st' ∧
      ∃ st'', (∀ fuel, s.length + 1 < fuel → dtor fuel x st' = .ok () st'') ∧
        st''.objs = upd st.objs x none ∧ ∀ a, st''.mem a = if a ∈ s.map Prod.fst then none else st.mem a := by
  rcases insertC_throw hg h hx v hf h1 h2 ht with rfl | ⟨hs, hl, U⟩
  · exact .inl rfl
  · refine .inr ⟨hs, fun w hw => ?_, U.found, U.value, U.size, U.begin_, U.destroy⟩
    obtain ⟨d, hd, rfl⟩ := List.mem_map.1 hw
    rw [lookup, List.find?_eq_none] at hl
    simpa using hl d hd

/-- **C134 (violation).** Inserting a new key into a container that is not empty: there is a call of the
comparator at which an exception leaves the new element in the tree, uncounted. If the element is smaller than
all others, `begin()` is not the smallest element any more. -/
theorem C134_insert_last_comparison (hg : g.Lawful) (h : Reach g st its e) {x : Nat} {s : Seq V}
    (hx : e.sets x = some s) (v : V) (hs : s ≠ [])
    (hno : ∀ w ∈ s.map Prod.snd, g.equiv (g.key w) (g.key v) = false) :
    ∃ j st', j ≤ 2 * min s.length (2 * Nat.log2 (s.length + 1)) + 3 ∧
      (∀ fuel, s.length < fuel → insertC g (cmpT ex g) fuel x v (arm st (some j)) = .throw ex st') ∧
      (∀ fuel, s.length + 1 < fuel → find g fuel x (g.key v) st' = .ok (some st.next) st') ∧
      getX (some st.next) st' = .ok v st' ∧ size x st' = .ok s.length st' ∧
      begin_ x st' = .ok (s.head?.map Prod.fst) st' := by
  have W := (h.agree hg).world
  obtain ⟨t, ho, ht⟩ := W_rep W hx
  have hl : lookup g s (g.key v) = none := by
    rw [lookup, List.find?_eq_none]
    intro d hd
    simp [hno d.2 (List.mem_map_of_mem hd)]
  obtain ⟨st', h1, U⟩ := insertC_begin (ex := ex) hg h hx v hs hl ho ht
  refine ⟨_, st', ?_, h1, U.found, U.value, U.size, U.begin_⟩
  have hp := T.path_le g (g.key v) t
  have hh := ht.height
  unfold depth at hh
  omega

theorem C134_insert_throw_refuted : ¬ C134_full_statement := by
  intro hall
  have hg := setCfg_lawful natLt_weak
  obtain ⟨st, its, hr⟩ := Reach.of_spec hg (ops := [.new 0, .insert 0 5 0]) rfl
  obtain ⟨j, st', _, h1, h2, _⟩ := C134_insert_last_comparison (ex := .outOfRange) hg hr (x := 0)
    (s := [(0, 5)]) rfl 3 (by simp) (by simp [Cfg.equiv, setCfg, natLt])
  have := hall natLt st st' its _ 0 j [(0, 5)] 3 natLt_weak hr rfl 2 (by simp) (h1 2 (by simp))
  subst this
  obtain ⟨p, hp, hq⟩ := find_any hg hr (x := 0) (s := [(0, 5)]) rfl 3 (fuel := 3) (by simp)
  have h3 : find (setCfg natLt) 3 0 3 st' = .ok (some st'.next) st' := h2 3 (by simp)
  rw [h3] at hp
  cases hp
  rcases hq with ⟨w, hw, hw2, _⟩ | ⟨_, hq⟩
  · simp at hw; subst hw; simp [Cfg.equiv, setCfg, natLt] at hw2
  · rw [end_spec (hr.agree hg).world (x := 0) (s := [(0, 5)]) rfl] at hq
    cases hq

/-! ### Cases -/

/-- In the set {2, 4, 6, 8} the key 5 is looked up with at most eight comparisons. -/
example : ∃ (st : TSt Nat) (c : Nat), c ≤ 8 ∧
    (∀ j, ∃ p, findC (setCfg natLt) (cmpT .outOfRange (setCfg natLt)) 9 0 5 (arm st (some (j + c))) =
      .ok p (arm st (some j))) ∧
    ∀ j, j < c →
      findC (setCfg natLt) (cmpT .outOfRange (setCfg natLt)) 9 0 5 (arm st (some j)) = .throw .outOfRange st := by
  obtain ⟨st, its, hr⟩ := Reach.of_spec (setCfg_lawful natLt_weak) (ops := [.new 0, .insert 0 4 0, .insert 0 8 0,
    .insert 0 2 0, .insert 0 6 0]) rfl
  obtain ⟨p, c, h1, _, h2, h3⟩ := C134_find_comparisons (ex := .outOfRange) (setCfg_lawful natLt_weak) hr (x := 0)
    (s := [(2, 2), (0, 4), (3, 6), (1, 8)]) rfl 5 (fuel := 9) (by simp)
  exact ⟨st, c, by simp at h1; omega, fun j => ⟨p, h2 j⟩, h3⟩

/-- In a map with the keys 4 and 8, inserting the key 8 makes comparisons only, at most four. -/
example : ∃ (st : TSt (Nat × Char)) (c : Nat), c ≤ 4 ∧
    (∀ j, ∃ r st', insertC (mapCfg natLt (fun a b => a == b))
      (cmpT .outOfRange (mapCfg natLt (fun a b => a == b))) 9 0 (8, 'x') (arm st (some (j + c))) =
      .ok r (arm st' (some j))) := by
  have hg := map_lawful (T := Char) natLt_weak natEq_good
  obtain ⟨st, its, hr⟩ := Reach.of_spec hg (ops := [.new 0, .insert 0 (4, 'a') 0, .insert 0 (8, 'b') 0]) rfl
  obtain ⟨_, r, st', c, _, h1, h2⟩ := C134_insert_comparisons (ex := .outOfRange) hg hr (x := 0)
    (s := [(0, (4, 'a')), (1, (8, 'b'))]) rfl (8, 'x') (fuel := 9) (by simp)
  refine ⟨st, c, ?_, fun j => ⟨r, st', h2 j⟩⟩
  rw [if_pos ⟨(8, 'b'), by simp, by simp [Cfg.equiv, mapCfg, natLt]⟩] at h1
  simp at h1; omega

/-- The comparator throws in its first call: the hypotheses of the part that holds can be met. -/
example : ∃ (st : TSt Nat), insertC (setCfg natLt) (cmpT .outOfRange (setCfg natLt)) 9 0 5 (arm st (some 0)) =
    .throw .outOfRange st := by
  obtain ⟨st, its, hr⟩ := Reach.of_spec (setCfg_lawful natLt_weak) (ops := [.new 0, .insert 0 4 0]) rfl
  refine ⟨st, ?_⟩
  have W := (hr.agree (setCfg_lawful natLt_weak)).world
  obtain ⟨t, ho, ht⟩ := W_rep W (x := 0) (s := [(0, 4)]) rfl
  have hpre : Pre st (.root 0) none t := ⟨⟨_, ho, rfl⟩, ht.repr, ht.nodup, by simp [Ref.owner]⟩
  have hp : 0 < t.path (setCfg natLt) ((setCfg natLt).key 5) := by
    cases t with
    | nil => have := ht.toL; simp at this
    | node c l a w r => simp only [T.path]; split <;> (try split) <;> omega
  have hh := ht.height
  have hd := depth_le 1
  simp only [insertC, M.bind_apply, insC_throw (ex := .outOfRange) (g := setCfg natLt) (x := 0) (v := 5) hpre 9 0
    (by simp at hh; omega) hp, arm_none W.thr]

/-- A pair whose key is new is inserted into a map that is not empty. -/
example : ∃ (st : TSt (Nat × Char)) (j : Nat) (st' : TSt (Nat × Char)), j ≤ 5 ∧
    insertC (mapCfg natLt (fun a b => a == b)) (cmpT .outOfRange (mapCfg natLt (fun a b => a == b))) 9 0 (3, 'x')
      (arm st (some j)) = .throw .outOfRange st' ∧ size 0 st' = .ok 1 st' ∧
    find (mapCfg natLt (fun a b => a == b)) 9 0 3 st' = .ok (some st.next) st' := by
  have hg := map_lawful (T := Char) natLt_weak natEq_good
  obtain ⟨st, its, hr⟩ := Reach.of_spec hg (ops := [.new 0, .insert 0 (4, 'a') 0]) rfl
  obtain ⟨j, st', h1, h2, h3, _, h4, _⟩ := C134_insert_last_comparison (ex := .outOfRange) hg hr (x := 0)
    (s := [(0, (4, 'a'))]) rfl (3, 'x') (by simp) (by simp [Cfg.equiv, mapCfg, natLt])
  exact ⟨st, j, st', by simp at h1; omega, h2 9 (by simp), h4, h3 9 (by simp)⟩

end Cest.Tree
