import Verif.List.Refine
/-
Properties C21–C25 and C78 of cest::list.
-/
namespace Cest.Lst
open Cest
variable {V : Type}

/-- `st`, with iterator variables `its`, is reached by a program that respects the preconditions of the
interface; `e` is what the specification says about it. -/
def Reach (st : LSt V) (its : Its) (e : Env V) : Prop :=
  ∃ ops outs F, specRun Env.none ops = some (e, outs) ∧
    ∀ fuel, F ≤ fuel → runOps fuel (fun _ => none) ops St.init = .ok (its, outs) st

theorem Reach.agree {st : LSt V} {its : Its} {e : Env V} (h : Reach st its e) : Agree st its e := by
  obtain ⟨ops, outs, F, h1, h2⟩ := h
  obtain ⟨F', st', its', h3, A⟩ := run_refines agree_init h1
  have a := h2 (max F F') (by omega)
  rw [h3 (max F F') (by omega)] at a
  cases a
  exact A

/-- Every accepted program has a reachable final state. -/
theorem Reach.of_spec {ops : List (Op V)} {e : Env V} {outs : List (Out V)}
    (h : specRun Env.none ops = some (e, outs)) : ∃ st its, Reach st its e := by
  obtain ⟨F, st, its, h3, _⟩ := run_refines agree_init h
  exact ⟨st, its, ops, outs, F, h, h3⟩

/-! ### C21 -/

/-- **C21.** Every program over any number of lists and iterators that respects the preconditions runs
without undefined behaviour, exceptions or divergence, and all its observations (contents, sizes,
values read through stored iterators, iterator comparisons) are those of sequences with identities. -/
theorem C21_list_history {ops : List (Op V)} {e : Env V} {outs : List (Out V)}
    (h : specRun Env.none ops = some (e, outs)) :
    ∃ F st its, ∀ fuel, F ≤ fuel → runOps fuel (fun _ => none) ops St.init = .ok (its, outs) st := by
  obtain ⟨F, st, its, h3, _⟩ := run_refines agree_init h
  exact ⟨F, st, its, h3⟩

/-- The hypothesis is met by a program that keeps iterators across insertions and erasures. -/
example : (specRun (V := Nat) Env.none
    [.new 0, .pushBack 0 1, .pushBack 0 2, .pushFront 0 0, .begin_ 0 0, .inc 0 0, .insert 0 0 7 1,
     .deref 0 0, .deref 0 1, .dec 0 1, .deref 0 1, .erase 0 1 2, .deref 0 2, .newCopy 1 0,
     .set 0 2 9, .toList 0, .toListRev 1, .end_ 0 3, .dec 0 3, .deref 0 3, .popBack 0, .size 0,
     .itEq 0 2]).map Prod.snd =
    some [.unit, .unit, .unit, .unit, .unit, .unit, .unit, .val 1, .val 7, .unit, .val 0, .unit, .val 7,
     .unit, .unit, .vals [9, 1, 2], .vals [2, 1, 7], .unit, .unit, .val 2, .unit, .nat 2,
     .bool false] := rfl

/-! ### C22 -/

/-- `k` times `++`. -/
def incN : Nat → Ptr → LM V Ptr
  | 0, p => pure p
  | k+1, p => do let q ← inc p; incN k q

theorem incN_spec {st : LSt V} {σ : Nat → Option (List (Nat × V))} (W : LW st σ) {x : Nat} :
    ∀ (k : Nat) {l r : List (Nat × V)}, σ x = some (l ++ r) → k ≤ r.length →
    incN k (fstP x r) st = .ok (fstP x (r.drop k)) st := by
  intro k
  induction k with
  | zero => intro l r _ _; rfl
  | succ k ih =>
    intro l r hs hk
    cases r with
    | nil => simp at hk
    | cons e r =>
      obtain ⟨a, v⟩ := e
      simp only [incN, M.bind_apply, fstP_cons, inc_spec W hs]
      exact ih (l := l ++ [(a, v)]) (by simp [hs]) (by simpa using hk)

/-- **C22.** `++` from `begin()` reaches `end()` after exactly `size()` steps and visits the sequence;
`--` from `end()` visits the reverse; `--` undoes `++` at every element and `++` undoes `--`. -/
theorem C22_list_traversal {st : LSt V} {its : Its} {e : Env V} (h : Reach st its e) {x : Nat}
    {s : Seq V} (hx : e.lists x = some s) :
    (∀ fuel, s.length < fuel → toList fuel x st = .ok (s.map Prod.snd) st ∧
      toListRev fuel x st = .ok (s.map Prod.snd).reverse st) ∧
    (∃ b en, begin_ x st = .ok b st ∧ end_ x st = .ok en st ∧
      incN s.length b st = .ok en st ∧
      ∀ k (hk : k < s.length), ∃ p, incN k b st = .ok p st ∧ p ≠ en ∧ deref p st = .ok s[k].2 st ∧
        ∃ q, inc p st = .ok q st ∧ dec q st = .ok p st) := by
  have W := h.agree.world
  refine ⟨fun fuel hf => ⟨toList_spec W hx hf, toListRev_spec W hx hf⟩, ?_⟩
  refine ⟨fstP x s, .head x, begin_spec W hx, end_spec W hx, ?_, ?_⟩
  · rw [incN_spec (l := []) W s.length hx (Nat.le_refl _), List.drop_length]; rfl
  · intro k hk
    have hd : s.drop k = s[k] :: s.drop (k+1) := List.drop_eq_getElem_cons hk
    have hs : e.lists x = some (s.take k ++ (s[k].1, s[k].2) :: s.drop (k+1)) := by
      rw [hx]; congr 1
      have := List.take_append_drop k s
      rw [hd] at this; exact this.symm
    refine ⟨.node s[k].1, ?_, by simp, deref_spec W hs, _, inc_spec W hs, ?_⟩
    · rw [incN_spec (l := []) W k hx (by omega), hd]; rfl
    · have := dec_spec (l := s.take k ++ [(s[k].1, s[k].2)]) (r := s.drop (k+1)) (x := x) W
        (by rw [hs]; simp)
      rw [lstP_concat] at this
      exact this

/-! ### C23 -/

/-- **C23 (no leak).** Once every list is destroyed nothing is allocated. (Double free, freeing a live
value and use after free are undefined behaviour of the machine, excluded by C21.) -/
theorem C23_list_no_leak {st : LSt V} {its : Its} {e : Env V} (h : Reach st its e)
    (hd : ∀ x, e.lists x = none) : ∀ a, st.mem a = none :=
  h.agree.world.empty_mem hd

/-- **C23 (exact ownership).** Every allocated node is exactly one element of exactly one list and
holds that element's value. -/
theorem C23_list_storage {st : LSt V} {its : Its} {e : Env V} (h : Reach st its e) {a : Nat}
    {c : Cell V} (ha : st.mem a = some c) :
    ∃ x l v r, e.lists x = some (l ++ (a, v) :: r) ∧ c.val = some v ∧ a ∉ l.map Prod.fst ∧
      a ∉ r.map Prod.fst ∧ ∀ y s, e.lists y = some s → a ∈ s.map Prod.fst → y = x := by
  have W := h.agree.world
  obtain ⟨x, hx⟩ := W.own a (by simp [ha])
  cases hs : e.lists x with
  | none => simp [hs] at hx
  | some s =>
    have hx' : a ∈ ids s := by simpa [hs] using hx
    obtain ⟨v, hv⟩ := mem_ids.1 hx'
    obtain ⟨l, r, rfl⟩ := List.append_of_mem hv
    have hc := cell_spec W hs
    rw [ha] at hc
    simp at hc
    obtain ⟨o, ho, R⟩ := W_rep W hs
    have hnd := R.nodup
    rw [ids_append, ids_cons, List.nodup_append] at hnd
    refine ⟨x, l, v, r, hs, by rw [hc], ?_, (List.nodup_cons.1 hnd.2.1).1, ?_⟩
    · intro hm; exact hnd.2.2 a hm a (by simp) rfl
    · intro y t hy hm
      exact W.disj y x a (by rw [hy]; exact hm) hx

/-- A program that ends with no list alive, after five allocations. -/
example : ∃ (st : LSt Nat) (its : Its) (e : Env Nat), Reach st its e ∧ (∀ x, e.lists x = none) ∧
    e.next = 5 := by
  let ops : List (Op Nat) := [.new 0, .pushBack 0 1, .pushBack 0 2, .newCopy 1 0, .popFront 0,
    .pushBack 0 1, .destroy 0, .clear 1, .destroy 1]
  have h0 : (specRun Env.none ops).isSome = true := rfl
  obtain ⟨r, hr⟩ := Option.isSome_iff_exists.1 h0
  obtain ⟨st, its, h⟩ := Reach.of_spec (V := Nat) (ops := ops) (e := r.1) (outs := r.2) hr
  refine ⟨st, its, r.1, h, ?_, ?_⟩
  · intro x
    have : r.1 = ((specRun Env.none ops).get h0).1 := by simp [hr]
    rw [this]
    simp [ops, specRun, specStep, Env.setL, Env.none, Env.bump, number]
    grind
  · have : r.1 = ((specRun Env.none ops).get h0).1 := by simp [hr]
    rw [this]; rfl

/-! ### C24 -/

/-- **C24 (insert, emplace).** Insertion before any position returns the new element's iterator and
leaves every other element of every list readable through its old iterator with its old value. -/
theorem C24_list_insert_stable {st : LSt V} {its : Its} {e : Env V} (h : Reach st its e) {x k : Nat}
    {s l r : Seq V} {i : It} (v : V) (hx : e.lists x = some s) (hk : e.its k = some i)
    (hsp : split x s i = some (l, r)) :
    ∃ p st', getIt its k st = .ok p st ∧ insert x p v st = .ok (.node e.next) st' ∧
      emplace x p v st = .ok (.node e.next) st' ∧
      deref (.node e.next) st' = .ok v st' ∧
      (∀ fuel, s.length + 1 < fuel →
        toList fuel x st' = .ok (l.map Prod.snd ++ v :: r.map Prod.snd) st') ∧
      ∀ y t a w, e.lists y = some t → (a, w) ∈ t →
        a ≠ e.next ∧ deref (.node a) st = .ok w st ∧ deref (.node a) st' = .ok w st' := by
  have A := h.agree
  have W := A.world
  obtain ⟨rfl, hp⟩ := split_some hsp
  obtain ⟨st', h1, W1, hn⟩ := insert_spec W hx v
  rw [A.next] at h1 W1
  refine ⟨toPtr i, st', getIt_eq A hk, by rw [hp, h1], by rw [hp, emplace_eq, h1],
    deref_spec W1 (upd_same _ _ _), ?_, ?_⟩
  · intro fuel hf
    rw [toList_spec W1 (upd_same _ _ _) (by simp at hf ⊢; omega)]
    simp
  · intro y t a w hy hm
    have hlt := W_idlt W hy (mem_ids.2 ⟨w, hm⟩)
    rw [A.next] at hlt
    obtain ⟨t1, t2, rfl⟩ := List.append_of_mem hm
    refine ⟨by omega, deref_spec W hy, ?_⟩
    by_cases hyx : y = x
    · subst hyx
      rw [hx] at hy; simp at hy
      have hm' : (a, w) ∈ l ++ (e.next, v) :: r := by
        have : (a, w) ∈ l ++ r := by rw [hy]; simp
        simp only [List.mem_append, List.mem_cons] at this ⊢
        rcases this with h | h
        · exact Or.inl h
        · exact Or.inr (Or.inr h)
      obtain ⟨u1, u2, hu⟩ := List.append_of_mem hm'
      exact deref_spec (x := y) (l := u1) (r := u2) W1 (by rw [upd_same, hu])
    · exact deref_spec (x := y) (l := t1) (r := t2) W1 (by simp [hyx, hy])

/-- **C24 (erase).** Erasing returns the iterator after the erased element and leaves every other
element of every list readable through its old iterator. -/
theorem C24_list_erase_stable {st : LSt V} {its : Its} {e : Env V} (h : Reach st its e) {x k : Nat}
    {s l r : Seq V} {i : It} {b : Nat} {v : V} (hx : e.lists x = some s) (hk : e.its k = some i)
    (hsp : split x s i = some (l, (b, v) :: r)) :
    ∃ p st' q, getIt its k st = .ok p st ∧ erase x p st = .ok q st' ∧
      inc p st = .ok q st ∧
      (∀ fuel, s.length < fuel → toList fuel x st' = .ok (l.map Prod.snd ++ r.map Prod.snd) st') ∧
      ∀ y t a w, e.lists y = some t → (a, w) ∈ t → a ≠ b → deref (.node a) st' = .ok w st' := by
  have A := h.agree
  have W := A.world
  obtain ⟨rfl, hp⟩ := split_some hsp
  obtain ⟨st', h1, W1, hn⟩ := erase_spec W hx
  refine ⟨toPtr i, st', fstP x r, getIt_eq A hk, by rw [hp]; exact h1, by rw [hp]; exact inc_spec W hx, ?_, ?_⟩
  · intro fuel hf
    rw [toList_spec W1 (upd_same _ _ _) (by simp at hf ⊢; omega)]
    simp
  · intro y t a w hy hm hab
    by_cases hyx : y = x
    · subst hyx
      rw [hx] at hy; simp at hy; subst hy
      have hm' : (a, w) ∈ l ++ r := by
        simp only [List.mem_append, List.mem_cons] at hm ⊢
        rcases hm with h | h | h
        · exact Or.inl h
        · simp at h; exact absurd h.1 hab
        · exact Or.inr h
      obtain ⟨u1, u2, hu⟩ := List.append_of_mem hm'
      exact deref_spec (x := y) (l := u1) (r := u2) W1 (by rw [upd_same, hu])
    · obtain ⟨t1, t2, rfl⟩ := List.append_of_mem hm
      exact deref_spec (x := y) (l := t1) (r := t2) W1 (by simp [hyx, hy])

/-- **C24 (push, pop).** -/
theorem C24_list_ends_stable {st : LSt V} {its : Its} {e : Env V} (h : Reach st its e) {x : Nat}
    {s : Seq V} (hx : e.lists x = some s) :
    (∀ v, ∃ st', pushBack x v st = .ok () st' ∧
      ∀ y t a w, e.lists y = some t → (a, w) ∈ t → deref (.node a) st' = .ok w st') ∧
    (∀ v, ∃ st', pushFront x v st = .ok () st' ∧
      ∀ y t a w, e.lists y = some t → (a, w) ∈ t → deref (.node a) st' = .ok w st') ∧
    (∀ s' b, s = s' ++ [b] → ∃ st', popBack x st = .ok () st' ∧
      ∀ y t a w, e.lists y = some t → (a, w) ∈ t → a ≠ b.1 → deref (.node a) st' = .ok w st') ∧
    (∀ s' b, s = b :: s' → ∃ st', popFront x st = .ok () st' ∧
      ∀ y t a w, e.lists y = some t → (a, w) ∈ t → a ≠ b.1 → deref (.node a) st' = .ok w st') := by
  have W := h.agree.world
  have key : ∀ (st' : LSt V) (s' : Seq V) (y : Nat) (t : Seq V) (a : Nat) (w : V),
      LW st' (upd e.lists x (some s')) → e.lists y = some t → (a, w) ∈ t →
      (y = x → (a, w) ∈ s') → deref (.node a) st' = .ok w st' := by
    intro st' s' y t a w W1 hy hm hk
    by_cases hyx : y = x
    · obtain ⟨u1, u2, hu⟩ := List.append_of_mem (hk hyx)
      exact deref_spec (x := x) (l := u1) (r := u2) W1 (by rw [upd_same, hu])
    · obtain ⟨t1, t2, rfl⟩ := List.append_of_mem hm
      exact deref_spec (x := y) (l := t1) (r := t2) W1 (by simp [hyx, hy])
  refine ⟨?_, ?_, ?_, ?_⟩
  · intro v
    obtain ⟨st', h1, W1, _⟩ := pushBack_spec W hx v
    refine ⟨st', h1, fun y t a w hy hm => key st' _ y t a w W1 hy hm ?_⟩
    rintro rfl; rw [hx] at hy; cases hy; simp [hm]
  · intro v
    obtain ⟨st', h1, W1, _⟩ := pushFront_spec W hx v
    refine ⟨st', h1, fun y t a w hy hm => key st' _ y t a w W1 hy hm ?_⟩
    rintro rfl; rw [hx] at hy; cases hy; simp [hm]
  · rintro s' b rfl
    obtain ⟨st', h1, W1, _⟩ := popBack_spec W hx
    refine ⟨st', h1, fun y t a w hy hm hab => key st' _ y t a w W1 hy hm ?_⟩
    rintro rfl; rw [hx] at hy; cases hy
    rcases List.mem_append.1 hm with h | h
    · exact h
    · simp at h; subst h; exact absurd rfl hab
  · rintro s' b rfl
    obtain ⟨st', h1, W1, _⟩ := popFront_spec W hx
    refine ⟨st', h1, fun y t a w hy hm hab => key st' _ y t a w W1 hy hm ?_⟩
    rintro rfl; rw [hx] at hy; cases hy
    rcases List.mem_cons.1 hm with h | h
    · subst h; exact absurd rfl hab
    · exact h

/-! ### C25 -/

/-- Lists whose contents or lifetime an operation may change. -/
def Op.mutates : Op V → List Nat
  | .new x | .newCopy x _ | .assign x _ | .destroy x | .clear x | .pushBack x _ | .pushFront x _
  | .emplaceBack x _ | .emplaceFront x _ | .popBack x | .popFront x | .insert x _ _ _
  | .emplace x _ _ _ | .erase x _ _ | .set x _ _ => [x]
  | _ => []

theorem specStep_frame {e e' : Env V} {op : Op V} {o : Out V} {z : Nat}
    (h : specStep e op = some (e', o)) (hz : z ∉ op.mutates) : e'.lists z = e.lists z := by
  cases op <;> simp only [specStep] at h <;> simp only [Op.mutates, List.mem_cons, List.not_mem_nil,
    or_false, not_false_eq_true] at hz <;> (repeat' split at h) <;> simp at h <;>
    first
      | (obtain ⟨rfl, rfl⟩ := h; simp_all [Env.setL, Env.setI, Env.bump]; done)
      | (obtain ⟨_, rfl, rfl⟩ := h; simp_all [Env.setL, Env.setI, Env.bump])

theorem specRun_frame {ops : List (Op V)} {e e' : Env V} {os : List (Out V)} {z : Nat}
    (h : specRun e ops = some (e', os)) (hz : ∀ op ∈ ops, z ∉ op.mutates) : e'.lists z = e.lists z := by
  induction ops generalizing e os with
  | nil => simp [specRun] at h; rw [h.1]
  | cons op ops ih =>
    simp only [specRun] at h
    split at h <;> try simp at h
    rename_i e1 o h1
    split at h <;> simp at h
    rename_i e2 os2 h2
    obtain ⟨rfl, rfl⟩ := h
    rw [ih h2 (fun op hop => hz op (List.mem_cons_of_mem _ hop)),
      specStep_frame h1 (hz op List.mem_cons_self)]

theorem number_snd (i : Nat) (vs : List V) : (number i vs).map Prod.snd = vs := by
  induction vs generalizing i with
  | nil => rfl
  | cons v vs ih => simp [number, ih]

/-- **C25 (copy construction, assignment from another list).** The target holds the source's values,
and whatever program runs afterwards, the one of the two that it does not modify keeps them. -/
theorem C25_list_copy_independent {st : LSt V} {its : Its} {e : Env V} (h : Reach st its e)
    {x y : Nat} {t : Seq V} (hxy : x ≠ y) (hy : e.lists y = some t) {op : Op V}
    (hop : op = .newCopy x y ∨ op = .assign x y) {ops : List (Op V)} {e' : Env V} {outs : List (Out V)}
    (hs : specRun e (op :: ops) = some (e', outs)) {z : Nat} (hz : z = x ∨ z = y)
    (hnm : ∀ op ∈ ops, z ∉ op.mutates) :
    ∃ F st' its', ∀ fuel, F ≤ fuel → runOps fuel its (op :: ops) st = .ok (its', outs) st' ∧
      toList fuel z st' = .ok (t.map Prod.snd) st' := by
  obtain ⟨F, st', its', h1, A⟩ := run_refines h.agree hs
  have : ∃ s, e'.lists z = some s ∧ s.map Prod.snd = t.map Prod.snd := by
    simp only [specRun] at hs
    split at hs <;> try simp at hs
    rename_i e1 o hop1
    split at hs <;> simp at hs
    rename_i e2 os2 h2
    obtain ⟨rfl, rfl⟩ := hs
    rw [specRun_frame h2 hnm]
    have h3 : e1.lists = upd e.lists x (some (number e.next (t.map Prod.snd))) := by
      rcases hop with rfl | rfl
      · simp only [specStep] at hop1
        split at hop1 <;> simp at hop1
        rename_i t' _ hy'
        rw [hy] at hy'; cases hy'
        obtain ⟨rfl, _⟩ := hop1
        rfl
      · simp only [specStep] at hop1
        split at hop1 <;> simp at hop1
        rename_i t' _ hy'
        rw [hy] at hy'; cases hy'
        obtain ⟨_, rfl, _⟩ := hop1
        rfl
    rw [h3]
    rcases hz with rfl | rfl
    · exact ⟨_, upd_same _ _ _, number_snd _ _⟩
    · exact ⟨t, by simp [Ne.symm hxy, hy], rfl⟩
  obtain ⟨s, hs1, hs2⟩ := this
  refine ⟨max F (s.length + 1), st', its', fun fuel hf => ⟨h1 fuel (by omega), ?_⟩⟩
  rw [toList_spec A.world hs1 (by omega), hs2]

/-- The full claim of C25 for assignment, including self-assignment. -/
def C25_full_statement (V : Type) : Prop :=
  ∀ (st : LSt V) (its : Its) (e : Env V) (x y : Nat) (s t : Seq V), Reach st its e →
    e.lists x = some s → e.lists y = some t →
    ∃ F st', ∀ fuel, F ≤ fuel → assign fuel x y st = .ok () st' ∧
      toList fuel x st' = .ok (t.map Prod.snd) st' ∧ toList fuel y st' = .ok (t.map Prod.snd) st'

/-- **C25 (part that holds).** Assignment between different lists. Missing: `x = x` (next theorem). -/
theorem C25_list_assign_partial {st : LSt V} {its : Its} {e : Env V} (h : Reach st its e)
    {x y : Nat} {s t : Seq V} (hxy : x ≠ y) (hx : e.lists x = some s) (hy : e.lists y = some t) :
    ∃ F st', ∀ fuel, F ≤ fuel → assign fuel x y st = .ok () st' ∧
      toList fuel x st' = .ok (t.map Prod.snd) st' ∧ toList fuel y st' = .ok (t.map Prod.snd) st' := by
  obtain ⟨st', h1, W1, _⟩ := assign_spec h.agree.world hxy hx hy
  refine ⟨s.length + t.length + 1, st', fun fuel hf => ⟨h1 fuel (by omega) (by omega), ?_, ?_⟩⟩
  · have hl : (number st.next (t.map Prod.snd)).length = t.length := by
      have := congrArg List.length (number_snd st.next (t.map Prod.snd))
      simpa using this
    rw [toList_spec W1 (upd_same _ _ _) (by omega), number_snd]
  · exact toList_spec W1 (by simp [Ne.symm hxy, hy]) (by omega)

/-- **C25 (violation).** Self-assignment empties the list. -/
theorem C25_list_self_assign {st : LSt V} {its : Its} {e : Env V} (h : Reach st its e)
    {x : Nat} {s : Seq V} (hx : e.lists x = some s) :
    ∃ st', ∀ fuel, s.length < fuel → assign fuel x x st = .ok () st' ∧ toList fuel x st' = .ok [] st' := by
  obtain ⟨st', h1, W1⟩ := assign_self h.agree.world hx
  refine ⟨st', fun fuel hf => ⟨h1 fuel hf, ?_⟩⟩
  exact toList_spec W1 (upd_same _ _ _) (by simp; omega)

theorem C25_list_assign_refuted : ¬ C25_full_statement Nat := by
  intro hall
  obtain ⟨st, its, hr⟩ := Reach.of_spec (V := Nat) (ops := [.new 0, .pushBack 0 5]) rfl
  obtain ⟨F, st1, h1⟩ := hall st its _ 0 0 [(0, 5)] [(0, 5)] hr rfl rfl
  obtain ⟨st2, h2⟩ := C25_list_self_assign hr (x := 0) (s := [(0, 5)]) rfl
  obtain ⟨a1, a2, _⟩ := h1 (F + 2) (by omega)
  obtain ⟨b1, b2⟩ := h2 (F + 2) (by simp)
  rw [b1] at a1; cases a1
  rw [b2] at a2; cases a2

/-! ### C78 -/

/-- The machine state with the throw countdown set. -/
def arm (st : LSt V) (k : Option Nat) : LSt V := ⟨st.objs, st.mem, st.next, k⟩

/-- Every allocated block belongs to some list variable's contents. -/
def NoGarbage (st : LSt V) (e : Env V) : Prop :=
  ∀ a, st.mem a ≠ none → ∃ x s, e.lists x = some s ∧ a ∈ s.map Prod.fst

/-- The full claim of C78 for list: an insertion that throws changes and leaks nothing. -/
def C78_full_statement (V : Type) : Prop :=
  ∀ (st : LSt V) (its : Its) (e : Env V) (x k n : Nat) (s l r : Seq V) (i : It) (v : V),
    Reach st its e → e.lists x = some s → e.its k = some i → split x s i = some (l, r) → n < 2 →
    ∃ p ex st', getIt its k st = .ok p st ∧ insert x p v (arm st (some n)) = .throw ex st' ∧
      st'.objs = st.objs ∧ (∀ a, st.mem a ≠ none → st'.mem a = st.mem a) ∧ NoGarbage st' e

/-- **C78 (part that holds, list).** An `insert`/`emplace` that throws leaves every list and node as it
was; if the allocation fails the state is exactly the old one. Missing: if the element copy throws the
allocated node is leaked. -/
theorem C78_list_insert_throw_partial {st : LSt V} {its : Its} {e : Env V} (h : Reach st its e)
    {x k : Nat} {s l r : Seq V} {i : It} (v : V) (_hx : e.lists x = some s) (hk : e.its k = some i)
    (_hsp : split x s i = some (l, r)) :
    ∃ p st', getIt its k st = .ok p st ∧ insert x p v (arm st (some 0)) = .throw .badAlloc st ∧
      emplace x p v (arm st (some 0)) = .throw .badAlloc st ∧
      insert x p v (arm st (some 1)) = .throw .elem st' ∧
      emplace x p v (arm st (some 1)) = .throw .elem st' ∧ st'.objs = st.objs ∧
      (∀ a, st.mem a ≠ none → st'.mem a = st.mem a) ∧
      st'.mem st.next ≠ none ∧ ∀ z s, e.lists z = some s → st.next ∉ s.map Prod.fst := by
  have A := h.agree
  have W := A.world
  have hst : arm st none = st := by
    have := W.thr
    cases st; simp_all [arm]
  have h0 : ∀ p, insert x p v (arm st (some 0)) = .throw .badAlloc st := by
    intro p
    unfold insert
    simp only [M.bind_apply]
    rw [show allocNode (arm st (some 0)) = .throw .badAlloc (arm st none) from by
      simp [allocNode, allocC, tick, arm], hst]
  have h1 : ∀ p, insert x p v (arm st (some 1)) =
      .throw .elem ⟨st.objs, upd st.mem st.next (some ⟨.null, .null, none⟩), st.next + 1, none⟩ := by
    intro p
    simp [insert, allocNode, allocC, tick, arm, constructNode, getC]
  refine ⟨toPtr i, ⟨st.objs, upd st.mem st.next (some ⟨.null, .null, none⟩), st.next + 1, none⟩,
    getIt_eq A hk, h0 _, by rw [emplace_eq]; exact h0 _, h1 _, by rw [emplace_eq]; exact h1 _, rfl, ?_,
    by simp, ?_⟩
  · intro a ha
    have : a ≠ st.next := by
      rintro rfl; exact ha (W.fresh _ (Nat.le_refl _))
    simp [this]
  · intro z s hz hm
    exact absurd (W_idlt W hz hm) (Nat.lt_irrefl _)

theorem C78_list_insert_throw_refuted : ¬ C78_full_statement Nat := by
  intro hall
  obtain ⟨st, its, hr⟩ := Reach.of_spec (V := Nat) (ops := [.new 0, .pushBack 0 5, .begin_ 0 0]) rfl
  obtain ⟨p, ex, st1, h1, h2, _, _, h4⟩ := hall st its _ 0 0 1 [(0, 5)] [] [(0, 5)] (.elem 0) 7 hr
    rfl rfl rfl (by decide)
  obtain ⟨p', st2, g1, _, _, g3, _, _, _, g6, g7⟩ := C78_list_insert_throw_partial hr (x := 0) (k := 0)
    (s := [(0, 5)]) (l := []) (r := [(0, 5)]) (i := .elem 0) 7 rfl rfl rfl
  rw [h1] at g1; cases g1
  rw [h2] at g3; cases g3
  obtain ⟨z, s, hz, hm⟩ := h4 _ g6
  exact g7 z s hz hm

/-! ### The hypotheses of C22, C24, C25 are satisfiable -/

/-- A reachable state with a stored iterator to the second of three elements, and what inserting
there does. -/
example : ∃ (st st' : LSt Nat) (its : Its) (p : Ptr), getIt its 0 st = .ok p st ∧
    insert 0 p 9 st = .ok (.node 3) st' ∧ toList 5 0 st' = .ok [5, 9, 6, 7] st' ∧
    deref (.node 1) st' = .ok 6 st' := by
  obtain ⟨st, its, hr⟩ := Reach.of_spec (V := Nat)
    (ops := [.new 0, .pushBack 0 5, .pushBack 0 6, .pushBack 0 7, .begin_ 0 0, .inc 0 0]) rfl
  obtain ⟨p, st', h1, h2, _, _, h3, h4⟩ := C24_list_insert_stable hr (x := 0) (k := 0)
    (s := [(0, 5), (1, 6), (2, 7)]) (l := [(0, 5)]) (r := [(1, 6), (2, 7)]) (i := .elem 1) 9 rfl rfl rfl
  exact ⟨st, st', its, p, h1, h2, h3 5 (by decide), (h4 0 _ 1 6 rfl (by decide)).2.2⟩

/-- C25: the source is changed and destroyed after the copy. -/
example : ∃ (F : Nat) (st st' : LSt Nat) (its its' : Its) (outs : List (Out Nat)), ∀ fuel, F ≤ fuel →
    runOps fuel its [.newCopy 1 0, .pushFront 0 8, .destroy 0] st = .ok (its', outs) st' ∧
    toList fuel 1 st' = .ok [5, 6] st' := by
  obtain ⟨st, its, hr⟩ := Reach.of_spec (V := Nat) (ops := [.new 0, .pushBack 0 5, .pushBack 0 6]) rfl
  obtain ⟨F, st', its', h⟩ := C25_list_copy_independent hr (x := 1) (y := 0) (t := [(0, 5), (1, 6)])
    (by decide) rfl (op := .newCopy 1 0) (Or.inl rfl) (ops := [.pushFront 0 8, .destroy 0]) rfl (z := 1)
    (Or.inl rfl) (by simp [Op.mutates])
  exact ⟨F, st, st', its, its', _, h⟩

end Cest.Lst
