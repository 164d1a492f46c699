import Verif.FList.Refine
import Verif.FList.Throw
/-
Properties C26–C28 and C77, C78 of cest::forward_list.
-/
namespace Cest.FL
open Cest
variable {V : Type}

/-- `st`, with iterator variables `its`, is reached by a program that respects the preconditions of the
interface; `e` is what the specification says about it. -/
def Reach (st : FSt V) (its : Its) (e : Env V) : Prop :=
  ∃ ops outs F, specRun Env.none ops = some (e, outs) ∧
    ∀ fuel, F ≤ fuel → runOps fuel (fun _ => none) ops St.init = .ok (its, outs) st

theorem Reach.agree {st : FSt V} {its : Its} {e : Env V} (h : Reach st its e) : Agree st its e := by
  obtain ⟨ops, outs, F, h1, h2⟩ := h
  obtain ⟨F', st', its', h3, A⟩ := run_refines agree_init h1
  have a := h2 (max F F') (by omega)
  rw [h3 (max F F') (by omega)] at a
  cases a
  exact A

/-- Every accepted program has a reachable final state. -/
theorem Reach.of_spec {ops : List (Op V)} {e : Env V} {outs : List (Out V)}
    (h : specRun Env.none ops = some (e, outs)) : ∃ st its, Reach st its e := by
  obtain ⟨F, st, its, h3, _⟩ := run_refines agree_init h
  exact ⟨st, its, ops, outs, F, h, h3⟩

/-! ### C26 -/

/-- **C26.** Every program over any number of forward_lists and iterators (including `before_begin`)
that respects the preconditions runs without undefined behaviour, exceptions or divergence, and all its
observations (contents, values read through stored iterators, iterator comparisons) are those of
sequences with identities. -/
theorem C26_flist_history {ops : List (Op V)} {e : Env V} {outs : List (Out V)}
    (h : specRun Env.none ops = some (e, outs)) :
    ∃ F st its, ∀ fuel, F ≤ fuel → runOps fuel (fun _ => none) ops St.init = .ok (its, outs) st := by
  obtain ⟨F, st, its, h3, _⟩ := run_refines agree_init h
  exact ⟨F, st, its, h3⟩

/-- The hypothesis is met by a program that keeps iterators across insertions, erasures and a swap. -/
example : (specRun (V := Nat) Env.none
    [.new 0, .pushFront 0 3, .pushFront 0 1, .before 0 0, .inc 0 0, .insertAfter 0 0 2 1, .deref 0 1,
     .toList 0, .newCopy 1 0, .pushFront 1 8, .swap 0 1, .deref 1 1, .toList 0, .before 0 2,
     .inc 0 2, .end_ 0 3, .eraseRange 0 2 3 4, .toList 0, .itEq 3 4, .eraseAfter 1 0 5, .deref 1 5,
     .toList 1, .assign 0 0 7, .toList 0, .assign 1 0 7, .front 1, .popFront 1, .empty 1]).map Prod.snd =
    some [.unit, .unit, .unit, .unit, .unit, .unit, .val 2, .vals [1, 2, 3], .unit, .unit, .unit, .val 2,
     .vals [8, 1, 2, 3], .unit, .unit, .unit, .unit, .vals [8], .bool true, .unit, .val 3,
     .vals [1, 3], .unit, .vals [8], .unit, .val 8, .unit, .bool true] := rfl

/-- **C26 (positions).** What one `insert_after`, `erase_after` and range `erase_after` do at a stored
iterator: the returned iterator designates the new element / the element after the erased ones, and the
contents change only there. -/
theorem C26_flist_positions {st : FSt V} {its : Its} {e : Env V} (h : Reach st its e) {x k : Nat}
    {s l r : Seq V} {i : It} (hx : e.lists x = some s) (hk : e.its k = some i)
    (hsp : splitAfter x s i = some (l, r)) :
    ∃ p, getIt its k st = .ok p st ∧
      (∀ v, ∃ q st', insertAfter p v st = .ok q st' ∧ deref q st' = .ok v st' ∧
        ∀ fuel, s.length + 1 < fuel →
          toList fuel x st' = .ok (l.map Prod.snd ++ v :: r.map Prod.snd) st') ∧
      (∀ d r', r = d :: r' → ∃ q st', eraseAfter p st = .ok q st' ∧ inc p st' = .ok q st' ∧
        ∀ fuel, s.length < fuel →
          toList fuel x st' = .ok (l.map Prod.snd ++ r'.map Prod.snd) st' ∧
          walk fuel q st' = .ok (r'.map Prod.snd) st') ∧
      (∀ m j mid r', e.its m = some j → splitLast r j = some (mid, r') →
        ∃ q st', getIt its m st = .ok q st ∧ ∀ fuel, s.length < fuel →
          eraseRange fuel p q st = .ok q st' ∧ inc p st' = .ok q st' ∧
          toList fuel x st' = .ok (l.map Prod.snd ++ r'.map Prod.snd) st' ∧
          walk fuel q st' = .ok (r'.map Prod.snd) st') := by
  have A := h.agree
  have W := A.world
  obtain ⟨rfl, hp⟩ := splitAfter_some hsp
  refine ⟨toPtr i, getIt_eq A hk, ?_, ?_, ?_⟩
  · intro v
    obtain ⟨st', h1, W1, hn⟩ := insertAfter_spec W hx v
    refine ⟨_, st', by rw [hp]; exact h1, deref_spec W1 (upd_same _ _ _), fun fuel hf => ?_⟩
    rw [toList_spec W1 (upd_same _ _ _) (by simp at hf ⊢; omega)]; simp
  · rintro d r' rfl
    obtain ⟨st', h1, W1, hn⟩ := eraseAfter_spec W hx
    refine ⟨_, st', by rw [hp]; exact h1, by rw [hp]; exact inc_spec W1 (upd_same _ _ _), fun fuel hf => ⟨?_, ?_⟩⟩
    · rw [toList_spec W1 (upd_same _ _ _) (by simp at hf ⊢; omega)]; simp
    · exact walk_spec (l := l) W1 (upd_same _ _ _) fuel (by simp at hf; omega)
  · intro m j mid r' hm hsl
    obtain ⟨rfl, hq⟩ := splitLast_some hsl
    obtain ⟨st', h1, W1, hn⟩ := eraseRange_spec W hx
    refine ⟨toPtr j, st', getIt_eq A hm, fun fuel hf => ?_⟩
    rw [hp, hq]
    refine ⟨h1 fuel (by simp at hf; omega), inc_spec W1 (upd_same _ _ _), ?_, ?_⟩
    · rw [toList_spec W1 (upd_same _ _ _) (by simp at hf ⊢; omega)]; simp
    · exact walk_spec (l := l) W1 (upd_same _ _ _) fuel (by simp at hf; omega)

/-- The hypotheses are met: erasing strictly between two iterators. -/
example : ∃ (st st' : FSt Nat) (its : Its) (p q : Ptr), getIt its 0 st = .ok p st ∧
    eraseRange 9 p q st = .ok q st' ∧ toList 9 0 st' = .ok [1, 4] st' := by
  obtain ⟨st, its, hr⟩ := Reach.of_spec (V := Nat)
    (ops := [.new 0, .pushFront 0 4, .pushFront 0 3, .pushFront 0 2, .pushFront 0 1, .begin_ 0 0,
      .begin_ 0 1, .inc 0 1, .inc 0 1, .inc 0 1]) rfl
  obtain ⟨p, h1, _, _, h3⟩ := C26_flist_positions hr (x := 0) (k := 0)
    (s := [(3, 1), (2, 2), (1, 3), (0, 4)]) (l := [(3, 1)]) (r := [(2, 2), (1, 3), (0, 4)])
    (i := .elem 3) rfl rfl rfl
  obtain ⟨q, st', h4, h5⟩ := h3 1 (.elem 0) [(2, 2), (1, 3)] [(0, 4)] rfl rfl
  exact ⟨st, st', its, p, q, h1, (h5 9 (by decide)).1, (h5 9 (by decide)).2.2.1⟩

/-! ### C27 -/

/-- **C27 (no leak).** Once every list is destroyed nothing is allocated. (Double free, freeing a live
value and use after free are undefined behaviour of the machine, excluded by C26.) -/
theorem C27_flist_no_leak {st : FSt V} {its : Its} {e : Env V} (h : Reach st its e)
    (hd : ∀ x, e.lists x = none) : ∀ a, st.mem a = none :=
  h.agree.world.empty_mem hd

/-- **C27 (exact ownership).** Every allocated node is exactly one element of exactly one list and
holds that element's value. -/
theorem C27_flist_storage {st : FSt V} {its : Its} {e : Env V} (h : Reach st its e) {a : Nat}
    {c : Cell V} (ha : st.mem a = some c) :
    ∃ x l v r, e.lists x = some (l ++ (a, v) :: r) ∧ c.val = some v ∧ a ∉ l.map Prod.fst ∧
      a ∉ r.map Prod.fst ∧ ∀ y s, e.lists y = some s → a ∈ s.map Prod.fst → y = x := by
  have W := h.agree.world
  obtain ⟨x, hx⟩ := W.own a (by simp [ha])
  cases hs : e.lists x with
  | none => simp [hs] at hx
  | some s =>
    have hx' : a ∈ ids s := by simpa [hs] using hx
    obtain ⟨v, hv⟩ := mem_ids.1 hx'
    obtain ⟨l, r, rfl⟩ := List.append_of_mem hv
    obtain ⟨o, ho, R⟩ := W_rep W hs
    have hc := R.chain.cell
    rw [ha] at hc
    simp at hc
    have hnd := R.nodup
    rw [ids_append, ids_cons, List.nodup_append] at hnd
    refine ⟨x, l, v, r, hs, by rw [hc], ?_, (List.nodup_cons.1 hnd.2.1).1, ?_⟩
    · intro hm; exact hnd.2.2 a hm a (by simp) rfl
    · intro y t hy hm
      exact W.disj y x a (by rw [hy]; exact hm) hx

/-- A program that ends with no list alive, after six allocations. -/
example : ∃ (st : FSt Nat) (its : Its) (e : Env Nat), Reach st its e ∧ (∀ x, e.lists x = none) ∧
    e.next = 6 := by
  let ops : List (Op Nat) := [.new 0, .pushFront 0 1, .pushFront 0 2, .newCopy 1 0, .popFront 0,
    .pushFront 0 1, .swap 0 1, .popFront 1, .assign 0 1 5, .destroy 0, .clear 1, .destroy 1]
  have h0 : (specRun Env.none ops).isSome = true := rfl
  obtain ⟨r, hr⟩ := Option.isSome_iff_exists.1 h0
  obtain ⟨st, its, h⟩ := Reach.of_spec (V := Nat) (ops := ops) (e := r.1) (outs := r.2) hr
  refine ⟨st, its, r.1, h, ?_, ?_⟩
  · intro x
    have : r.1 = ((specRun Env.none ops).get h0).1 := by simp [hr]
    rw [this]
    simp [ops, specRun, specStep, Env.setL, Env.none, Env.bump, number]
    grind
  · have : r.1 = ((specRun Env.none ops).get h0).1 := by simp [hr]
    rw [this]; rfl

/-! ### C28 -/

theorem number_snd (i : Nat) (vs : List V) : (number i vs).map Prod.snd = vs := by
  induction vs generalizing i with
  | nil => rfl
  | cons v vs ih => simp [number, ih]

/-- **C28.** `x = y` (also for `x` and `y` the same list) ends normally; afterwards `x` and `y` hold the
old values of `y`, every other list is unchanged, the old nodes of `x`
are released (also when `y` is `x`), and nothing but the `y.length` new nodes was allocated. -/
theorem C28_flist_assign {st : FSt V} {its : Its} {e : Env V} (h : Reach st its e)
    {x y t : Nat} {s s' : Seq V} (hx : e.lists x = some s) (hy : e.lists y = some s')
    (ht : e.lists t = none) :
    ∃ F st', ∀ fuel, F ≤ fuel → assign fuel x y t st = .ok () st' ∧
      toList fuel x st' = .ok (s'.map Prod.snd) st' ∧ toList fuel y st' = .ok (s'.map Prod.snd) st' ∧
      (∀ z u, z ≠ x → e.lists z = some u → u.length < fuel →
        toList fuel z st' = .ok (u.map Prod.snd) st') ∧
      (∀ a ∈ s.map Prod.fst, st'.mem a = none) ∧ st'.next = st.next + s'.length := by
  have W := h.agree.world
  obtain ⟨st', h1, W1, hn⟩ := assign_spec W hx hy ht
  have hl : (number st.next (s'.map Prod.snd)).length = s'.length := by
    rw [number_length]; simp
  refine ⟨s.length + s'.length + 1, st', fun fuel hf => ⟨h1 fuel (by omega) (by omega), ?_, ?_, ?_, ?_, hn⟩⟩
  · rw [toList_spec W1 (upd_same _ _ _) (by omega), number_snd]
  · by_cases hyx : y = x
    · subst hyx
      rw [toList_spec W1 (upd_same _ _ _) (by omega), number_snd]
    · exact toList_spec W1 (by simp [hyx, hy]) (by omega)
  · intro z u hz hu hf'
    exact toList_spec W1 (by simp [hz, hu]) hf'
  · intro a ha
    have hlt : a < st.next := W_idlt W hx (a := a) ha
    apply Classical.byContradiction
    intro hc
    obtain ⟨z, hz⟩ := W1.own a hc
    by_cases hzx : z = x
    · subst hzx
      rw [upd_same] at hz
      have key : ∀ (vs : List V) (n : Nat), a ∈ ids (number n vs) → n ≤ a := by
        intro vs
        induction vs with
        | nil => intro n h; simp [number] at h
        | cons v vs ih =>
          intro n h
          simp only [number, ids_cons, List.mem_cons] at h
          rcases h with h | h
          · omega
          · have := ih (n+1) h; omega
      have := key _ _ (by simpa using hz)
      omega
    · simp only [upd_apply, hzx, if_false] at hz
      exact hzx (W.disj z x a hz (by rw [hx]; exact ha))

/-- Self-assignment of a two-element list. -/
example : ∃ (F : Nat) (st st' : FSt Nat), ∀ fuel, F ≤ fuel → assign fuel 0 0 9 st = .ok () st' ∧
    toList fuel 0 st' = .ok [6, 5] st' := by
  obtain ⟨st, its, hr⟩ := Reach.of_spec (V := Nat) (ops := [.new 0, .pushFront 0 5, .pushFront 0 6]) rfl
  obtain ⟨F, st', h⟩ := C28_flist_assign hr (x := 0) (y := 0) (t := 9) (s := [(1, 6), (0, 5)])
    (s' := [(1, 6), (0, 5)]) rfl rfl rfl
  exact ⟨F, st, st', fun fuel hf => ⟨(h fuel hf).1, (h fuel hf).2.1⟩⟩

/-- Lists whose contents or lifetime an operation may change. -/
def Op.mutates : Op V → List Nat
  | .new x | .newCopy x _ | .destroy x | .clear x | .pushFront x _ | .popFront x | .assign x _ _
  | .insertAfter x _ _ _ | .eraseAfter x _ _ | .eraseRange x _ _ _ | .set x _ _ => [x]
  | .swap x y => [x, y]
  | _ => []

theorem specStep_frame {e e' : Env V} {op : Op V} {o : Out V} {z : Nat}
    (h : specStep e op = some (e', o)) (hz : z ∉ op.mutates) : e'.lists z = e.lists z := by
  cases op <;> simp only [specStep] at h <;> simp only [Op.mutates, List.mem_cons, List.not_mem_nil,
    or_false, not_false_eq_true] at hz <;> (repeat' split at h) <;> simp at h <;>
    first
      | (obtain ⟨rfl, rfl⟩ := h; simp_all [Env.setL, Env.setI, Env.bump]; done)
      | (obtain ⟨_, rfl, rfl⟩ := h; simp_all [Env.setL, Env.setI, Env.bump])

theorem specRun_frame {ops : List (Op V)} {e e' : Env V} {os : List (Out V)} {z : Nat}
    (h : specRun e ops = some (e', os)) (hz : ∀ op ∈ ops, z ∉ op.mutates) : e'.lists z = e.lists z := by
  induction ops generalizing e os with
  | nil => simp [specRun] at h; rw [h.1]
  | cons op ops ih =>
    simp only [specRun] at h
    split at h <;> try simp at h
    rename_i e1 o h1
    split at h <;> simp at h
    rename_i e2 os2 h2
    obtain ⟨rfl, rfl⟩ := h
    rw [ih h2 (fun op hop => hz op (List.mem_cons_of_mem _ hop)),
      specStep_frame h1 (hz op List.mem_cons_self)]

/-- **C28 (independence).** After copy construction or assignment, whatever program runs, the one of the
two lists that it does not modify keeps the values. -/
theorem C28_flist_copy_independent {st : FSt V} {its : Its} {e : Env V} (h : Reach st its e)
    {x y u : Nat} {t : Seq V} (hxy : x ≠ y) (hy : e.lists y = some t) {op : Op V}
    (hop : op = .newCopy x y ∨ op = .assign x y u) {ops : List (Op V)} {e' : Env V} {outs : List (Out V)}
    (hs : specRun e (op :: ops) = some (e', outs)) {z : Nat} (hz : z = x ∨ z = y)
    (hnm : ∀ op ∈ ops, z ∉ op.mutates) :
    ∃ F st' its', ∀ fuel, F ≤ fuel → runOps fuel its (op :: ops) st = .ok (its', outs) st' ∧
      toList fuel z st' = .ok (t.map Prod.snd) st' := by
  obtain ⟨F, st', its', h1, A⟩ := run_refines h.agree hs
  have : ∃ s, e'.lists z = some s ∧ s.map Prod.snd = t.map Prod.snd := by
    simp only [specRun] at hs
    split at hs <;> try simp at hs
    rename_i e1 o hop1
    split at hs <;> simp at hs
    rename_i e2 os2 h2
    obtain ⟨rfl, rfl⟩ := hs
    rw [specRun_frame h2 hnm]
    have h3 : e1.lists = upd e.lists x (some (number e.next (t.map Prod.snd))) := by
      rcases hop with rfl | rfl
      · simp only [specStep] at hop1
        split at hop1 <;> simp at hop1
        rename_i t' _ hy'
        rw [hy] at hy'; cases hy'
        obtain ⟨rfl, _⟩ := hop1
        rfl
      · simp only [specStep] at hop1
        split at hop1 <;> simp at hop1
        rename_i t' _ hy' _
        rw [hy] at hy'; cases hy'
        obtain ⟨rfl, _⟩ := hop1
        rfl
    rw [h3]
    rcases hz with rfl | rfl
    · exact ⟨_, upd_same _ _ _, number_snd _ _⟩
    · exact ⟨t, by simp [Ne.symm hxy, hy], rfl⟩
  obtain ⟨s, hs1, hs2⟩ := this
  refine ⟨max F (s.length + 1), st', its', fun fuel hf => ⟨h1 fuel (by omega), ?_⟩⟩
  rw [toList_spec A.world hs1 (by omega), hs2]

/-- The source is changed and destroyed after the copy. -/
example : ∃ (F : Nat) (st st' : FSt Nat) (its its' : Its) (outs : List (Out Nat)), ∀ fuel, F ≤ fuel →
    runOps fuel its [.newCopy 1 0, .pushFront 0 8, .destroy 0] st = .ok (its', outs) st' ∧
    toList fuel 1 st' = .ok [6, 5] st' := by
  obtain ⟨st, its, hr⟩ := Reach.of_spec (V := Nat) (ops := [.new 0, .pushFront 0 5, .pushFront 0 6]) rfl
  obtain ⟨F, st', its', h⟩ := C28_flist_copy_independent hr (x := 1) (y := 0) (u := 3)
    (t := [(1, 6), (0, 5)])
    (by decide) rfl (op := .newCopy 1 0) (Or.inl rfl) (ops := [.pushFront 0 8, .destroy 0]) rfl (z := 1)
    (Or.inl rfl) (by simp [Op.mutates])
  exact ⟨F, st, st', its, its', _, h⟩

/-! ### C77, C78 -/

/-- Every allocated block belongs to some list variable's contents. -/
def NoGarbage (st : FSt V) (e : Env V) : Prop :=
  ∀ a, st.mem a ≠ none → ∃ x s, e.lists x = some s ∧ a ∈ s.map Prod.fst

/-- The full claim of C77: a copy construction that throws changes nothing and leaks nothing. -/
def C77_full_statement (V : Type) : Prop :=
  ∀ (st : FSt V) (its : Its) (e : Env V) (x y k : Nat) (t : Seq V), Reach st its e →
    e.lists x = none → e.lists y = some t → k < 2 * t.length →
    ∃ ex st', (∀ fuel, t.length < fuel → copyCtor fuel x y (arm st (some k)) = .throw ex st') ∧
      st'.objs = st.objs ∧ (∀ a, st.mem a ≠ none → st'.mem a = st.mem a) ∧ NoGarbage st' e

/-- **C77 (part that holds).** Whichever of the `2 * size` allocations and element copies fails, the
exception propagates without undefined behaviour, no variable and no existing node changes, and the new
variable does not exist.  Missing: the nodes built before the failure are never released: exactly
`(k+1)/2` blocks are leaked. -/
theorem C77_flist_copy_throw_partial {st : FSt V} {its : Its} {e : Env V} (h : Reach st its e)
    {x y k : Nat} {t : Seq V} (hx : e.lists x = none) (hy : e.lists y = some t)
    (hk : k < 2 * t.length) :
    ∃ st', (∀ fuel, t.length < fuel → copyCtor fuel x y (arm st (some k)) =
        .throw (if k % 2 = 0 then .badAlloc else .elem) st') ∧
      st'.objs = st.objs ∧ st'.objs x = none ∧ (∀ a, st.mem a ≠ none → st'.mem a = st.mem a) ∧
      st'.next = st.next + (k+1)/2 ∧
      (∀ a, st.next ≤ a → a < st'.next → st'.mem a ≠ none) := by
  have W := h.agree.world
  obtain ⟨st', h1, h2, h3, h4, h5, h6, _⟩ := copyCtor_throw W hx hy hk
  refine ⟨st', h1, h2, by rw [h2]; exact W.dom x hx, fun a ha => h5 a ?_, h4, h6⟩
  apply Classical.byContradiction
  intro hc
  exact ha (W.fresh a (by omega))

/-- **C77 (violation).** If anything but the very first allocation fails, the first new node is leaked:
it stays allocated and belongs to no list. -/
theorem C77_flist_copy_throw_leak {st : FSt V} {its : Its} {e : Env V} (h : Reach st its e)
    {x y k : Nat} {t : Seq V} (hx : e.lists x = none) (hy : e.lists y = some t)
    (hk : k < 2 * t.length) (h0 : 0 < k) :
    ∃ ex st', (∀ fuel, t.length < fuel → copyCtor fuel x y (arm st (some k)) = .throw ex st') ∧
      st'.mem st.next ≠ none ∧ ∀ z s, e.lists z = some s → st.next ∉ s.map Prod.fst := by
  obtain ⟨st', h1, _, _, _, h5, h6⟩ := C77_flist_copy_throw_partial h hx hy hk
  refine ⟨_, st', h1, h6 _ (Nat.le_refl _) (by rw [h5]; omega), ?_⟩
  intro z s hz hm
  exact absurd (W_idlt h.agree.world hz hm) (Nat.lt_irrefl _)

theorem C77_flist_copy_throw_refuted : ¬ C77_full_statement Nat := by
  intro hall
  obtain ⟨st, its, hr⟩ := Reach.of_spec (V := Nat) (ops := [.new 0, .pushFront 0 5]) rfl
  obtain ⟨ex, st1, h1, _, _, h4⟩ := hall st its _ 1 0 1 [(0, 5)] hr rfl rfl (by decide)
  obtain ⟨ex', st2, h5, h6, h7⟩ := C77_flist_copy_throw_leak hr (x := 1) (y := 0) (k := 1) (t := [(0, 5)])
    rfl rfl (by decide) (by decide)
  have e1 := h1 2 (by decide)
  rw [h5 2 (by decide)] at e1
  cases e1
  obtain ⟨z, s, hz, hm⟩ := h4 _ h6
  exact h7 z s hz hm

/-- The full claim of C78 for forward_list. -/
def C78_full_statement (V : Type) : Prop :=
  ∀ (st : FSt V) (its : Its) (e : Env V) (x k n : Nat) (s l r : Seq V) (i : It) (v : V),
    Reach st its e → e.lists x = some s → e.its k = some i → splitAfter x s i = some (l, r) → n < 2 →
    ∃ p ex st', getIt its k st = .ok p st ∧ insertAfter p v (arm st (some n)) = .throw ex st' ∧
      st'.objs = st.objs ∧ (∀ a, st.mem a ≠ none → st'.mem a = st.mem a) ∧ NoGarbage st' e

/-- **C78 (part that holds, forward_list).** An `insert_after` that throws leaves every list and node as
it was; if the allocation fails the state is exactly the old one. Missing: if the element copy throws
the allocated node is leaked. -/
theorem C78_flist_insert_throw_partial {st : FSt V} {its : Its} {e : Env V} (h : Reach st its e)
    {x k : Nat} {s l r : Seq V} {i : It} (v : V) (hx : e.lists x = some s) (hk : e.its k = some i)
    (hsp : splitAfter x s i = some (l, r)) :
    ∃ p st', getIt its k st = .ok p st ∧ insertAfter p v (arm st (some 0)) = .throw .badAlloc st ∧
      insertAfter p v (arm st (some 1)) = .throw .elem st' ∧ st'.objs = st.objs ∧
      (∀ a, st.mem a ≠ none → st'.mem a = st.mem a) ∧
      st'.mem st.next ≠ none ∧ ∀ z s, e.lists z = some s → st.next ∉ s.map Prod.fst := by
  have A := h.agree
  have W := A.world
  obtain ⟨rfl, hp⟩ := splitAfter_some hsp
  obtain ⟨h1, h2⟩ := insertAfter_throw W hx v
  refine ⟨toPtr i, ⟨st.objs, upd st.mem st.next (some ⟨.null, none⟩), st.next + 1, none⟩,
    getIt_eq A hk, by rw [hp]; exact h1, by rw [hp]; exact h2, rfl, ?_, by simp, ?_⟩
  · intro a ha
    have : a ≠ st.next := by
      rintro rfl; exact ha (W.fresh _ (Nat.le_refl _))
    simp [this]
  · intro z s hz hm
    exact absurd (W_idlt W hz hm) (Nat.lt_irrefl _)

theorem C78_flist_insert_throw_refuted : ¬ C78_full_statement Nat := by
  intro hall
  obtain ⟨st, its, hr⟩ := Reach.of_spec (V := Nat) (ops := [.new 0, .pushFront 0 5, .before 0 0]) rfl
  obtain ⟨p, ex, st1, h1, h2, _, _, h4⟩ := hall st its _ 0 0 1 [(0, 5)] [] [(0, 5)] (.before 0) 7 hr
    rfl rfl rfl (by decide)
  obtain ⟨p', st2, g1, _, g3, _, _, g6, g7⟩ := C78_flist_insert_throw_partial hr (x := 0) (k := 0)
    (s := [(0, 5)]) (l := []) (r := [(0, 5)]) (i := .before 0) 7 rfl rfl rfl
  rw [h1] at g1; cases g1
  rw [h2] at g3; cases g3
  obtain ⟨z, s, hz, hm⟩ := h4 _ g6
  exact g7 z s hz hm

end Cest.FL
