import Verif.Str.More
/-
Properties C39–C49, C81 and C114 of cest::basic_string.
-/
namespace Cest.Str
open Cest
variable {V : Type} [DecidableEq V] {t : Traits V} {st : SSt V} {e : Env V}

/-- `st` is a state reached by some client program that respects the preconditions of the interface
(`specStep`), and `e` gives the contents that the specification assigns to the variables there. -/
def Reach (t : Traits V) (st : SSt V) (e : Env V) : Prop :=
  ∃ ops outs, specRun t.nul t.lt Env.none ops = some (e, outs) ∧ runOps t ops St.init = .ok outs st

theorem Reach.world (ht : t.Lawful) (h : Reach t st e) : ∃ σ, SW t st σ ∧ envOf σ = e := by
  obtain ⟨ops, outs, h1, h2⟩ := h
  obtain ⟨st', σ', r, W, he⟩ := run_refines ht (World.init (I := iface t)) rfl h1
  rw [h2] at r; cases r
  exact ⟨σ', W, he⟩

theorem Reach.of_spec (ht : t.Lawful) {ops : List (Op V)} {outs : List (Out V)}
    (h : specRun t.nul t.lt Env.none ops = some (e, outs)) : ∃ st, Reach t st e := by
  obtain ⟨st, _, h3, _⟩ := run_refines ht (World.init (I := iface t)) rfl h
  exact ⟨st, ops, outs, h, h3⟩

/-- Ordinary characters: numbers with terminator 0, compared as numbers. -/
def natTraits (same : Bool) : Traits Nat := ⟨0, fun a b => decide (a < b), same⟩
theorem natTraits_lawful (b : Bool) : (natTraits b).Lawful := by
  refine ⟨?_, ?_, ?_⟩
  · intro a; simp [natTraits]
  · intro a b c; simp [natTraits]; omega
  · intro a b; simp [natTraits]; omega

/-! ### C39 -/

/-- **C39.** At every point of every program, a string's terminator is in place and readable at
`data()[size()]`, `size() ≤ capacity()` and `capacity() ≥ 1`. -/
theorem C39_string_terminated (ht : t.Lawful) (h : Reach t st e) {x : Nat} {xs : List V}
    (hx : e x = some xs) :
    ∃ c, size x st = .ok xs.length st ∧ get x xs.length st = .ok t.nul st ∧
      capacity x st = .ok c st ∧ xs.length ≤ c ∧ 1 ≤ c := by
  obtain ⟨σ, W, rfl⟩ := h.world ht
  obtain ⟨s, hs, rfl⟩ := envOf_some rfl hx
  obtain ⟨h1, h2, h3⟩ := get_rep W hs
  have := SV.val_length h3
  have := h3.lt
  have := h3.two
  exact ⟨s.buf.length - 1, size_spec W hs, get_spec W hs (by simp), by simp [capacity, h1, SV.obj],
    by omega, by omega⟩

example : ∃ st e, Reach (natTraits false) st e ∧ e 0 = some [7, 8, 9, 7, 8] := by
  obtain ⟨st, h⟩ := Reach.of_spec (natTraits_lawful false) (ops := [.newC 0 (.ext [7, 8, 0] 0),
    .pushBack 0 9, .append 0 (.str 0 0) 2]) rfl
  exact ⟨st, _, h, rfl⟩

/-! ### C40 -/

/-- **C40.** Every program that respects the preconditions runs without undefined behaviour, exception
or divergence, and every observation is that of mathematical character sequences. -/
theorem C40_string_history (ht : t.Lawful) {ops : List (Op V)} {outs : List (Out V)}
    (h : specRun t.nul t.lt Env.none ops = some (e, outs)) :
    ∃ st, runOps t ops St.init = .ok outs st := by
  obtain ⟨st, σ, r, _, _⟩ := run_refines ht (World.init (I := iface t)) rfl h
  exact ⟨st, r⟩

/-- Growth, self-append, assignment, copying, searching and comparison in one program. -/
example : (specRun (0 : Nat) (fun a b => decide (a < b)) Env.none
    [.newC 0 (.ext [1, 2, 0] 0), .pushBack 0 3, .appendStr 0 0, .toList 0, .newCopy 1 0, .popBack 1,
     .lt 1 0, .findC 0 (.ext [3, 1, 0] 0) 0, .assignC 0 (.str 1 2), .toList 0, .newInput 2 [9, 0, 9],
     .set 2 1 4, .get 2 3, .eq 0 1, .compare 2 1, .clear 2, .empty 2, .destroy 1, .back 0]).map Prod.snd =
    some [.unit, .unit, .unit, .vals [1, 2, 3, 1, 2, 3], .unit, .unit, .bool true, .idx (some 2), .unit,
     .vals [3, 1, 2], .unit, .unit, .val 0, .bool false, .ord .gt, .unit, .bool true, .unit, .val 2] := rfl

/-! ### C41 -/

/-- **C41.** `s += s` / `s.append(s)` doubles the string, whether or not it reallocates, and leaves
every other string alone. -/
theorem C41_string_self_append (ht : t.Lawful) (h : Reach t st e) {x : Nat} {xs : List V}
    (hx : e x = some xs) :
    ∃ st', appendStr t x x st = .ok () st' ∧ toList x st' = .ok (xs ++ xs) st' ∧
      get x (2 * xs.length) st' = .ok t.nul st' ∧
      ∀ y ys, y ≠ x → e y = some ys → toList y st' = .ok ys st' := by
  obtain ⟨σ, W, rfl⟩ := h.world ht
  obtain ⟨st', σ', h1, W', h2⟩ := step_refines ht (op := .appendStr x x) W rfl
    (e' := (envOf σ).set x (some (xs ++ xs))) (o := .unit) (by simp [specStep, hx])
  have hrun : appendStr t x x st = .ok () st' := by
    simp only [runOp, M.bind_apply] at h1
    cases hr : appendStr t x x st with
    | ok u s => rw [hr] at h1; simp at h1; rw [h1]
    | throw _ _ => rw [hr] at h1; simp at h1
    | ub _ => rw [hr] at h1; simp at h1
    | timeout => rw [hr] at h1; simp at h1
  obtain ⟨s', hs', hv⟩ := envOf_some h2 (x := x) (xs := xs ++ xs) (by simp [Env.set])
  refine ⟨st', hrun, by rw [toList_spec W' hs', hv], ?_, ?_⟩
  · refine get_spec W' hs' ?_
    rw [hv, List.getElem?_append_right (by simp; omega)]
    have e1 : 2 * xs.length - (xs ++ xs).length = 0 := by simp; omega
    rw [e1]; rfl
  · intro y ys hy hys
    obtain ⟨sy, hsy, hvy⟩ := envOf_some h2 (x := y) (xs := ys) (by simp [Env.set, hy, hys])
    rw [toList_spec W' hsy, hvy]

/-- C41 applies to a string with spare capacity (`size 1, capacity 4`: no reallocation) and to a full
one (`size 2, capacity 2`). -/
example : ∃ st e, Reach (natTraits false) st e ∧ e 0 = some [5] ∧ e 1 = some [5, 6] := by
  obtain ⟨st, h⟩ := Reach.of_spec (natTraits_lawful false) (ops := [.new 0, .reserve 0 4, .pushBack 0 5,
    .new 1, .append 1 (.ext [5, 6] 0) 2]) rfl
  exact ⟨st, _, h, rfl, rfl⟩

/-! ### C42 -/

/-- The full claim of C42: a copy holds the contents of its source. -/
def C42_full_statement : Prop :=
  ∀ (st : SSt Nat) (e : Env Nat) (x y : Nat) (ys : List Nat), Reach (natTraits true) st e → e x = none →
    e y = some ys → ∃ st', copyCtor (natTraits true) x y st = .ok () st' ∧ toList x st' = .ok ys st'

/-- **C42 (what copying does).** Copy construction and assignment between different strings succeed,
and the target holds the source's characters up to the first terminator; the source is unchanged. -/
theorem C42_string_copy_truncates (ht : t.Lawful) (h : Reach t st e) {x y : Nat} {ys : List V}
    (hy : e y = some ys) :
    (e x = none → ∃ st', copyCtor t x y st = .ok () st' ∧
      toList x st' = .ok (ys.takeWhile (· ≠ t.nul)) st' ∧ toList y st' = .ok ys st') ∧
    (∀ xs, e x = some xs → x ≠ y → ∃ st', assign t x y st = .ok () st' ∧
      toList x st' = .ok (ys.takeWhile (· ≠ t.nul)) st' ∧ toList y st' = .ok ys st') := by
  obtain ⟨σ, W, rfl⟩ := h.world ht
  obtain ⟨s, hs, rfl⟩ := envOf_some rfl hy
  constructor
  · intro hx
    have hyx : y ≠ x := by intro hh; subst hh; simp [hx] at hy
    obtain ⟨st', s', h1, W', h2⟩ := copyCtor_gen W (envOf_none rfl hx) hs
    exact ⟨st', h1, by rw [toList_spec W' (x := x) (s := s') (by simp), h2],
      toList_spec W' (by simp [hyx, hs])⟩
  · intro xs hx hxy
    obtain ⟨sx, hsx, rfl⟩ := envOf_some rfl hx
    obtain ⟨st', s', h1, W', h2⟩ := assign_gen W hsx hs hxy
    exact ⟨st', h1, by rw [toList_spec W' (x := x) (s := s') (by simp), h2],
      toList_spec W' (by simp [Ne.symm hxy, hs])⟩

/-- **C42 (part that holds).** If the source contains no terminator character, the copy is exact.
Missing: sources with embedded terminators (next theorem). -/
theorem C42_string_copy_partial (ht : t.Lawful) (h : Reach t st e) {x y : Nat} {ys : List V}
    (hy : e y = some ys) (hnul : t.nul ∉ ys) :
    (e x = none → ∃ st', copyCtor t x y st = .ok () st' ∧ toList x st' = .ok ys st' ∧
      toList y st' = .ok ys st') ∧
    (∀ xs, e x = some xs → x ≠ y → ∃ st', assign t x y st = .ok () st' ∧ toList x st' = .ok ys st' ∧
      toList y st' = .ok ys st') := by
  have e1 : ys.takeWhile (· ≠ t.nul) = ys := by
    clear hy
    induction ys with
    | nil => rfl
    | cons a ys ih =>
      simp at hnul
      rw [List.takeWhile_cons, if_pos (by simpa using fun h => hnul.1 h.symm), ih hnul.2]
  have := C42_string_copy_truncates (x := x) ht h hy
  rw [e1] at this
  exact this

/-- **C42 is false**: the copy of the three-character string `5,0,6` has one character. -/
theorem C42_string_copy_refuted : ¬ C42_full_statement := by
  intro hall
  obtain ⟨st, hr⟩ := Reach.of_spec (natTraits_lawful true) (ops := [.newPC 0 (.ext [5, 0, 6] 0) 3]) rfl
  obtain ⟨st1, h1, h2⟩ := hall st _ 1 0 [5, 0, 6] hr rfl rfl
  obtain ⟨st2, h3, h4, _⟩ := (C42_string_copy_truncates (x := 1) (natTraits_lawful true) hr (y := 0)
    (ys := [5, 0, 6]) rfl).1 rfl
  rw [h1] at h3; cases h3
  rw [h2] at h4; cases h4

/-- After a copy, whatever is done to one of the two leaves the other alone: operations change only the
variables they name. -/
theorem specStep_frame {nul : V} {lt : V → V → Bool} {e e' : Env V} {op : Op V} {o : Out V}
    (hs : specStep nul lt e op = some (e', o)) {z : Nat} (hz : z ∉ op.mutates) : e' z = e z := by
  cases op <;> simp only [specStep] at hs <;>
    (repeat' (split at hs)) <;> simp_all [Op.mutates] <;>
    (try (obtain ⟨rfl, rfl⟩ := hs; simp [hz, Env.set])) <;>
    (try (obtain ⟨_, rfl, rfl⟩ := hs; simp [hz, Env.set]))

theorem specRun_frame {nul : V} {lt : V → V → Bool} {ops : List (Op V)} {e e' : Env V}
    {outs : List (Out V)} (hs : specRun nul lt e ops = some (e', outs)) {z : Nat}
    (hz : ∀ op ∈ ops, z ∉ op.mutates) : e' z = e z := by
  induction ops generalizing e outs with
  | nil => simp [specRun] at hs; rw [hs.1]
  | cons op ops ih =>
    simp only [specRun] at hs
    split at hs <;> try simp at hs
    rename_i e1 o h1
    split at hs <;> simp at hs
    rename_i e2 os h2
    obtain ⟨rfl, rfl⟩ := hs
    rw [ih h2 (fun op' h => hz op' (List.mem_cons_of_mem _ h)),
      specStep_frame h1 (hz op List.mem_cons_self)]

/-- **C42 (independence).** -/
theorem C42_string_copy_independent (ht : t.Lawful) (h : Reach t st e) {x y : Nat} {ys : List V}
    (hxy : x ≠ y) (hy : e y = some ys) {op : Op V} (hop : op = .newCopy x y ∨ op = .assign x y)
    {ops : List (Op V)} {e' : Env V} {outs : List (Out V)}
    (hs : specRun t.nul t.lt e (op :: ops) = some (e', outs)) {z : Nat} (hz : z = x ∨ z = y)
    (hnm : ∀ op ∈ ops, z ∉ op.mutates) :
    ∃ st', runOps t (op :: ops) st = .ok outs st' ∧ toList z st' = .ok ys st' := by
  obtain ⟨σ, W, rfl⟩ := h.world ht
  obtain ⟨st', σ', h1, W', h2⟩ := run_refines ht W rfl hs
  have hv : e' z = some ys := by
    simp only [specRun] at hs
    split at hs <;> try simp at hs
    rename_i e1 o h3
    split at hs <;> simp at hs
    rename_i e2 os h4
    obtain ⟨rfl, rfl⟩ := hs
    rw [specRun_frame h4 hnm]
    rcases hop with rfl | rfl
    · simp only [specStep] at h3
      split at h3 <;> simp at h3
      rename_i ys' hx' hy'
      obtain ⟨_, rfl, _⟩ := h3
      rw [hy] at hy'; cases hy'
      rcases hz with rfl | rfl
      · simp [Env.set]
      · simp [Env.set, hy]
    · simp only [specStep] at h3
      split at h3 <;> simp at h3
      rename_i xs' ys' hx' hy'
      obtain ⟨_, rfl, _⟩ := h3
      rw [hy] at hy'; cases hy'
      rcases hz with rfl | rfl
      · simp [Env.set]
      · simp [Env.set, hy]
  obtain ⟨s, hs', hv'⟩ := envOf_some h2 hv
  exact ⟨st', h1, by rw [toList_spec W' hs', hv']⟩

/-- The source grows and dies after the copy. -/
example : ∃ st st' outs, runOps (natTraits false)
    [.newCopy 1 0, .appendStr 0 1, .destroy 0] st = .ok outs st' ∧ toList 1 st' = .ok [5, 6] st' := by
  obtain ⟨st, hr⟩ := Reach.of_spec (natTraits_lawful false) (ops := [.newPC 0 (.ext [5, 6] 0) 2]) rfl
  obtain ⟨st', h⟩ := C42_string_copy_independent (natTraits_lawful false) hr (x := 1) (y := 0)
    (ys := [5, 6]) (by decide) rfl (op := .newCopy 1 0) (Or.inl rfl) (ops := [.appendStr 0 1, .destroy 0])
    rfl (z := 1) (Or.inl rfl) (by simp [Op.mutates])
  exact ⟨st, st', _, h⟩

/-! ### C43 -/

/-- The full claim of C43: self-assignment changes nothing. -/
def C43_full_statement (t : Traits Nat) : Prop :=
  ∀ (st : SSt Nat) (e : Env Nat) (x : Nat) (xs : List Nat), Reach t st e → e x = some xs →
    ∃ st', assign t x x st = .ok () st' ∧ toList x st' = .ok xs st'

/-- **C43 (part that holds).** If `Traits::copy` tolerates identical ranges (an assumption the standard
does not give), a string with spare capacity and no embedded terminator is left exactly as it is.
Missing: full strings, embedded terminators, and traits without that guarantee. -/
theorem C43_string_self_assign_partial (ht : t.Lawful) (h : Reach t st e) {x c : Nat} {xs : List V}
    (hx : e x = some xs) (hnul : t.nul ∉ xs) (hc : capacity x st = .ok c st) (hlt : xs.length < c)
    (hsame : t.copySame = true) : assign t x x st = .ok () st := by
  obtain ⟨σ, W, rfl⟩ := h.world ht
  obtain ⟨s, hs, rfl⟩ := envOf_some rfl hx
  obtain ⟨h1, h2, h3⟩ := get_rep W hs
  have hl := SV.val_length h3
  simp [capacity, h1, SV.obj] at hc
  exact assign_self_same W hs hnul (by omega) hsame

/-- **C43 (violation).** Assigning a full string to itself frees its buffer and then copies from it. -/
theorem C43_string_self_assign_full_ub (ht : t.Lawful) (h : Reach t st e) {x : Nat} {xs : List V}
    (hx : e x = some xs) (hnul : t.nul ∉ xs) (hc : capacity x st = .ok xs.length st) :
    assign t x x st = .ub .dangling := by
  obtain ⟨σ, W, rfl⟩ := h.world ht
  obtain ⟨s, hs, rfl⟩ := envOf_some rfl hx
  obtain ⟨h1, h2, h3⟩ := get_rep W hs
  have hl := SV.val_length h3
  have := h3.two
  simp [capacity, h1, SV.obj] at hc
  exact assign_self_full W hs hnul (by omega)

/-- **C43 (violation).** With the standard's contract for `Traits::copy`, self-assignment of a string
with spare capacity is undefined as well. -/
theorem C43_string_self_assign_overlap_ub (ht : t.Lawful) (h : Reach t st e) {x c : Nat} {xs : List V}
    (hx : e x = some xs) (hnul : t.nul ∉ xs) (hc : capacity x st = .ok c st) (hlt : xs.length < c)
    (hsame : t.copySame = false) : assign t x x st = .ub .overlap := by
  obtain ⟨σ, W, rfl⟩ := h.world ht
  obtain ⟨s, hs, rfl⟩ := envOf_some rfl hx
  obtain ⟨h1, h2, h3⟩ := get_rep W hs
  have hl := SV.val_length h3
  simp [capacity, h1, SV.obj] at hc
  exact assign_self_overlap W hs hnul (by omega) hsame

/-- A full string: `string s; s.append("56", 2);`. -/
theorem reach_full (b : Bool) : ∃ st e, Reach (natTraits b) st e ∧ e 0 = some [5, 6] ∧
    capacity 0 st = .ok 2 st := by
  obtain ⟨st1, s1, h1, W1, v1, l1⟩ := ctor_spec' (t := natTraits b) (x := 0)
    (World.init (I := iface (natTraits b))) rfl
  have hs1 : upd (fun _ => none) 0 (some s1) 0 = some s1 := rfl
  obtain ⟨st2, s2, h2, W2, v2, l2⟩ := append_spec' (t := natTraits b) W1 hs1 (Sees.ext st1 [5, 6] 0)
    (n := 2) (by simp) (by intro off h; cases h)
  have hs2 : upd (upd (fun _ => none) 0 (some s1)) 0 (some s2) 0 = some s2 := rfl
  have hn : s1.n = 0 := by rw [← SV.val_length (get_rep W1 hs1).2.2, v1]; rfl
  refine ⟨st2, _, ⟨[.new 0, .append 0 (.ext [5, 6] 0) 2], _, rfl, ?_⟩, rfl, ?_⟩
  · simp [runOps, runOp, Arg.eval, h1, h2]
  · simp [capacity, (get_rep W2 hs2).1, SV.obj, l1, l2, hn]

/-- A string with spare capacity: `string s("5", 1);`. -/
theorem reach_spare (b : Bool) : ∃ st e, Reach (natTraits b) st e ∧ e 0 = some [5] ∧
    capacity 0 st = .ok 2 st := by
  obtain ⟨st1, s1, h1, W1, v1, l1⟩ := ctorPC_spec' (t := natTraits b) (x := 0)
    (World.init (I := iface (natTraits b))) rfl (Sees.ext St.init [5] 0) (n := 1) (by simp)
  have hs1 : upd (fun _ => none) 0 (some s1) 0 = some s1 := rfl
  refine ⟨st1, _, ⟨[.newPC 0 (.ext [5] 0) 1], _, rfl, ?_⟩, rfl, ?_⟩
  · simp [runOps, runOp, Arg.eval, h1]
  · simp [capacity, (get_rep W1 hs1).1, SV.obj, l1]

/-- **C43 is false** whatever the traits: `s.append("56"); s = s;`. -/
theorem C43_string_self_assign_refuted (b : Bool) : ¬ C43_full_statement (natTraits b) := by
  intro hall
  obtain ⟨st, e, hr, hx, hc⟩ := reach_full b
  obtain ⟨st', h1, _⟩ := hall st e 0 _ hr hx
  rw [C43_string_self_assign_full_ub (natTraits_lawful b) hr hx (by simp [natTraits]) hc] at h1
  cases h1

/-- The hypotheses of the partial theorem are met. -/
example : ∃ st, assign (natTraits true) 0 0 st = .ok () st ∧ toList 0 st = .ok [5] st := by
  obtain ⟨st, e, hr, hx, hc⟩ := reach_spare true
  obtain ⟨σ, W, he⟩ := hr.world (natTraits_lawful true)
  obtain ⟨s, hs, hv⟩ := envOf_some he hx
  exact ⟨st, C43_string_self_assign_partial (natTraits_lawful true) hr hx (by simp [natTraits]) hc
    (by simp) rfl, by rw [toList_spec W hs, hv]⟩

/-! ### C44 -/

/-- `needle` occurs at position `i`. -/
def OccursAt (hay needle : List V) (i : Nat) : Prop :=
  i + needle.length ≤ hay.length ∧ ∀ k, k < needle.length → hay[i + k]? = needle[k]?

/-- `r` is the first position from `pos` on at which `needle` occurs. -/
def IsFirst (hay needle : List V) (pos : Nat) : Option Nat → Prop
  | some i => pos ≤ i ∧ OccursAt hay needle i ∧ ∀ j, pos ≤ j → j < i → ¬ OccursAt hay needle j
  | none => ∀ j, pos ≤ j → ¬ OccursAt hay needle j

theorem occurs_iff (hay needle : List V) (i : Nat) : Occurs hay needle i ↔ OccursAt hay needle i := by
  constructor
  · intro h
    refine ⟨occurs_len h, ?_⟩
    intro k hk
    obtain ⟨w, hw⟩ := h.1
    have : hay[i + k]? = (hay.drop i)[k]? := by rw [List.getElem?_drop]
    rw [this, ← hw, List.getElem?_append_left hk]
  · rintro ⟨h1, h2⟩
    refine ⟨?_, by omega⟩
    rw [prefix_iff_take]
    apply List.ext_getElem?
    intro k
    rw [List.getElem?_take]
    split
    · next hk => rw [List.getElem?_drop, h2 k hk]
    · next hk => rw [List.getElem?_eq_none (by omega)]

theorem isFirst_firstMatch (hay needle : List V) (pos : Nat) :
    IsFirst hay needle pos (firstMatch hay needle pos) := by
  have h := (firstMatch_iff (hay := hay) (needle := needle) (pos := pos)
    (r := firstMatch hay needle pos)).1 rfl
  generalize firstMatch hay needle pos = r at h
  cases r <;> simpa only [IsFirst, occurs_iff] using h

/-- **C44.** `find(s, pos, count)` returns the first occurrence of the `count` characters at `s` that
starts at or after `pos`, or npos; the search reads only characters of the two sequences (reading
anywhere else is undefined behaviour of the machine). The arguments may point into the string itself. -/
theorem C44_string_find (ht : t.Lawful) (h : Reach t st e) {x : Nat} {xs : List V} (hx : e x = some xs)
    {a : Arg V} {count : Nat} {needle : List V} (ha : chars t.nul e a count = some needle) (pos : Nat) :
    ∃ p r, a.eval st = .ok p st ∧ findPC t x p pos count st = .ok r st ∧ IsFirst xs needle pos r := by
  obtain ⟨σ, W, rfl⟩ := h.world ht
  obtain ⟨s, hs, rfl⟩ := envOf_some rfl hx
  obtain ⟨v, hv, hn, rfl⟩ := chars_view ha
  obtain ⟨p, hp, hsee, _⟩ := arg_sees W rfl hv
  have h1 := findPC_spec ht W hs (hsee.take count) pos
  have e1 : (v.take count).length = count := by simp; omega
  rw [e1] at h1
  exact ⟨p, _, hp, h1, isFirst_firstMatch _ _ _⟩

/-- **C44 (C string).** `find(s, pos)` searches for the characters before the terminator. -/
theorem C44_string_find_cstr (ht : t.Lawful) (h : Reach t st e) {x : Nat} {xs : List V}
    (hx : e x = some xs) {a : Arg V} {needle : List V} (ha : cstr t.nul e a = some needle) (pos : Nat) :
    ∃ p r, a.eval st = .ok p st ∧ findC t x p pos st = .ok r st ∧ IsFirst xs needle pos r := by
  obtain ⟨σ, W, rfl⟩ := h.world ht
  obtain ⟨s, hs, rfl⟩ := envOf_some rfl hx
  obtain ⟨v, hv, hn, rfl⟩ := cstr_view ha
  obtain ⟨p, hp, hsee, _⟩ := arg_sees W rfl hv
  exact ⟨p, _, hp, findC_spec ht W hs hsee hn pos, isFirst_firstMatch _ _ _⟩

/-- **C44 (empty needle).** An empty needle is found at `pos` if `pos ≤ size()`, else not at all. -/
theorem C44_string_find_empty (ht : t.Lawful) (h : Reach t st e) {x : Nat} {xs : List V}
    (hx : e x = some xs) (p : Ptr V) (pos : Nat) :
    findPC t x p pos 0 st = .ok (if pos ≤ xs.length then some pos else none) st := by
  obtain ⟨σ, W, rfl⟩ := h.world ht
  obtain ⟨s, hs, rfl⟩ := envOf_some rfl hx
  obtain ⟨h1, _, h3⟩ := get_rep W hs
  simp [findPC, h1, SV.obj, SV.val_length h3]

/-- An occurrence that needs the search to resume inside a partial match. -/
example : IsFirst [1, 1, 2, 1, 1, 2, 1, 3] [1, 1, 2, 1, 3] 0 (some 3) ∧
    IsFirst [1, 1, 2] [1, 2, 3] 0 none := by
  have h1 := isFirst_firstMatch [1, 1, 2, 1, 1, 2, 1, 3] [1, 1, 2, 1, 3] 0
  have h2 := isFirst_firstMatch [1, 1, 2] [1, 2, 3] 0
  exact ⟨h1, h2⟩

/-- The full claim for `find(str, pos)`. -/
def C44_find_str_full_statement : Prop :=
  ∀ (st : SSt Nat) (e : Env Nat) (x y pos : Nat) (xs ys : List Nat), Reach (natTraits true) st e →
    e x = some xs → e y = some ys →
    ∃ r, findStr (natTraits true) x y pos st = .ok r st ∧ IsFirst xs ys pos r

/-- **C44, `find(str, pos)` (what it does).** It searches for the needle's characters up to the first
terminator. -/
theorem C44_string_find_str_truncates (ht : t.Lawful) (h : Reach t st e) {x y : Nat} {xs ys : List V}
    (hx : e x = some xs) (hy : e y = some ys) (pos : Nat) :
    ∃ r, findStr t x y pos st = .ok r st ∧ IsFirst xs (ys.takeWhile (· ≠ t.nul)) pos r := by
  obtain ⟨σ, W, rfl⟩ := h.world ht
  obtain ⟨s, hs, rfl⟩ := envOf_some rfl hx
  obtain ⟨s2, hs2, rfl⟩ := envOf_some rfl hy
  exact ⟨_, findStr_gen ht W hs hs2 pos, isFirst_firstMatch _ _ _⟩

/-- **C44, `find(str, pos)` (part that holds).** Missing: needles with embedded terminators. -/
theorem C44_string_find_str_partial (ht : t.Lawful) (h : Reach t st e) {x y : Nat} {xs ys : List V}
    (hx : e x = some xs) (hy : e y = some ys) (hnul : t.nul ∉ ys) (pos : Nat) :
    ∃ r, findStr t x y pos st = .ok r st ∧ IsFirst xs ys pos r := by
  obtain ⟨σ, W, rfl⟩ := h.world ht
  obtain ⟨s, hs, rfl⟩ := envOf_some rfl hx
  obtain ⟨s2, hs2, rfl⟩ := envOf_some rfl hy
  exact ⟨_, findStr_spec ht W hs hs2 hnul pos, isFirst_firstMatch _ _ _⟩

/-- **C44 for `find(str, pos)` is false**: `"5"` is reported to contain the needle `5,0,6`. -/
theorem C44_string_find_str_refuted : ¬ C44_find_str_full_statement := by
  intro hall
  obtain ⟨st, hr⟩ := Reach.of_spec (natTraits_lawful true)
    (ops := [.newC 0 (.ext [5, 0] 0), .newPC 1 (.ext [5, 0, 6] 0) 3]) rfl
  obtain ⟨r, h1, h2⟩ := hall st _ 0 1 0 [5] [5, 0, 6] hr rfl rfl
  obtain ⟨r', h3, h4⟩ := C44_string_find_str_truncates (natTraits_lawful true) hr (x := 0) (y := 1)
    (xs := [5]) (ys := [5, 0, 6]) rfl rfl 0
  rw [h1] at h3; cases h3
  cases r with
  | none => exact absurd (show OccursAt [5] [5] 0 from ⟨by simp, by simp⟩) (h4 0 (Nat.le_refl _))
  | some i =>
    have := h2.2.1.1
    simp at this

/-! ### C45 -/

/-- `r` is the first position from `pos` on that holds `c`. -/
def IsFirstChar (hay : List V) (c : V) (pos : Nat) : Option Nat → Prop
  | some i => pos ≤ i ∧ hay[i]? = some c ∧ ∀ j, pos ≤ j → j < i → hay[j]? ≠ some c
  | none => ∀ j, pos ≤ j → hay[j]? ≠ some c

/-- The full claim of C45. -/
def C45_full_statement : Prop :=
  ∀ (st : SSt Nat) (e : Env Nat) (x pos : Nat) (xs : List Nat) (c : Nat), Reach (natTraits true) st e →
    e x = some xs → ∃ r, findCh x c pos st = .ok r st ∧ IsFirstChar xs c pos r

/-- **C45 (what it does).** `find(ch, pos)` returns the first position holding `ch`, whatever `pos`. -/
theorem C45_string_find_char_ignores_pos (ht : t.Lawful) (h : Reach t st e) {x : Nat} {xs : List V}
    (hx : e x = some xs) (c : V) (pos : Nat) :
    ∃ r, findCh x c pos st = .ok r st ∧ IsFirstChar xs c 0 r := by
  obtain ⟨σ, W, rfl⟩ := h.world ht
  obtain ⟨s, hs, rfl⟩ := envOf_some rfl hx
  obtain ⟨h1, _, h3⟩ := get_rep W hs
  have l1 := SV.val_length h3
  obtain ⟨r, hr, hr2⟩ := findChar_ok (sees_val W hs) c s.val.length 0 (by omega)
  refine ⟨r, by simp only [findCh, M.bind_apply, getObj_some h1, SV.obj, ← l1]; exact hr, ?_⟩
  cases r with
  | none =>
    intro j _ hc
    have : j < s.val.length := by
      apply Classical.byContradiction
      intro hh
      rw [List.getElem?_eq_none (by omega)] at hc
      simp at hc
    exact hr2 j (by omega) (by omega) hc
  | some i => exact ⟨by omega, hr2.2.2.1, fun j hj hji => hr2.2.2.2 j hj hji⟩

/-- **C45 (part that holds).** If the character does not occur before `pos` (in particular for
`pos = 0`), the result is right. Missing: characters with an occurrence before `pos`. -/
theorem C45_string_find_char_partial (ht : t.Lawful) (h : Reach t st e) {x : Nat} {xs : List V}
    (hx : e x = some xs) (c : V) (pos : Nat) (hno : ∀ j, j < pos → xs[j]? ≠ some c) :
    ∃ r, findCh x c pos st = .ok r st ∧ IsFirstChar xs c pos r := by
  obtain ⟨r, h1, h2⟩ := C45_string_find_char_ignores_pos ht h hx c pos
  refine ⟨r, h1, ?_⟩
  cases r with
  | none => exact fun j _ => h2 j (Nat.zero_le _)
  | some i =>
    refine ⟨?_, h2.2.1, fun j _ hji => h2.2.2 j (Nat.zero_le _) hji⟩
    apply Classical.byContradiction
    intro hc
    exact hno i (by omega) h2.2.1

/-- **C45 is false**: searching `5` in `"55"` from position 1 gives 0. -/
theorem C45_string_find_char_refuted : ¬ C45_full_statement := by
  intro hall
  obtain ⟨st, hr⟩ := Reach.of_spec (natTraits_lawful true) (ops := [.newPC 0 (.ext [5, 5] 0) 2]) rfl
  obtain ⟨r, h1, h2⟩ := hall st _ 0 1 [5, 5] 5 hr rfl
  obtain ⟨r', h3, h4⟩ := C45_string_find_char_ignores_pos (natTraits_lawful true) hr (x := 0)
    (xs := [5, 5]) rfl 5 1
  rw [h1] at h3; cases h3
  cases r with
  | none => exact h2 1 (by omega) rfl
  | some i => exact h4.2.2 0 (by omega) (by have := h2.1; omega) rfl

/-! ### C46 -/

/-- **C46 (compare).** The sign of `compare` is the lexicographic order, whatever the lengths (below
PTRDIFF_MAX); the C-string overload agrees. -/
theorem C46_string_compare (ht : t.Lawful) (h : Reach t st e) {x y : Nat} {xs ys : List V}
    (hx : e x = some xs) (hy : e y = some ys) (hlx : xs.length < maxLen) (hly : ys.length < maxLen) :
    (∃ r, compare t x y st = .ok r st ∧ sign r = lexCmp t.lt xs ys) ∧
    eqGen t x y st = .ok (decide (xs = ys)) st ∧
    lt t x y st = .ok (lexCmp t.lt xs ys == .lt) st ∧
    ∀ a cs, cstr t.nul e a = some cs → cs.length < maxLen → ∃ p, a.eval st = .ok p st ∧
      (∃ r, compareC t x p st = .ok r st ∧ sign r = lexCmp t.lt xs cs) ∧
      eqC t x p st = .ok (decide (xs = cs)) st ∧ neC t x p st = .ok (decide (xs ≠ cs)) st ∧
      ltC t x p st = .ok (lexCmp t.lt xs cs == .lt) st ∧
      cLt t p x st = .ok (lexCmp t.lt cs xs == .lt) st := by
  obtain ⟨σ, W, rfl⟩ := h.world ht
  obtain ⟨s, hs, rfl⟩ := envOf_some rfl hx
  obtain ⟨s2, hs2, rfl⟩ := envOf_some rfl hy
  refine ⟨⟨_, compare_spec W hs hs2, cmpRes_sign _ _ _ hlx hly⟩, ?_, ?_, ?_⟩
  · simp only [eqGen, M.bind_apply, compare_spec W hs hs2, M.pure_apply, cmpRes_zero ht _ _ hlx hly]
  · simp only [lt, M.bind_apply, compare_spec W hs hs2, M.pure_apply, cmpRes_neg _ _ hlx hly]
  · intro a cs ha hl
    obtain ⟨v, hv, hn, rfl⟩ := cstr_view ha
    obtain ⟨p, hp, hsee, _⟩ := arg_sees W rfl hv
    have hc := compareC_spec W hs hsee hn
    refine ⟨p, hp, ⟨_, hc, cmpRes_sign _ _ _ hlx hl⟩, ?_, ?_, ?_, ?_⟩
    · simp only [eqC, M.bind_apply, hc, M.pure_apply, cmpRes_zero ht _ _ hlx hl]
    · simp only [neC, eqC, M.bind_apply, hc, M.pure_apply, cmpRes_zero ht _ _ hlx hl]
      simp
    · simp only [ltC, M.bind_apply, hc, M.pure_apply, cmpRes_neg _ _ hlx hl]
    · simp only [cLt, M.bind_apply, hc, M.pure_apply, cmpRes_pos ht _ _ hlx hl]

/-- **C46 (equality).** `==` and `!=` (the `char` overloads) decide equality of contents, without any
bound on lengths. -/
theorem C46_string_eq (ht : t.Lawful) (h : Reach t st e) {x y : Nat} {xs ys : List V}
    (hx : e x = some xs) (hy : e y = some ys) :
    eq t x y st = .ok (decide (xs = ys)) st ∧ ne t x y st = .ok (decide (xs ≠ ys)) st := by
  obtain ⟨σ, W, rfl⟩ := h.world ht
  obtain ⟨s, hs, rfl⟩ := envOf_some rfl hx
  obtain ⟨s2, hs2, rfl⟩ := envOf_some rfl hy
  exact ⟨eq_spec ht W hs hs2, by simp [ne, eq_spec ht W hs hs2]⟩

/-- **C46 (strict total order).** The order that `operator<` decides is irreflexive, transitive and
total on contents. -/
theorem C46_string_order_total (ht : t.Lawful) (as bs cs : List V) :
    lexCmp t.lt as as ≠ .lt ∧
    (lexCmp t.lt as bs = .lt → lexCmp t.lt bs cs = .lt → lexCmp t.lt as cs = .lt) ∧
    (lexCmp t.lt as bs = .lt ∨ as = bs ∨ lexCmp t.lt bs as = .lt) := by
  refine ⟨?_, lexCmp_trans ht as bs cs, ?_⟩
  · rw [(lexCmp_eq ht as as).2 rfl]; simp
  · have h1 := lexCmp_swap ht as bs
    have h2 := lexCmp_eq ht as bs
    cases h : lexCmp t.lt as bs with
    | lt => exact Or.inl rfl
    | eq => exact Or.inr (Or.inl (h2.1 h))
    | gt => rw [h] at h1; exact Or.inr (Or.inr h1)

/-- The clamped difference of two lengths keeps its sign even when it does not fit `int`. -/
example : sCompare (2^40) 5 = 2^31 - 1 ∧ sCompare 5 (2^40) = -2^31 := by
  simp [sCompare, sizeDiff]

example : ∃ st e, Reach (natTraits false) st e ∧ e 0 = some [5, 6] ∧ e 1 = some [5, 6, 1] := by
  obtain ⟨st, h⟩ := Reach.of_spec (natTraits_lawful false) (ops := [.newPC 0 (.ext [5, 6] 0) 2,
    .newCopy 1 0, .pushBack 1 1]) rfl
  exact ⟨st, _, h, rfl, rfl⟩

/-! ### C47 -/

/-- **C47 (no leak).** When no string is alive, nothing is allocated. (Freeing twice or with a wrong
size is undefined behaviour of the machine, excluded by C40.) -/
theorem C47_string_no_leak (ht : t.Lawful) (h : Reach t st e) (hd : ∀ x, e x = none) :
    ∀ a, st.mem a = none := by
  obtain ⟨σ, W, rfl⟩ := h.world ht
  exact W.empty_mem (fun x => envOf_none rfl (hd x))

/-- **C47 (exact ownership).** Every allocated block is the buffer of exactly one living string, with
room for `capacity() + 1` characters, all initialised, of which the first `size()` are its contents. -/
theorem C47_string_storage (ht : t.Lawful) (h : Reach t st e) {a : Nat} {b : Blk V}
    (hb : st.mem a = some b) :
    ∃ x xs c, e x = some xs ∧ data x st = .ok (.cell (some a) 0) st ∧ capacity x st = .ok c st ∧
      b.len = c + 1 ∧ (∀ i, i < b.len → b.slot i ≠ none) ∧
      (∀ i, i < xs.length → b.slot i = xs[i]?) ∧
      ∀ y ys, e y = some ys → data y st = .ok (.cell (some a) 0) st → y = x := by
  obtain ⟨σ, W, rfl⟩ := h.world ht
  obtain ⟨x, hx⟩ := W.own a (by simp [hb])
  cases hs : σ x with
  | none => simp [hs] at hx
  | some s =>
    simp [hs, iface] at hx
    subst hx
    obtain ⟨h1, h2, h3⟩ := get_rep W hs
    rw [hb] at h2
    simp at h2
    have htwo := h3.two
    refine ⟨x, s.val, s.buf.length - 1, by simp [envOf, hs], data_ok W hs,
      by simp [capacity, h1, SV.obj], by rw [h2]; simp; omega, ?_, ?_, ?_⟩
    · intro i hi
      rw [h2] at hi ⊢
      simp at hi
      simp [arr, hi]
    · intro i hi
      rw [SV.val_length h3] at hi
      rw [h2]
      simp [arr, SV.val, hi]
    · intro y ys hy hdy
      obtain ⟨sy, hy', rfl⟩ := envOf_some rfl hy
      rw [data_ok W hy'] at hdy
      simp at hdy
      apply Classical.byContradiction
      intro hne
      exact blk_ne W hy' hs hne hdy

/-- A program that allocates, reallocates, copies and destroys everything. -/
example : ∃ st e, Reach (natTraits false) st e ∧ (∀ x, e x = none) := by
  obtain ⟨st, h⟩ := Reach.of_spec (natTraits_lawful false) (ops := [.newC 0 (.ext [5, 6, 0] 0),
    .newCopy 1 0, .appendStr 0 1, .assignC 1 (.ext [0] 0), .new 2, .destroy 0, .destroy 1, .destroy 2]) rfl
  refine ⟨st, _, h, ?_⟩
  intro x
  simp [Env.set, Env.none]
  grind

/-! ### C48 -/

/-- The full claim of C48. -/
def C48_full_statement : Prop :=
  ∀ (st : SSt Nat) (e : Env Nat) (x : Nat) (cs : List Nat), Reach (natTraits true) st e → e x = none →
    ∃ st', ctorInput (natTraits true) x cs st = .ok () st' ∧ toList x st' = .ok cs st'

/-- **C48 (part that holds).** A string built from a non-empty input range holds exactly its characters
(including terminators) and is terminated. Missing: the empty range (next theorem). -/
theorem C48_string_input_range_partial (ht : t.Lawful) (h : Reach t st e) {x : Nat} (hx : e x = none)
    {cs : List V} (hne : cs ≠ []) :
    ∃ st', ctorInput t x cs st = .ok () st' ∧ toList x st' = .ok cs st' ∧
      get x cs.length st' = .ok t.nul st' ∧ ∀ y ys, e y = some ys → toList y st' = .ok ys st' := by
  obtain ⟨σ, W, rfl⟩ := h.world ht
  obtain ⟨st', s', h1, W', h2⟩ := ctorInput_spec W (envOf_none rfl hx) cs hne
  have hs' : upd σ x (some s') x = some s' := by simp
  refine ⟨st', h1, by rw [toList_spec W' hs', h2], get_spec W' hs' (by rw [h2]; simp), ?_⟩
  intro y ys hy
  obtain ⟨sy, hsy, rfl⟩ := envOf_some rfl hy
  have hyx : y ≠ x := by intro hh; subst hh; simp [hx] at hy
  exact toList_spec W' (by simp [hyx, hsy])

/-- **C48 (violation).** An empty range writes the terminator through a null pointer. -/
theorem C48_string_input_empty_ub (ht : t.Lawful) (h : Reach t st e) {x : Nat} (hx : e x = none) :
    ctorInput t x [] st = .ub .null := by
  obtain ⟨σ, W, rfl⟩ := h.world ht
  have h0 := W.dom x (envOf_none rfl hx)
  simp only [ctorInput, M.bind_apply, newObj_none h0, M.onThrow]
  rw [getObj_some (o := ⟨0, 0, none⟩) (by simp)]
  simp only [inputLoop1, inputLoop2, M.pure_apply]
  rw [getObj_some (o := ⟨0, 0, none⟩) (by simp)]
  simp only []
  rw [setObj_some (o := ⟨0, 0, none⟩) (by simp)]
  simp [putc, withSlot]

theorem C48_string_input_range_refuted : ¬ C48_full_statement := by
  intro hall
  obtain ⟨st, hr⟩ := Reach.of_spec (natTraits_lawful true) (ops := []) rfl
  obtain ⟨st', h1, _⟩ := hall st _ 0 [] hr rfl
  rw [C48_string_input_empty_ub (natTraits_lawful true) hr rfl] at h1
  cases h1

/-! ### C49 -/

/-- The full claim of C49. -/
def C49_full_statement : Prop :=
  ∀ (st : SSt Nat) (e : Env Nat) (x i : Nat) (xs : List Nat) (c : Nat), Reach (natTraits true) st e →
    e x = some xs → xs[i]? = some c →
    ∃ p st', (Arg.str x i).eval st = .ok p st ∧ pushBack (natTraits true) x p st = .ok () st' ∧
      toList x st' = .ok (xs ++ [c]) st'

/-- **C49 (part that holds).** `s.push_back(s[i])` is right if there is spare capacity. Missing: full
strings (next theorem). -/
theorem C49_string_push_own_partial (ht : t.Lawful) (h : Reach t st e) {x i n : Nat} {xs : List V} {c : V}
    (hx : e x = some xs) (hi : xs[i]? = some c) (hc : capacity x st = .ok n st) (hlt : xs.length < n) :
    ∃ p st', (Arg.str x i).eval st = .ok p st ∧ pushBack t x p st = .ok () st' ∧
      toList x st' = .ok (xs ++ [c]) st' := by
  obtain ⟨σ, W, rfl⟩ := h.world ht
  obtain ⟨s, hs, rfl⟩ := envOf_some rfl hx
  obtain ⟨h1, h2, h3⟩ := get_rep W hs
  have hl := SV.val_length h3
  simp [capacity, h1, SV.obj] at hc
  have hib : i < s.val.length := by
    apply Classical.byContradiction
    intro hh
    rw [List.getElem?_eq_none (by omega)] at hi; simp at hi
  have hsee : Sees st (.cell (some s.blk) i) [c] := by
    have h4 := (Sees.shift (k := i) (sees_val W hs)).take 1
    have e1 : s.val.drop i = s.val[i] :: s.val.drop (i+1) := by simp
    rw [List.getElem?_eq_getElem hib] at hi
    injection hi with hi
    rw [e1, hi] at h4
    simpa using h4
  obtain ⟨st', s', g1, W', g2⟩ := pushBack_spec (t := t) W hs hsee (fun _ => by omega)
  exact ⟨_, st', by simp [Arg.eval, h1, SV.obj], g1,
    by rw [toList_spec W' (x := x) (s := s') (by simp), g2]⟩

/-- **C49 (violation).** If the string is full, the reference is read after its buffer was freed. -/
theorem C49_string_push_own_full_ub (ht : t.Lawful) (h : Reach t st e) {x i : Nat} {xs : List V}
    (hx : e x = some xs) (hc : capacity x st = .ok xs.length st) :
    ∃ p, (Arg.str x i).eval st = .ok p st ∧ pushBack t x p st = .ub .dangling := by
  obtain ⟨σ, W, rfl⟩ := h.world ht
  obtain ⟨s, hs, rfl⟩ := envOf_some rfl hx
  obtain ⟨h1, h2, h3⟩ := get_rep W hs
  have hl := SV.val_length h3
  have := h3.two
  simp [capacity, h1, SV.obj] at hc
  exact ⟨.cell (some s.blk) i, by simp [Arg.eval, h1, SV.obj], pushBack_own_full W hs (by omega)⟩

/-- **C49 is false**: `s.append("56", 2); s.push_back(s[0]);`. -/
theorem C49_string_push_own_refuted : ¬ C49_full_statement := by
  intro hall
  obtain ⟨st, e, hr, hx, hc⟩ := reach_full true
  obtain ⟨p, st', h1, h2, _⟩ := hall st e 0 0 _ 5 hr hx rfl
  obtain ⟨p', h3, h4⟩ := C49_string_push_own_full_ub (natTraits_lawful true) (i := 0) hr hx hc
  rw [h1] at h3; cases h3
  rw [h2] at h4; cases h4

/-- The hypotheses of the partial theorem are met. -/
example : ∃ st p st', (Arg.str 0 0).eval st = .ok p st ∧ pushBack (natTraits false) 0 p st = .ok () st' ∧
    toList 0 st' = .ok [5, 5] st' := by
  obtain ⟨st, e, hr, hx, hc⟩ := reach_spare false
  exact ⟨st, C49_string_push_own_partial (natTraits_lawful false) (i := 0) (c := 5) hr hx rfl hc (by simp)⟩

/-! ### C81 -/

/-- The full claim of C81 for assignment from a C string: after a failed allocation the string can be
destroyed. -/
def C81_full_statement : Prop :=
  ∀ (st st' : SSt Nat) (e : Env Nat) (x : Nat) (xs a : List Nat) (ex : Exc), Reach (natTraits true) st e →
    e x = some xs → assignC (natTraits true) x (.ext a 0) (arm st (some 0)) = .throw ex st' →
    ∃ st'', dtor x st' = .ok () st''

/-- **C81 (part that holds).** If the allocation fails in `reserve`, `push_back`, `append` or a
constructor from (pointer, count), the exception leaves the state exactly as it was.
Missing: assignment and the input-iterator constructor (next theorems). -/
theorem C81_string_bad_alloc_partial (ht : t.Lawful) (h : Reach t st e) :
    (∀ x p n, e x = none → ctorPC t x p n (arm st (some 0)) = .throw .badAlloc st) ∧
    ∀ x xs c, e x = some xs → capacity x st = .ok c st →
      (∀ n, c < n → reserve t x n (arm st (some 0)) = .throw .badAlloc st) ∧
      (∀ r, xs.length = c → pushBack t x r (arm st (some 0)) = .throw .badAlloc st) ∧
      (∀ p n, c < n + xs.length → append t x p n (arm st (some 0)) = .throw .badAlloc st) := by
  obtain ⟨σ, W, rfl⟩ := h.world ht
  refine ⟨fun x p n hx => ctorPC_throw W (envOf_none rfl hx) p n, ?_⟩
  intro x xs c hx hc
  obtain ⟨s, hs, rfl⟩ := envOf_some rfl hx
  obtain ⟨h1, h2, h3⟩ := get_rep W hs
  have hl := SV.val_length h3
  have := h3.two
  simp [capacity, h1, SV.obj] at hc
  exact ⟨fun n hn => reserve_throw W hs (by omega), fun r hf => pushBack_throw W hs r (by omega),
    fun p n hn => append_throw W hs p (by omega)⟩

/-- **C81 (violation).** If the new buffer of `operator=(const CharT*)` cannot be allocated, the old one
is already gone: destroying the string frees it again. -/
theorem C81_string_assign_bad_alloc_ub (ht : t.Lawful) (h : Reach t st e) {x c : Nat} {xs a : List V}
    (hx : e x = some xs) (hc : capacity x st = .ok c st) (hn : t.nul ∈ a)
    (hbig : c ≤ (a.takeWhile (· ≠ t.nul)).length) :
    ∃ st', assignC t x (.ext a 0) (arm st (some 0)) = .throw .badAlloc st' ∧ dtor x st' = .ub .badFree := by
  obtain ⟨σ, W, rfl⟩ := h.world ht
  obtain ⟨s, hs, rfl⟩ := envOf_some rfl hx
  obtain ⟨h1, h2, h3⟩ := get_rep W hs
  have := h3.two
  simp [capacity, h1, SV.obj] at hc
  exact assignC_throw W hs hn (by omega)

/-- **C81 (violation).** If the second allocation of the input-iterator constructor fails, the first
buffer is leaked: it stays allocated although it belongs to no string. -/
theorem C81_string_input_leak (ht : t.Lawful) (h : Reach t st e) {x : Nat} (hx : e x = none)
    (a b c : V) (cs : List V) :
    ∃ st', ctorInput t x (a :: b :: c :: cs) (arm st (some 1)) = .throw .badAlloc st' ∧
      st'.objs = st.objs ∧ ∃ q, st'.mem q ≠ none ∧ st.mem q = none := by
  obtain ⟨σ, W, rfl⟩ := h.world ht
  exact ⟨_, ctorInput_throw W (envOf_none rfl hx) a b c cs, rfl, st.next, by simp,
    W.fresh _ (Nat.le_refl _)⟩

theorem C81_string_bad_alloc_refuted : ¬ C81_full_statement := by
  intro hall
  obtain ⟨st, e, hr, hx, hc⟩ := reach_spare true
  obtain ⟨st', h1, h2⟩ := C81_string_assign_bad_alloc_ub (natTraits_lawful true) hr hx hc (a := [1, 2, 3, 0])
    (by simp [natTraits]) (by simp [natTraits])
  obtain ⟨st'', h3⟩ := hall st st' e 0 _ _ _ hr hx h1
  rw [h2] at h3; cases h3

/-! ### C114 -/

/-- The full claim of C114: a variable can be default-constructed in every state, whatever the allocator
does, and is then empty. -/
def C114_full_statement : Prop :=
  ∀ (st : SSt Nat) (e : Env Nat) (x : Nat) (k : Option Nat), Reach (natTraits true) st e → e x = none →
    ∃ st', ctor (natTraits true) x (arm st k) = .ok () st' ∧ toList x st' = .ok [] st'

/-- **C114 (part that holds).** If the allocation succeeds (the next throwing operation, if any, comes
later), the string is empty and terminated and has one allocated block.  Missing: a failing allocation (next theorem). -/
theorem C114_string_default_ctor_partial (ht : t.Lawful) (h : Reach t st e) {x : Nat} (hx : e x = none)
    (k : Option Nat) (hk : k ≠ some 0) :
    ∃ st', ctor t x (arm st k) = .ok () st' ∧ toList x st' = .ok [] st' ∧ get x 0 st' = .ok t.nul st' ∧
      capacity x st' = .ok 1 st' ∧ ∀ y ys, e y = some ys → toList y st' = .ok ys st' := by
  obtain ⟨σ, W, rfl⟩ := h.world ht
  have h0 := W.dom x (envOf_none rfl hx)
  have hf := W.fresh st.next (Nat.le_refl _)
  have key : ctor t x (arm st k) = .ok () ⟨upd st.objs x (some ⟨0, 1, some st.next⟩),
      upd st.mem st.next (some (arr 2 [t.nul, t.nul])), st.next + 1, k.map (· - 1)⟩ := by
    apply M.noexcept_of_ok
    simp only [M.bind_apply]
    rw [newObj_none (by exact h0)]
    simp only []
    cases k with
    | none =>
      rw [allocInit_ok _ (by rfl)]
      simp only []
      rw [setObj_some (o := ⟨0, 0, none⟩) (by simp [arm])]
      simp only []
      rw [putc_arr (n := 2) (xs := [t.nul, t.nul]) (by simp [List.replicate, arm]) (by simp) (by simp)]
      simp [upd_upd, arm]
    | some k =>
      cases k with
      | zero => exact absurd rfl hk
      | succ k =>
        rw [allocInit_tick _ (k := k) (by rfl)]
        simp only []
        rw [setObj_some (o := ⟨0, 0, none⟩) (by simp [arm])]
        simp only []
        rw [putc_arr (n := 2) (xs := [t.nul, t.nul]) (by simp [List.replicate, arm]) (by simp) (by simp)]
        simp [upd_upd, arm]
  refine ⟨_, key, ?_, ?_, ?_, ?_⟩
  · simp [toList, collect]
  · simp [get, load, withSlot]
  · simp [capacity]
  · intro y ys hy
    obtain ⟨sy, hsy, rfl⟩ := envOf_some rfl hy
    have hyx : y ≠ x := by intro hh; subst hh; simp [hx] at hy
    obtain ⟨h1, h2, h3⟩ := get_rep W hsy
    have hlt := h3.lt
    have hne : sy.blk ≠ st.next := by
      intro hh
      rw [hh, hf] at h2
      cases h2
    simp only [toList, M.bind_apply]
    rw [getObj_some (o := sy.obj) (by simp [hyx, h1])]
    simp only [SV.obj]
    have hm : upd st.mem st.next (some (arr 2 [t.nul, t.nul])) sy.blk = some (arr sy.buf.length sy.buf) := by
      simp [hne, h2]
    rw [collect_ok (by exact hm) (Nat.le_refl _) _ _ (by omega)]
    simp [SV.val]

/-- **C114 (violation).** Whenever the allocation fails the program is terminated: the constructor allocates
although it is `noexcept`.  (`std::string`'s default constructor does not allocate.) -/
theorem C114_string_default_ctor_terminates (ht : t.Lawful) (h : Reach t st e) {x : Nat} (hx : e x = none) :
    ctor t x (arm st (some 0)) = .ub .terminate := by
  obtain ⟨σ, W, rfl⟩ := h.world ht
  have h0 := W.dom x (envOf_none rfl hx)
  apply M.noexcept_of_throw (e := .badAlloc)
    (s' := ⟨upd st.objs x (some ⟨0, 0, none⟩), st.mem, st.next, none⟩)
  simp only [M.bind_apply]
  rw [newObj_none (by exact h0)]
  simp only []
  rw [allocInit_throw _ (by rfl)]
  rfl

/-- A second string beside a living one. -/
example : ∃ st st' : SSt Nat, ctor (natTraits true) 0 (arm st (some 3)) = .ok () st' ∧ toList 1 st' = .ok [5] st' := by
  obtain ⟨st, hr⟩ := Reach.of_spec (natTraits_lawful true) (ops := [.newC 1 (.ext [5, 0] 0)]) rfl
  obtain ⟨st', h1, _, _, _, h2⟩ := C114_string_default_ctor_partial (natTraits_lawful true) hr (x := 0) rfl
    (some 3) (by simp)
  exact ⟨st, st', h1, h2 1 [5] rfl⟩

theorem C114_string_default_ctor_refuted : ¬ C114_full_statement := by
  intro hall
  obtain ⟨st, hr⟩ := Reach.of_spec (natTraits_lawful true) (ops := [.newC 1 (.ext [5, 0] 0)]) rfl
  obtain ⟨st', h1, _⟩ := hall st _ 0 (some 0) hr rfl
  rw [C114_string_default_ctor_terminates (natTraits_lawful true) hr rfl] at h1
  cases h1

end Cest.Str
