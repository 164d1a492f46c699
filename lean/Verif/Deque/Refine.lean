import Verif.Deque.Iter
/-
Every step of a client program that avoids the faults of the implementation refines the specification
(used by Deque/Props.lean).
-/
namespace Cest.Deq
open Cest
variable {V : Type}

/-- The environment seen by the specification. -/
def envOf (σ : Nat → Option (DV V)) : Env V := fun x => (σ x).map DV.xs

theorem envOf_upd (σ : Nat → Option (DV V)) (x : Nat) (s : Option (DV V)) :
    envOf (upd σ x s) = (envOf σ).set x (s.map DV.xs) := by
  funext y; simp [envOf, Env.set]; split <;> rfl

theorem envOf_some {σ : Nat → Option (DV V)} {e : Env V} (h : envOf σ = e) {x : Nat} {xs : List V}
    (hx : e x = some xs) : ∃ s, σ x = some s ∧ s.xs = xs := by
  subst h; simpa [envOf] using hx
theorem envOf_none {σ : Nat → Option (DV V)} {e : Env V} (h : envOf σ = e) {x : Nat}
    (hx : e x = none) : σ x = none := by
  subst h; simpa [envOf] using hx
theorem set_self {e : Env V} {x : Nat} {v : Option (List V)} (h : e x = v) : e.set x v = e := by
  funext y; simp [Env.set]; rintro rfl; exact h.symm

/-- The situations in which the implementation departs from a double-ended sequence, in terms of the
data members:
* push_back when the back chunk is full and is not the last chunk (deque.hpp:328-338);
* iteration when the last element is the last of its chunk (deque.hpp:47-49, 263);
* copy assignment to itself (deque.hpp:184), or of more than half a chunk to a deque that owns more
  than two chunks (it runs into the first case). -/
def opFault (K : Nat) (st : DSt V) : Op V → Prop
  | .pushBack x _ | .pushBackFrom x _ _ =>
    ∃ o, st.objs x = some o ∧ o.back = K - 1 ∧ o.bchunk + 1 ≠ o.chunks.length
  | .toList x => ∃ o, st.objs x = some o ∧ o.back = K - 1
  | .assign x y => ∃ o oy, st.objs x = some o ∧ st.objs y = some oy ∧
      ((x = y ∧ o.size ≠ 0) ∨ (2 < o.chunks.length ∧ K - K / 2 < oy.size))
  | _ => False

variable {K : Nat} {st : DSt V} {σ : Nat → Option (DV V)} {x y : Nat} {s sy : DV V} {v : V}

theorem back_last_iff (hK : 2 ≤ K) (s : DV V) : (s.obj K).back = K - 1 ↔ s.stop % K = 0 := by
  have hK0 : 0 < K := by omega
  show (s.stop + K - 1) % K = K - 1 ↔ _
  constructor
  · intro h
    apply Classical.byContradiction
    intro hc
    rw [(back_pos hK0 hc).1] at h
    have := Nat.mod_lt s.stop hK0
    omega
  · intro h; exact (back_zero hK0 h).1

theorem fault_iff (hK : 2 ≤ K) (W : DW K st σ) (hx : σ x = some s) :
    s.fault K ↔ ∃ o, st.objs x = some o ∧ o.back = K - 1 ∧ o.bchunk + 1 ≠ o.chunks.length := by
  have hK0 : 0 < K := by omega
  have ho := W_obj W hx
  have key : s.stop % K = 0 → ((s.obj K).bchunk + 1 ≠ (s.obj K).chunks.length ↔ s.stop ≠ s.chunks.length * K) := by
    intro hz
    have h2 := (back_zero hK0 hz).2
    have : (s.obj K).bchunk = ((s.stop / K : Nat) : Int) - 1 := by
      show (((s.stop + K - 1) / K : Nat) : Int) - 1 = _
      rw [h2]
    rw [this]
    show (((s.stop / K : Nat) : Int) - 1 + 1 ≠ (s.chunks.length : Int)) ↔ _
    have hfi := full_iff (n := s.chunks.length) hK0 hz
    generalize s.stop / K = q at *
    constructor
    · intro h h'; have := hfi.2 h'; omega
    · intro h h'; exact h (hfi.1 (by omega))
  constructor
  · rintro ⟨h1, h2⟩
    exact ⟨_, ho, (back_last_iff hK s).2 h1, (key h1).2 h2⟩
  · rintro ⟨o, h1, h2, h3⟩
    rw [ho] at h1; cases h1
    have hz := (back_last_iff hK s).1 h2
    exact ⟨hz, (key hz).1 h3⟩

/-- All back chunks are last chunks. -/
def AllLast (K : Nat) (σ : Nat → Option (DV V)) : Prop := ∀ x s, σ x = some s → s.lastC K

theorem AllLast.upd (h : AllLast K σ) (hs : s.lastC K) : AllLast K (upd σ x (some s)) := by
  intro y t hy
  by_cases e : y = x
  · subst e; simp at hy; subst hy; exact hs
  · simp [e] at hy; exact h y t hy
theorem AllLast.del (h : AllLast K σ) : AllLast K (Cest.upd σ x none) := by
  intro y t hy
  by_cases e : y = x
  · subst e; simp at hy
  · simp [e] at hy; exact h y t hy

theorem pushF_lastC (hK : 2 ≤ K) (h : s.lastC K) (a : Nat) : (s.pushF K v a).lastC K := by
  unfold DV.lastC DV.stop at *
  unfold DV.pushF
  split
  · simp [Nat.add_mul]; omega
  · simp only [List.length_cons]; omega
theorem pushF_xs (s : DV V) (v : V) (a : Nat) : (s.pushF K v a).xs = v :: s.xs := by
  unfold DV.pushF; split <;> rfl

theorem step_refines (hK : 2 ≤ K) {e e' : Env V} {op : Op V} {o : Out V}
    (W : DW K st σ) (he : envOf σ = e) (hs : specStep e op = some (e', o)) (hf : ¬ opFault K st op) :
    ∃ st' σ', runOp K op st = .ok o st' ∧ DW K st' σ' ∧ envOf σ' = e' ∧
      (op.growsBack → AllLast K σ → AllLast K σ') := by
  have hK0 : 0 < K := by omega
  cases op with
  | new x =>
    simp only [specStep] at hs
    split at hs <;> simp at hs
    rename_i hx; obtain ⟨rfl, rfl⟩ := hs
    obtain ⟨st', h1, W'⟩ := ctor_spec hK W (envOf_none he hx)
    exact ⟨st', _, by simp [runOp, h1], W', by rw [envOf_upd, he]; rfl,
      fun _ hA => hA.upd (ctor_lastC hK _)⟩
  | newList x vs =>
    simp only [specStep] at hs
    split at hs <;> simp at hs
    rename_i hx; obtain ⟨rfl, rfl⟩ := hs
    obtain ⟨st', s', h1, W', h2, h3⟩ := ctorList_spec (vs := vs) hK W (envOf_none he hx)
    exact ⟨st', _, by simp [runOp, h1], W', by rw [envOf_upd, he]; simp [h2], fun _ hA => hA.upd h3⟩
  | newCopy x y =>
    simp only [specStep] at hs
    split at hs <;> simp at hs
    rename_i ys hx hy; obtain ⟨rfl, rfl⟩ := hs
    obtain ⟨s, hy', rfl⟩ := envOf_some he hy
    obtain ⟨st', s', h1, W', h2, h3⟩ := copyCtor_spec hK W (envOf_none he hx) hy'
    exact ⟨st', _, by simp [runOp, h1], W', by rw [envOf_upd, he]; simp [h2], fun _ hA => hA.upd h3⟩
  | assign x y =>
    simp only [specStep] at hs
    split at hs <;> simp at hs
    rename_i xs ys hx hy; obtain ⟨rfl, rfl⟩ := hs
    obtain ⟨s, hx', rfl⟩ := envOf_some he hx
    obtain ⟨sy, hy', rfl⟩ := envOf_some he hy
    by_cases hxy : x = y
    · subst hxy
      rw [hx'] at hy'; cases hy'
      have hemp : s.xs = [] := by
        apply Classical.byContradiction
        intro hc
        apply hf
        refine ⟨_, _, W_obj W hx', W_obj W hx', Or.inl ⟨rfl, ?_⟩⟩
        simp [DV.obj, hc]
      obtain ⟨st', h1, W'⟩ := assign_self hK W hx'
      exact ⟨st', _, by simp [runOp, h1], W', by rw [envOf_upd, he, hemp]; simp [DV.cleared],
        fun h => by simp [Op.growsBack] at h⟩
    · obtain ⟨st', s', h1, W', h2, _⟩ := assign_spec hK W hx' hy' hxy (by
        unfold DV.roomFor
        apply Classical.byContradiction
        intro hc
        apply hf
        refine ⟨_, _, W_obj W hx', W_obj W hy', Or.inr ⟨?_, ?_⟩⟩ <;> simp only [DV.obj] <;> omega)
      exact ⟨st', _, by simp [runOp, h1], W', by rw [envOf_upd, he]; simp [h2],
        fun h => by simp [Op.growsBack] at h⟩
  | pushBack x v =>
    simp only [specStep] at hs
    split at hs <;> simp at hs
    rename_i xs hx; obtain ⟨rfl, rfl⟩ := hs
    obtain ⟨s, hx', rfl⟩ := envOf_some he hx
    obtain ⟨st', h1, W'⟩ := pushBack_spec (v := v) (r := .ext v) hK W hx'
      (fun h => hf ((fault_iff hK W hx').1 h)) (fun _ _ => rfl)
    exact ⟨st', _, by simp [runOp, h1], W', by rw [envOf_upd, he]; simp [pushB_xs],
      fun _ hA => hA.upd ((hA x s hx').push _)⟩
  | pushFront x v =>
    simp only [specStep] at hs
    split at hs <;> simp at hs
    rename_i xs hx; obtain ⟨rfl, rfl⟩ := hs
    obtain ⟨s, hx', rfl⟩ := envOf_some he hx
    obtain ⟨st', h1, W'⟩ := pushFront_spec (v := v) (r := .ext v) hK W hx' (fun _ _ => rfl)
    exact ⟨st', _, by simp [runOp, h1], W', by rw [envOf_upd, he]; simp [pushF_xs],
      fun _ hA => hA.upd (pushF_lastC hK (hA x s hx') _)⟩
  | pushBackFrom x y i =>
    simp only [specStep] at hs
    split at hs <;> try simp at hs
    rename_i xs ys hx hy
    split at hs <;> simp at hs
    rename_i v hv
    obtain ⟨rfl, rfl⟩ := hs
    obtain ⟨s, hx', rfl⟩ := envOf_some he hx
    obtain ⟨sy, hy', rfl⟩ := envOf_some he hy
    obtain ⟨a, hl, hr⟩ := cell_read hK0 W hy' hv
    obtain ⟨st', h1, W'⟩ := pushBack_spec hK W hx' (fun h => hf ((fault_iff hK W hx').1 h)) hr
    exact ⟨st', _, by simp only [runOp, M.bind_apply, hl, h1, M.pure_apply], W',
      by rw [envOf_upd, he]; simp [pushB_xs], fun _ hA => hA.upd ((hA x s hx').push _)⟩
  | pushFrontFrom x y i =>
    simp only [specStep] at hs
    split at hs <;> try simp at hs
    rename_i xs ys hx hy
    split at hs <;> simp at hs
    rename_i v hv
    obtain ⟨rfl, rfl⟩ := hs
    obtain ⟨s, hx', rfl⟩ := envOf_some he hx
    obtain ⟨sy, hy', rfl⟩ := envOf_some he hy
    obtain ⟨a, hl, hr⟩ := cell_read hK0 W hy' hv
    obtain ⟨st', h1, W'⟩ := pushFront_spec hK W hx' hr
    exact ⟨st', _, by simp only [runOp, M.bind_apply, hl, h1, M.pure_apply], W',
      by rw [envOf_upd, he]; simp [pushF_xs], fun _ hA => hA.upd (pushF_lastC hK (hA x s hx') _)⟩
  | popBack x =>
    simp only [specStep] at hs
    split at hs <;> simp at hs
    rename_i xs hx; obtain ⟨rfl, rfl⟩ := hs
    obtain ⟨s, hx', rfl⟩ := envOf_some he hx
    by_cases hne : s.xs = []
    · refine ⟨st, σ, by simp [runOp, popBack_empty W hx' hne], W, ?_, fun h => by simp [Op.growsBack] at h⟩
      rw [he, hne]; simp only [List.dropLast_nil]; rw [set_self]; rw [hx, hne]
    · obtain ⟨st', h1, W'⟩ := popBack_spec hK W hx' hne
      exact ⟨st', _, by simp [runOp, h1], W', by rw [envOf_upd, he]; simp,
        fun h => by simp [Op.growsBack] at h⟩
  | popFront x =>
    simp only [specStep] at hs
    split at hs <;> simp at hs
    rename_i xs hx; obtain ⟨rfl, rfl⟩ := hs
    obtain ⟨s, hx', rfl⟩ := envOf_some he hx
    by_cases hne : s.xs = []
    · refine ⟨st, σ, by simp [runOp, popFront_empty W hx' hne], W, ?_, fun _ h => h⟩
      rw [he, hne]; simp only [List.tail_nil]; rw [set_self]; rw [hx, hne]
    · obtain ⟨st', h1, W'⟩ := popFront_spec hK W hx' hne
      refine ⟨st', _, by simp [runOp, h1], W', by rw [envOf_upd, he]; simp, fun _ hA => hA.upd ?_⟩
      have h2 := hA x s hx'
      have h0 : 0 < s.xs.length := List.length_pos_iff.2 hne
      unfold DV.lastC DV.stop at *
      simp only [List.length_tail]; omega
  | clear x =>
    simp only [specStep] at hs
    split at hs <;> simp at hs
    rename_i xs hx; obtain ⟨rfl, rfl⟩ := hs
    obtain ⟨s, hx', rfl⟩ := envOf_some he hx
    obtain ⟨st', h1, W'⟩ := clear_spec hK W hx'
    exact ⟨st', _, by simp [runOp, h1], W', by rw [envOf_upd, he]; simp [DV.cleared],
      fun h => by simp [Op.growsBack] at h⟩
  | set x i v =>
    simp only [specStep] at hs
    split at hs <;> simp at hs
    rename_i xs hx; obtain ⟨hi, rfl, rfl⟩ := hs
    obtain ⟨s, hx', rfl⟩ := envOf_some he hx
    obtain ⟨st', h1, W'⟩ := set_spec (v := v) hK0 W hx' hi
    refine ⟨st', _, by simp [runOp, h1], W', by rw [envOf_upd, he]; simp, fun _ hA => hA.upd ?_⟩
    have h2 := hA x s hx'
    unfold DV.lastC DV.stop at *
    simpa using h2
  | destroy x =>
    simp only [specStep] at hs
    split at hs <;> simp at hs
    rename_i xs hx; obtain ⟨rfl, rfl⟩ := hs
    obtain ⟨s, hx', rfl⟩ := envOf_some he hx
    obtain ⟨st', h1, W'⟩ := dtor_spec hK W hx'
    exact ⟨st', _, by simp [runOp, h1], W', by rw [envOf_upd, he]; simp, fun _ hA => hA.del⟩
  | size x =>
    simp only [specStep] at hs
    split at hs <;> simp at hs
    rename_i xs hx; obtain ⟨rfl, rfl⟩ := hs
    obtain ⟨s, hx', rfl⟩ := envOf_some he hx
    exact ⟨st, σ, by simp [runOp, size_spec W hx'], W, he, fun _ h => h⟩
  | empty x =>
    simp only [specStep] at hs
    split at hs <;> simp at hs
    rename_i xs hx; obtain ⟨rfl, rfl⟩ := hs
    obtain ⟨s, hx', rfl⟩ := envOf_some he hx
    exact ⟨st, σ, by simp [runOp, empty_spec W hx'], W, he, fun _ h => h⟩
  | get x i =>
    simp only [specStep] at hs
    split at hs <;> try simp at hs
    split at hs <;> simp at hs
    rename_i xs hx _ v hv; obtain ⟨rfl, rfl⟩ := hs
    obtain ⟨s, hx', rfl⟩ := envOf_some he hx
    exact ⟨st, σ, by simp [runOp, get_spec hK0 W hx' hv], W, he, fun _ h => h⟩
  | front x =>
    simp only [specStep] at hs
    split at hs <;> try simp at hs
    split at hs <;> simp at hs
    rename_i xs hx _ v hv; obtain ⟨rfl, rfl⟩ := hs
    obtain ⟨s, hx', rfl⟩ := envOf_some he hx
    exact ⟨st, σ, by simp [runOp, front_spec hK0 W hx' hv], W, he, fun _ h => h⟩
  | back x =>
    simp only [specStep] at hs
    split at hs <;> try simp at hs
    split at hs <;> simp at hs
    rename_i xs hx _ v hv; obtain ⟨rfl, rfl⟩ := hs
    obtain ⟨s, hx', rfl⟩ := envOf_some he hx
    exact ⟨st, σ, by simp [runOp, back_spec hK0 W hx' hv], W, he, fun _ h => h⟩
  | toList x =>
    simp only [specStep] at hs
    split at hs <;> simp at hs
    rename_i xs hx; obtain ⟨rfl, rfl⟩ := hs
    obtain ⟨s, hx', rfl⟩ := envOf_some he hx
    have hz : s.stop % K ≠ 0 := fun h => hf ⟨_, W_obj W hx', (back_last_iff hK s).2 h⟩
    refine ⟨st, σ, ?_, W, he, fun _ h => h⟩
    simp [runOp, size_spec W hx', toList_spec hK0 W hx' hz (Nat.lt_succ_self _)]

/-- Histories that never shrink a deque at its back never meet a fault. -/
theorem growsBack_noFault (hK : 2 ≤ K) {op : Op V} (W : DW K st σ) (hA : AllLast K σ) (hg : op.growsBack) :
    ¬ opFault K st op := by
  have key : ∀ x, ¬ ∃ o, st.objs x = some o ∧ o.back = K - 1 ∧ o.bchunk + 1 ≠ o.chunks.length := by
    intro x hc
    cases hx : σ x with
    | none => obtain ⟨o, ho, _⟩ := hc; rw [W.dom x hx] at ho; cases ho
    | some s =>
      exact (hA x s hx).noFault (by omega) (W_le W hx) ((fault_iff hK W hx).2 hc)
  cases op <;> simp [Op.growsBack] at hg <;> first | exact key _ | exact fun h => h

theorem noPushBack_noFault {op : Op V} (hg : op.noPushBack) : ¬ opFault K st op := by
  cases op <;> simp [Op.noPushBack] at hg <;> exact fun h => h

theorem run_grows (hK : 2 ≤ K) {ops : List (Op V)} {e e' : Env V} {os : List (Out V)}
    (W : DW K st σ) (hA : AllLast K σ) (he : envOf σ = e) (hs : specRun e ops = some (e', os))
    (hg : ∀ op ∈ ops, op.growsBack) :
    ∃ st' σ', runOps K ops st = .ok os st' ∧ DW K st' σ' ∧ envOf σ' = e' ∧ AllLast K σ' := by
  induction ops generalizing st σ e os with
  | nil =>
    simp only [specRun] at hs; cases hs
    exact ⟨st, σ, rfl, W, he, hA⟩
  | cons op ops ih =>
    simp only [specRun] at hs
    split at hs <;> try simp at hs
    rename_i e1 o h1
    split at hs <;> simp at hs
    rename_i e2 os2 h2
    obtain ⟨rfl, rfl⟩ := hs
    have hgo := hg op (by simp)
    obtain ⟨st1, σ1, r1, W1, he1, hA1⟩ := step_refines hK W he h1 (growsBack_noFault hK W hA hgo)
    obtain ⟨st2, σ2, r2, W2, he2, hA2⟩ := ih W1 (hA1 hgo hA) he1 h2 (fun op h => hg op (by simp [h]))
    exact ⟨st2, σ2, by simp [runOps, r1, r2], W2, he2, hA2⟩

theorem run_noPushBack (hK : 2 ≤ K) {ops : List (Op V)} {e e' : Env V} {os : List (Out V)}
    (W : DW K st σ) (he : envOf σ = e) (hs : specRun e ops = some (e', os))
    (hg : ∀ op ∈ ops, op.noPushBack) :
    ∃ st' σ', runOps K ops st = .ok os st' ∧ DW K st' σ' ∧ envOf σ' = e' := by
  induction ops generalizing st σ e os with
  | nil =>
    simp only [specRun] at hs; cases hs
    exact ⟨st, σ, rfl, W, he⟩
  | cons op ops ih =>
    simp only [specRun] at hs
    split at hs <;> try simp at hs
    rename_i e1 o h1
    split at hs <;> simp at hs
    rename_i e2 os2 h2
    obtain ⟨rfl, rfl⟩ := hs
    obtain ⟨st1, σ1, r1, W1, he1, _⟩ := step_refines hK W he h1 (noPushBack_noFault (hg op (by simp)))
    obtain ⟨st2, σ2, r2, W2, he2⟩ := ih W1 he1 h2 (fun op h => hg op (by simp [h]))
    exact ⟨st2, σ2, by simp [runOps, r1, r2], W2, he2⟩

/-! ### queue -/

/-- The deque operations behind a queue operation. -/
theorem qstep_refines (hK : 2 ≤ K) {e e' : Env V} {op : QOp V} {o : Out V}
    (W : DW K st σ) (hA : AllLast K σ) (he : envOf σ = e) (hs : qspecStep e op = some (e', o)) :
    ∃ st' σ', runQOp K op st = .ok o st' ∧ DW K st' σ' ∧ envOf σ' = e' ∧ AllLast K σ' := by
  have go : ∀ (dop : Op V), runQOp K op = runOp K dop → dop.growsBack = true → specStep e dop = some (e', o) →
      ∃ st' σ', runQOp K op st = .ok o st' ∧ DW K st' σ' ∧ envOf σ' = e' ∧ AllLast K σ' := by
    intro dop h1 h2 h3
    obtain ⟨st', σ', r, W', he', hA'⟩ := step_refines hK W he h3 (growsBack_noFault hK W hA h2)
    exact ⟨st', σ', by rw [h1]; exact r, W', he', hA' h2 hA⟩
  cases op with
  | new x => exact go (.new x) rfl rfl hs
  | newCopy x y => exact go (.newCopy x y) rfl rfl hs
  | push x v => exact go (.pushBack x v) rfl rfl hs
  | pop x =>
    refine go (.popFront x) rfl rfl ?_
    simp only [qspecStep] at hs
    simp only [specStep]
    split at hs <;> simp at hs <;> rename_i h <;> rw [h] <;> obtain ⟨rfl, rfl⟩ := hs <;> simp
    exact set_self h
  | destroy x => exact go (.destroy x) rfl rfl hs
  | size x => exact go (.size x) rfl rfl hs
  | empty x => exact go (.empty x) rfl rfl hs
  | front x =>
    refine go (.front x) rfl rfl ?_
    simp only [qspecStep] at hs
    simp only [specStep]
    split at hs <;> simp at hs
    rename_i h; rw [h]; obtain ⟨rfl, rfl⟩ := hs; rfl
  | back x => exact go (.back x) rfl rfl hs
  | pushFrom x y =>
    simp only [qspecStep] at hs
    split at hs <;> simp at hs
    rename_i xs v vs hx hy; obtain ⟨rfl, rfl⟩ := hs
    obtain ⟨s, hx', rfl⟩ := envOf_some he hx
    obtain ⟨sy, hy', hyx⟩ := envOf_some he hy
    have hK0 : 0 < K := by omega
    have hv : sy.xs[0]? = some v := by rw [hyx]; rfl
    obtain ⟨a, hl, hr⟩ := cell_read hK0 W hy' hv
    obtain ⟨a', ha'⟩ := chunk_some hK0 (by simpa using idx_lt W hy' (show 0 < sy.xs.length by rw [hyx]; simp))
    have h1 := (hA x s hx').noFault hK0 (W_le W hx')
    have haa : a' = a := by
      have := hl
      simp only [locate, M.bind_apply, getObj_some (W_obj W hy'), DV.obj] at this
      rw [chunkAt_ok (j := sy.pos / K) (by
        have := (locate_pos (K := K) (p := sy.pos) (i := 0) hK0).1
        simp only [Nat.add_zero] at this ⊢
        rw [this]) ha'] at this
      simp at this
      exact this
    subst haa
    obtain ⟨st', h2, W'⟩ := pushBack_spec hK W hx' h1 hr
    refine ⟨st', _, ?_, W', by rw [envOf_upd, he]; simp [pushB_xs], hA.upd ((hA x s hx').push _)⟩
    simp only [runQOp, M.bind_apply, getObj_some (W_obj W hy')]
    rw [chunkAt_ok (j := sy.pos / K) (by rfl) (by exact ha')]
    simp only [qpush]
    rw [show (sy.obj K).front = (sy.pos + 0) % K from rfl, h2]
    rfl

theorem qrun_refines (hK : 2 ≤ K) {ops : List (QOp V)} {e e' : Env V} {os : List (Out V)}
    (W : DW K st σ) (hA : AllLast K σ) (he : envOf σ = e) (hs : qspecRun e ops = some (e', os)) :
    ∃ st' σ', runQOps K ops st = .ok os st' ∧ DW K st' σ' ∧ envOf σ' = e' ∧ AllLast K σ' := by
  induction ops generalizing st σ e os with
  | nil =>
    simp only [qspecRun] at hs; cases hs
    exact ⟨st, σ, rfl, W, he, hA⟩
  | cons op ops ih =>
    simp only [qspecRun] at hs
    split at hs <;> try simp at hs
    rename_i e1 o h1
    split at hs <;> simp at hs
    rename_i e2 os2 h2
    obtain ⟨rfl, rfl⟩ := hs
    obtain ⟨st1, σ1, r1, W1, he1, hA1⟩ := qstep_refines hK W hA he h1
    obtain ⟨st2, σ2, r2, W2, he2, hA2⟩ := ih W1 hA1 he1 h2
    exact ⟨st2, σ2, by simp [runQOps, r1, r2], W2, he2, hA2⟩

end Cest.Deq
