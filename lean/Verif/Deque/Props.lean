import Verif.Deque.Refine
/-
Properties C11–C20 of cest::deque and cest::queue.  `K` is CHUNK_SIZE (1024); everything is proved for
every `K ≥ 2`.
-/
namespace Cest.Deq
open Cest
variable {V : Type}

/-- No operation of the program meets a fault situation (`opFault`) when it is executed. -/
def NoFault (K : Nat) : List (Op V) → DSt V → Prop
  | [], _ => True
  | op :: ops, st => ¬ opFault K st op ∧ ∀ o st', runOp K op st = .ok o st' → NoFault K ops st'

variable {K : Nat} {st : DSt V} {σ : Nat → Option (DV V)} {x y : Nat} {s sy : DV V} {v : V}

theorem run_refines (hK : 2 ≤ K) {ops : List (Op V)} {e e' : Env V} {os : List (Out V)}
    (W : DW K st σ) (he : envOf σ = e) (hs : specRun e ops = some (e', os)) (hf : NoFault K ops st) :
    ∃ st' σ', runOps K ops st = .ok os st' ∧ DW K st' σ' ∧ envOf σ' = e' := by
  induction ops generalizing st σ e os with
  | nil =>
    simp only [specRun] at hs; cases hs
    exact ⟨st, σ, rfl, W, he⟩
  | cons op ops ih =>
    simp only [specRun] at hs
    split at hs <;> try simp at hs
    rename_i e1 o h1
    split at hs <;> simp at hs
    rename_i e2 os2 h2
    obtain ⟨rfl, rfl⟩ := hs
    obtain ⟨st1, σ1, r1, W1, he1, _⟩ := step_refines hK W he h1 hf.1
    obtain ⟨st2, σ2, r2, W2, he2⟩ := ih W1 he1 h2 (hf.2 _ _ r1)
    exact ⟨st2, σ2, by simp [runOps, r1, r2], W2, he2⟩

/-- `st` is reached by a program that respects the interface and meets no fault; `e` gives the contents
the specification assigns to the variables. -/
def Reach (K : Nat) (st : DSt V) (e : Env V) : Prop :=
  ∃ ops outs, specRun Env.none ops = some (e, outs) ∧ NoFault K ops St.init ∧
    runOps K ops St.init = .ok outs st

theorem reach_world (hK : 2 ≤ K) {e : Env V} (h : Reach K st e) : ∃ σ, DW K st σ ∧ envOf σ = e := by
  obtain ⟨ops, outs, h1, h0, h2⟩ := h
  obtain ⟨st', σ', r, W, he⟩ := run_refines hK (World.init (I := dqI K V)) rfl h1 h0
  rw [h2] at r; cases r
  exact ⟨σ', W, he⟩

theorem runOps_append (ops ops' : List (Op V)) (st : DSt V) :
    runOps K (ops ++ ops') st = match runOps K ops st with
      | .ok os st' => (match runOps K ops' st' with
        | .ok os' st'' => .ok (os ++ os') st''
        | .throw e s => .throw e s
        | .ub u => .ub u
        | .timeout => .timeout)
      | .throw e s => .throw e s
      | .ub u => .ub u
      | .timeout => .timeout := by
  induction ops generalizing st with
  | nil => simp [runOps]; cases runOps K ops' st <;> rfl
  | cons op ops ih =>
    simp only [List.cons_append, runOps, M.bind_apply, ih, M.pure_apply]
    cases runOp K op st with
    | ok o s =>
      simp only []
      cases runOps K ops s with
      | ok os s' => simp only []; cases runOps K ops' s' <;> rfl
      | throw _ _ => rfl
      | ub _ => rfl
      | timeout => rfl
    | throw _ _ => rfl
    | ub _ => rfl
    | timeout => rfl

theorem specRun_append {e e' : Env V} {ops ops' : List (Op V)} {os : List (Out V)}
    (h : specRun e ops = some (e', os)) :
    specRun e (ops ++ ops') = (specRun e' ops').map (fun r => (r.1, os ++ r.2)) := by
  induction ops generalizing e os with
  | nil => simp [specRun] at h; obtain ⟨rfl, rfl⟩ := h; simp
  | cons op ops ih =>
    simp only [List.cons_append, specRun] at h ⊢
    cases h1 : specStep e op with
    | none => simp [h1] at h
    | some r =>
      obtain ⟨e1, o⟩ := r
      simp only [h1] at h ⊢
      cases h2 : specRun e1 ops with
      | none => simp [h2] at h
      | some r2 =>
        obtain ⟨e2, os2⟩ := r2
        simp [h2] at h
        obtain ⟨rfl, rfl⟩ := h
        rw [ih h2]
        cases specRun e2 ops' <;> simp

theorem NoFault.append {ops ops' : List (Op V)} {os : List (Out V)} {st' : DSt V} (h : NoFault K ops st)
    (hr : runOps K ops st = .ok os st') (h' : NoFault K ops' st') : NoFault K (ops ++ ops') st := by
  induction ops generalizing st os with
  | nil => simp [runOps] at hr; obtain ⟨_, rfl⟩ := hr; exact h'
  | cons op ops ih =>
    refine ⟨h.1, ?_⟩
    intro o s1 h1
    simp only [runOps, M.bind_apply, h1] at hr
    cases h2 : runOps K ops s1 with
    | ok os2 s2 =>
      simp [h2] at hr
      obtain ⟨_, rfl⟩ := hr
      exact ih (h.2 _ _ h1) h2
    | throw _ _ => simp [h2] at hr
    | ub _ => simp [h2] at hr
    | timeout => simp [h2] at hr

theorem Reach.run {st' : DSt V} {e e' : Env V} {ops : List (Op V)} {os : List (Out V)} (h : Reach K st e)
    (hs : specRun e ops = some (e', os)) (hf : NoFault K ops st) (hr : runOps K ops st = .ok os st') :
    Reach K st' e' := by
  obtain ⟨ops0, outs0, h1, h0, h2⟩ := h
  refine ⟨ops0 ++ ops, outs0 ++ os, ?_, h0.append h2 hf, ?_⟩
  · rw [specRun_append h1, hs]; rfl
  · rw [runOps_append, h2]; simp [hr]

theorem Env.set_set (e : Env V) (x : Nat) (v w : Option (List V)) : (e.set x v).set x w = e.set x w := by
  funext y; simp only [Env.set]; split <;> rfl
@[simp] theorem Env.set_eq (e : Env V) (x : Nat) (v : Option (List V)) : (e.set x v) x = v := by
  simp [Env.set]

/-! ### A family of programs: `n` times push_back -/

theorem specStep_push {e : Env V} {xs : List V} (h : e x = some xs) (v : V) :
    specStep e (.pushBack x v) = some (e.set x (some (xs ++ [v])), .unit) := by simp [specStep, h]

theorem push_many (hK : 2 ≤ K) (n : Nat) (W : DW K st σ) (hA : AllLast K σ) (hx : σ x = some s) (v : V) :
    ∃ st' s', runOps K (List.replicate n (.pushBack x v)) st = .ok (List.replicate n .unit) st' ∧
      DW K st' (upd σ x (some s')) ∧ AllLast K (upd σ x (some s')) ∧
      s'.xs = s.xs ++ List.replicate n v ∧ s'.pos = s.pos ∧
      NoFault K (List.replicate n (.pushBack x v)) st ∧
      (s.stop + n ≤ s.chunks.length * K → s'.chunks = s.chunks ∧ s'.ccap = s.ccap) := by
  induction n generalizing st σ s with
  | zero =>
    refine ⟨st, s, rfl, by rwa [upd_eq_self hx], by rwa [upd_eq_self hx], by simp, rfl, trivial, fun _ => ⟨rfl, rfl⟩⟩
  | succ n ih =>
    have hnf := growsBack_noFault hK W hA (op := .pushBack x v) rfl
    obtain ⟨st1, h1, W1⟩ := pushBack_spec (v := v) (r := .ext v) hK W hx
      (fun h => hnf ((fault_iff hK W hx).1 h)) (fun _ _ => rfl)
    have r1 : runOp K (.pushBack x v) st = .ok .unit st1 := by simp [runOp, h1]
    obtain ⟨st2, s2, h2, W2, hA2, h3, h4, h5, h6⟩ := ih W1 (hA.upd ((hA x s hx).push _)) (upd_same _ _ _)
    rw [upd_upd] at W2 hA2
    refine ⟨st2, s2, ?_, W2, hA2, ?_, ?_, ⟨hnf, ?_⟩, ?_⟩
    · simp only [List.replicate_succ, runOps, M.bind_apply, r1, h2, M.pure_apply]
    · rw [h3, pushB_xs, List.append_assoc]; rfl
    · rw [h4]; unfold DV.pushB; split <;> rfl
    · intro o st' h; rw [r1] at h; cases h; exact h5
    · intro h
      rw [pushB_stop] at h6
      unfold DV.pushB at h6
      rw [if_neg (by omega)] at h6
      exact h6 (by simp only []; omega)

theorem spec_many (n : Nat) {e : Env V} {xs : List V} (h : e x = some xs) (v : V) :
    specRun e (List.replicate n (.pushBack x v)) =
      some (e.set x (some (xs ++ List.replicate n v)), List.replicate n .unit) := by
  induction n generalizing e xs with
  | zero => simp [specRun, set_self h]
  | succ n ih =>
    simp only [List.replicate_succ, specRun, specStep_push h]
    rw [ih (xs := xs ++ [v]) (by simp)]
    simp [Env.set_set]

/-- `deque<T> x;` followed by `n` times `x.push_back(v)`. -/
def fill (x n : Nat) (v : V) : List (Op V) := .new x :: List.replicate n (.pushBack x v)

theorem fill_spec (x n : Nat) (v : V) {e : Env V} (h : e x = none) :
    specRun e (fill x n v) = some (e.set x (some (List.replicate n v)), .unit :: List.replicate n .unit) := by
  simp only [fill, specRun, specStep, h]
  rw [spec_many n (xs := []) (by simp)]
  simp [Env.set_set]

theorem fill_run (hK : 2 ≤ K) (n : Nat) (v : V) (W : DW K st σ) (hA : AllLast K σ) (hx : σ x = none) :
    ∃ st' s', runOps K (fill x n v) st = .ok (.unit :: List.replicate n .unit) st' ∧
      DW K st' (upd σ x (some s')) ∧ AllLast K (upd σ x (some s')) ∧
      s'.xs = List.replicate n v ∧ s'.pos = K / 2 ∧ NoFault K (fill x n v) st ∧
      (K / 2 + n ≤ K → s'.chunks.length = 1 ∧ s'.ccap = 1) := by
  obtain ⟨st1, h1, W1⟩ := ctor_spec hK W hx
  have r1 : runOp K (.new x : Op V) st = .ok .unit st1 := by simp [runOp, h1]
  obtain ⟨st2, s2, h2, W2, hA2, h3, h4, h5, h6⟩ :=
    push_many hK n W1 (hA.upd (ctor_lastC hK _)) (upd_same _ _ _) v
  rw [upd_upd] at W2 hA2
  refine ⟨st2, s2, ?_, W2, hA2, by simpa using h3, h4, ⟨fun h => h, ?_⟩, ?_⟩
  · simp only [fill, runOps, M.bind_apply, r1, h2, M.pure_apply]
  · intro o st' h; rw [r1] at h; cases h; exact h5
  · intro h
    obtain ⟨h7, h8⟩ := h6 (by simp [DV.stop]; exact h)
    rw [h7, h8]; exact ⟨rfl, rfl⟩

/-- The state after `fill` as a reachable state, with the layout made explicit. -/
theorem fill_reach (hK : 2 ≤ K) (n : Nat) (v : V) :
    ∃ (st : DSt V) (s : DV V) (σ : Nat → Option (DV V)),
      Reach K st (Env.none.set 0 (some (List.replicate n v))) ∧
      DW K st σ ∧ σ 0 = some s ∧ AllLast K σ ∧ s.xs = List.replicate n v ∧ s.pos = K / 2 ∧
      runOps K (fill 0 n v) St.init = .ok (.unit :: List.replicate n .unit) st := by
  obtain ⟨st, s, h1, h2, h3, h4, h5, h6, _⟩ := fill_run (x := 0) hK n v (World.init (I := dqI K V))
    (fun _ _ h => by cases h) rfl
  exact ⟨st, s, _, ⟨_, _, fill_spec 0 n v rfl, h6, h1⟩, h2, upd_same _ _ _, h3, h4, h5, h1⟩

/-! ### C11 -/

/-- **C11 (refuted).** The full statement — every program that respects the interface behaves as a
double-ended sequence — fails: for every chunk size, push_back across one chunk boundary, one pop_back,
one push_back and reading the last element is undefined behaviour. -/
theorem C11_deque_history_refuted (hK : 2 ≤ K) (v : V) :
    ∃ ops : List (Op V), (specRun Env.none ops).isSome ∧
      ops = .new 0 :: List.replicate (K - K / 2 + 1) (.pushBack 0 v) ++ [.popBack 0, .pushBack 0 v, .get 0 (K - K / 2)] ∧
      ∃ u, runOps K ops St.init = .ub u := by
  obtain ⟨st, s, σ, _, W, hs, hA, hxs, hpos, hrun⟩ := fill_reach hK (K - K / 2 + 1) v
  refine ⟨fill 0 (K - K / 2 + 1) v ++ [.popBack 0, .pushBack 0 v, .get 0 (K - K / 2)], ?_, rfl, ?_⟩
  · rw [specRun_append (fill_spec 0 _ v rfl)]
    simp [specRun, specStep]
  · rw [runOps_append, hrun]
    simp only []
    have hlen : s.xs.length = K - K / 2 + 1 := by simp [hxs]
    have hne : s.xs ≠ [] := by intro h; simp [h] at hlen
    obtain ⟨st1, h1, W1⟩ := popBack_spec hK W hs hne
    have hL := hA 0 s hs
    have hle := W_le W hs
    have hstop : s.stop = K + 1 := by simp only [DV.stop, hpos, hlen]; omega
    have hf : DV.fault K ({ s with xs := s.xs.dropLast } : DV V) := by
      have : DV.stop ({ s with xs := s.xs.dropLast } : DV V) = K := by
        simp only [DV.stop, List.length_dropLast, hlen, hpos]; omega
      refine ⟨by rw [this]; simp, ?_⟩
      rw [this]
      intro h
      have h1 : s.chunks.length * K = K := h.symm
      omega
    obtain ⟨u, hu⟩ := pushBack_fault (v := v) (r := .ext v) hK W1 (upd_same _ _ _) hf (fun _ _ => rfl)
    have hl2 : ({ s with xs := s.xs.dropLast } : DV V).xs.length = K - K / 2 := by simp [hlen]
    rw [hl2] at hu
    simp only [M.bind_apply] at hu
    simp only [runOps, runOp, M.bind_apply, h1, M.pure_apply]
    cases hp : pushBack K 0 (.ext v) st1 with
    | ok _ st2 =>
      rw [hp] at hu
      simp only [] at hu ⊢
      rw [hu]
      exact ⟨u, rfl⟩
    | throw _ _ => rw [hp] at hu; simp at hu
    | ub u => exact ⟨u, rfl⟩
    | timeout => rw [hp] at hu; simp at hu

/-- The program of the refutation for the chunk size of the source. -/
example : ∃ u, runOps (V := Nat) 1024
    (.new 0 :: List.replicate 513 (.pushBack 0 7) ++ [.popBack 0, .pushBack 0 7, .get 0 512]) St.init = .ub u := by
  obtain ⟨_, _, rfl, h⟩ := C11_deque_history_refuted (K := 1024) (by omega) (7 : Nat)
  exact h

/-- **C11 (partial).** Missing: programs that meet one of the faults of `opFault`.  Every program that
respects the interface and meets none runs without undefined behaviour, exception or divergence, and
every observation equals that of mathematical sequences. -/
theorem C11_deque_history_partial (hK : 2 ≤ K) {ops : List (Op V)} {e : Env V} {outs : List (Out V)}
    (h : specRun Env.none ops = some (e, outs)) (hf : NoFault K ops St.init) :
    ∃ st, runOps K ops St.init = .ok outs st := by
  obtain ⟨st, σ, r, _, _⟩ := run_refines hK (World.init (I := dqI K V)) rfl h hf
  exact ⟨st, r⟩

/-- **C11 (the push_back fault is real in every state).** Whenever the back chunk is full but not the
last one, push_back followed by reading the new last element is undefined behaviour, in every reachable
state: `opFault` is not an artefact of the proof. -/
theorem C11_deque_fault_exact (hK : 2 ≤ K) {e : Env V} (h : Reach K st e) {xs : List V} (hx : e x = some xs)
    (hf : opFault K st (.pushBack x v)) :
    ∃ u, runOps K [.pushBack x v, .get x xs.length] st = .ub u := by
  obtain ⟨σ, W, he⟩ := reach_world hK h
  obtain ⟨s, hx', rfl⟩ := envOf_some he hx
  obtain ⟨u, hu⟩ := pushBack_fault (v := v) (r := .ext v) hK W hx' ((fault_iff hK W hx').2 hf) (fun _ _ => rfl)
  simp only [M.bind_apply] at hu
  simp only [runOps, runOp, M.bind_apply, M.pure_apply]
  cases hp : pushBack K x (.ext v) st with
  | ok _ st2 =>
    rw [hp] at hu
    simp only [] at hu ⊢
    rw [hu]
    exact ⟨u, rfl⟩
  | throw _ _ => rw [hp] at hu; simp at hu
  | ub u => exact ⟨u, rfl⟩
  | timeout => rw [hp] at hu; simp at hu

/-- A reachable state with a fault. -/
theorem fault_witness (hK : 2 ≤ K) (v : V) : ∃ (st : DSt V) (e : Env V), Reach K st e ∧
    e 0 = some (List.replicate (K - K / 2) v) ∧ opFault K st (.pushBack 0 v) := by
  obtain ⟨st, s, σ, hR, W, hs, hA, hxs, hpos, hrun⟩ := fill_reach hK (K - K / 2 + 1) v
  have hlen : s.xs.length = K - K / 2 + 1 := by simp [hxs]
  have hne : s.xs ≠ [] := by intro h; simp [h] at hlen
  obtain ⟨st1, h1, W1⟩ := popBack_spec hK W hs hne
  have hL := hA 0 s hs
  have hle := W_le W hs
  have hstop : s.stop = K + 1 := by simp only [DV.stop, hpos, hlen]; omega
  have hf : DV.fault K ({ s with xs := s.xs.dropLast } : DV V) := by
    have : DV.stop ({ s with xs := s.xs.dropLast } : DV V) = K := by
      simp only [DV.stop, List.length_dropLast, hlen, hpos]; omega
    refine ⟨by rw [this]; simp, ?_⟩
    rw [this]
    intro h
    have h1 : s.chunks.length * K = K := h.symm
    omega
  refine ⟨st1, _, hR.run (ops := [.popBack 0]) (os := [.unit]) (by simp [specRun, specStep]; rfl)
    ⟨fun h => h, fun _ _ _ => trivial⟩ (by simp [runOps, runOp, h1]), ?_, (fault_iff hK W1 (upd_same _ _ _)).1 hf⟩
  simp

example : ∃ (st : DSt Nat) (e : Env Nat) (xs : List Nat), Reach 1024 st e ∧ e 0 = some xs ∧
    opFault 1024 st (.pushBack 0 7) := by
  obtain ⟨st, e, h1, h2, h3⟩ := fault_witness (K := 1024) (by omega) 7
  exact ⟨st, e, _, h1, h2, h3⟩

/-! ### C12 -/

/-- **C12 (growing at the back).** Every program that uses push_back, push_front, pop_front, element
access, construction from lists and copies, and destruction — but no pop_back, clear, copy assignment or
iteration — behaves as mathematical sequences. -/
theorem C12_deque_no_pop_back (hK : 2 ≤ K) {ops : List (Op V)} {e : Env V} {outs : List (Out V)}
    (h : specRun Env.none ops = some (e, outs)) (hg : ∀ op ∈ ops, op.growsBack) :
    ∃ st, runOps K ops St.init = .ok outs st := by
  obtain ⟨st, σ, r, _⟩ := run_grows hK (World.init (I := dqI K V)) (fun _ _ h => by cases h) rfl h hg
  exact ⟨st, r⟩

/-- **C12 (no push_back).** The same for every program without push_back, copy assignment and iteration,
with pop_back and clear. -/
theorem C12_deque_no_push_back (hK : 2 ≤ K) {ops : List (Op V)} {e : Env V} {outs : List (Out V)}
    (h : specRun Env.none ops = some (e, outs)) (hg : ∀ op ∈ ops, op.noPushBack) :
    ∃ st, runOps K ops St.init = .ok outs st := by
  obtain ⟨st, σ, r, _⟩ := run_noPushBack hK (World.init (I := dqI K V)) rfl h hg
  exact ⟨st, r⟩

/-- Programs of both classes; the first crosses chunk boundaries in both directions for small `K`. -/
example : let ops : List (Op Nat) := [.newList 0 [1, 2, 3, 4, 5], .pushFront 0 9, .pushFront 0 8, .pushBackFrom 0 0 0,
      .popFront 0, .newCopy 1 0, .get 1 5, .front 0, .back 0, .size 1, .destroy 0]
    (∀ op ∈ ops, op.growsBack) ∧ (specRun Env.none ops).map Prod.snd =
      some [.unit, .unit, .unit, .unit, .unit, .unit, .val 5, .val 9, .val 8, .nat 7, .unit] :=
  ⟨by decide, rfl⟩
example : let ops : List (Op Nat) := [.newList 0 [1, 2, 3], .pushFront 0 9, .popBack 0, .popBack 0, .pushFrontFrom 0 0 1,
      .back 0, .clear 0, .popBack 0, .pushFront 0 4, .get 0 0, .empty 0]
    (∀ op ∈ ops, op.noPushBack) ∧ (specRun Env.none ops).map Prod.snd =
      some [.unit, .unit, .unit, .unit, .unit, .val 1, .unit, .unit, .unit, .val 4, .bool false] :=
  ⟨by decide, rfl⟩

/-! ### C13 -/

/-- **C13.** In every reachable state, `x[i]` designates the `i`-th element: reading yields it, and
assigning changes exactly it. -/
theorem C13_deque_index (hK : 2 ≤ K) {e : Env V} (h : Reach K st e) {xs : List V} (hx : e x = some xs)
    {i : Nat} (hi : i < xs.length) :
    get K x i st = .ok xs[i] st ∧
    ∀ w, ∃ st', set K x i w st = .ok () st' ∧ Reach K st' (e.set x (some (xs.set i w))) ∧
      ∀ j (hj : j < xs.length), get K x j st' = .ok (if j = i then w else xs[j]) st' := by
  obtain ⟨σ, W, he⟩ := reach_world hK h
  obtain ⟨s, hx', rfl⟩ := envOf_some he hx
  refine ⟨get_spec (by omega) W hx' (by simp), ?_⟩
  intro w
  obtain ⟨st', h1, W'⟩ := set_spec (v := w) (by omega) W hx' hi
  refine ⟨st', h1, h.run (ops := [.set x i w]) (os := [.unit]) (by simp [specRun, specStep, hx, hi])
    ⟨fun h => h, fun _ _ _ => trivial⟩ (by simp [runOps, runOp, h1]), ?_⟩
  intro j hj
  refine get_spec (by omega) W' (upd_same _ _ _) ?_
  simp only [List.getElem?_set]
  by_cases hji : j = i
  · subst hji; simp [hj]
  · simp [hji, Ne.symm hji, hj]

/-- Reachable states of every size exist. -/
example : ∃ st : DSt Nat, ∃ e, Reach 1024 st e ∧ e 0 = some (List.replicate 3000 7) ∧ 2999 < (List.replicate 3000 7).length := by
  obtain ⟨st, s, σ, hR, _⟩ := fill_reach (K := 1024) (by omega) 3000 7
  exact ⟨st, _, hR, Env.set_eq _ _ _, by rw [List.length_replicate]; omega⟩

/-! ### C14 -/

/-- **C14 (refuted).** Iterating over the deque obtained from `K - K/2` (512) times push_back is
undefined behaviour. -/
theorem C14_deque_iteration_refuted (hK : 2 ≤ K) (v : V) :
    (specRun Env.none (fill 0 (K - K / 2) v ++ [.toList 0])).isSome ∧
      ∃ u, runOps K (fill 0 (K - K / 2) v ++ [.toList 0]) St.init = .ub u := by
  obtain ⟨st, s, σ, _, W, hs, hA, hxs, hpos, hrun⟩ := fill_reach hK (K - K / 2) v
  refine ⟨?_, ?_⟩
  · rw [specRun_append (fill_spec 0 _ v rfl)]
    simp [specRun, specStep]
  · rw [runOps_append, hrun]
    simp only []
    have hstop : s.stop = K := by simp only [DV.stop, hpos, hxs, List.length_replicate]; omega
    obtain ⟨u, hu⟩ := toList_ub (by omega) W hs (by rw [hstop]; simp) (Nat.lt_succ_self _)
    refine ⟨u, ?_⟩
    simp only [runOps, runOp, M.bind_apply, size_spec W hs, hu]

/-- **C14 (partial).** Missing: states in which the last element occupies the last slot of its chunk
(`m_back == CHUNK_SIZE - 1`).  In every other reachable state iteration from begin() to end() visits the
elements in order, once each; in those states it is always undefined. -/
theorem C14_deque_iteration_partial (hK : 2 ≤ K) {e : Env V} (h : Reach K st e) {xs : List V}
    (hx : e x = some xs) {o : Obj} (ho : st.objs x = some o) {fuel : Nat} (hf : xs.length < fuel) :
    (o.back ≠ K - 1 → toList K x fuel st = .ok xs st) ∧
    (o.back = K - 1 → ∃ u, toList K x fuel st = .ub u) := by
  obtain ⟨σ, W, he⟩ := reach_world hK h
  obtain ⟨s, hx', rfl⟩ := envOf_some he hx
  rw [W_obj W hx'] at ho; cases ho
  rw [Ne, back_last_iff hK]
  exact ⟨fun hb => toList_spec (by omega) W hx' hb hf, fun hb => toList_ub (by omega) W hx' hb hf⟩

/-- A state over three chunks in which iteration works. -/
example : ∃ st : DSt Nat, ∃ e o, Reach 1024 st e ∧ e 0 = some (List.replicate 2000 7) ∧ st.objs 0 = some o ∧
    o.back ≠ 1023 := by
  obtain ⟨st, s, σ, hR, W, hs, _, h1, h2, _⟩ := fill_reach (K := 1024) (by omega) 2000 7
  refine ⟨st, _, _, hR, Env.set_eq _ _ _, W_obj W hs, ?_⟩
  simp only [DV.obj, DV.stop, h1, h2, List.length_replicate]
  omega

/-! ### C15 -/

/-- `it = begin() + i; ++it; --it;` -/
def incDec (K x i : Nat) : DM V It := do
  let it ← iterAt K x i
  let it ← it.inc K x
  it.dec x

/-- **C15 (partial).** Missing: element `i` in the last slot of its chunk.  Otherwise --(++it) is the same
iterator. -/
theorem C15_deque_dec_inc_partial (hK : 2 ≤ K) {e : Env V} (h : Reach K st e) {xs : List V}
    (hx : e x = some xs) {o : Obj} (ho : st.objs x = some o) {i : Nat} (hi : i + 1 < xs.length)
    (hl : (o.front + i) % K ≠ K - 1) :
    ∃ it, iterAt K x i st = .ok it st ∧ incDec K x i st = .ok it st ∧ it.deref st = .ok xs[i] st := by
  have hK0 : 0 < K := by omega
  obtain ⟨σ, W, he⟩ := reach_world hK h
  obtain ⟨s, hx', rfl⟩ := envOf_some he hx
  rw [W_obj W hx'] at ho; cases ho
  have hl' : (s.pos + i) % K ≠ K - 1 := by
    have := (locate_pos (K := K) (p := s.pos) (i := i) hK0).2
    rw [← this]; exact hl
  obtain ⟨it, h1, h2⟩ := iterAt_ok hK0 W hx' (i := i) (by omega)
  obtain ⟨it1, h3, h4⟩ := h2.inc_ok hK0 (W_obj W hx') (fun h => absurd h hl')
  obtain ⟨it2, h5, h6⟩ := h4.dec_mid hK0 (o := s.obj K) (W_obj W hx') (by
    rw [(succ_mid hK0 hl').1]; omega)
  refine ⟨it, h1, ?_, h2.deref_ok hK0 (W_heap W hx') (by rw [cell_at]; simp)⟩
  simp only [incDec, M.bind_apply, h1, h3, h5]
  rw [h2.eq (by exact h6)]

/-- **C15 (refuted).** At the last slot of a chunk the iterator comes back to the first slot of that
chunk; in the deque obtained from `K - K/2 + 1` (513) times push_back dereferencing it is undefined
behaviour. -/
theorem C15_deque_dec_inc_refuted (hK : 2 ≤ K) (v : V) :
    ∃ (st : DSt V) (e : Env V) (xs : List V) (i : Nat), Reach K st e ∧ e 0 = some xs ∧ i + 1 < xs.length ∧
      ∃ it it', iterAt K 0 i st = .ok it st ∧ incDec K 0 i st = .ok it' st ∧ it' ≠ it ∧
        it'.off = 0 ∧ it'.deref st = .ub .deadRead := by
  have hK0 : 0 < K := by omega
  obtain ⟨st, s, σ, hR, W, hs, hA, hxs, hpos, hrun⟩ := fill_reach hK (K - K / 2 + 1) v
  have hlen : s.xs.length = K - K / 2 + 1 := by simp [hxs]
  refine ⟨st, _, s.xs, K - K / 2 - 1, hR, by simp [Env.set, hxs], by omega, ?_⟩
  obtain ⟨it, h1, h2⟩ := iterAt_ok hK0 W hs (i := K - K / 2 - 1) (by omega)
  have hg : s.pos + (K - K / 2 - 1) = K - 1 := by omega
  rw [hg] at h2
  have hlt := idx_lt W hs (i := K - K / 2) (by omega)
  have hgk : s.pos + (K - K / 2) = K := by omega
  rw [hgk] at hlt
  have hm : (K - 1) % K = K - 1 := Nat.mod_eq_of_lt (by omega)
  obtain ⟨it1, h3, h4⟩ := h2.inc_ok hK0 (W_obj W hs) (by
    intro _
    have h1 := (succ_last hK0 hm).2
    have h3 := (lt_chunks hK0).2 hlt
    have : K - 1 + 1 = K := by omega
    rw [this] at h1
    rw [h1] at h3
    exact h3)
  rw [show K - 1 + 1 = K by omega] at h4
  obtain ⟨it2, h5, h6⟩ := h4.dec_start hK0 (o := s.obj K) (W_obj W hs) (by simp) (by omega)
  rw [Nat.sub_self] at h6
  have hoff : it2.off = 0 := by rw [h6.2.1]; simp
  refine ⟨it, it2, h1, by simp only [incDec, M.bind_apply, h1, h3, h5], ?_, hoff, ?_⟩
  · rintro rfl
    have := h2.2.1
    rw [hm] at this; omega
  · exact h6.deref_dead hK0 (W_heap W hs) (cell_before (by omega))

/-- The hypotheses of the partial theorem hold for element 1000 of 2000. -/
example : ∃ st : DSt Nat, ∃ e o, Reach 1024 st e ∧ e 0 = some (List.replicate 2000 7) ∧ st.objs 0 = some o ∧
    (o.front + 1000) % 1024 ≠ 1023 := by
  obtain ⟨st, s, σ, hR, W, hs, _, h1, h2, _⟩ := fill_reach (K := 1024) (by omega) 2000 7
  refine ⟨st, _, _, hR, Env.set_eq _ _ _, W_obj W hs, ?_⟩
  simp [DV.obj, h2]

/-! ### C16 -/

/-- `(begin() + i) - (begin() + j)` -/
def itDiff (K x i j : Nat) : DM V Int := do
  let a ← iterAt K x i
  let b ← iterAt K x j
  It.sub K x a b

/-- **C16 (partial).** Missing: elements in different chunks.  The difference of the iterators to elements
`i` and `j` is the difference of their offsets inside their chunks; within one chunk it is `i - j`. -/
theorem C16_deque_iter_diff_partial (hK : 2 ≤ K) {e : Env V} (h : Reach K st e) {xs : List V}
    (hx : e x = some xs) {o : Obj} (ho : st.objs x = some o) {i j : Nat} (hi : i < xs.length) (hj : j < xs.length) :
    itDiff K x i j st = .ok ((((o.front + i) % K : Nat) : Int) - ((o.front + j) % K : Nat)) st ∧
    ((o.front + i) / K = (o.front + j) / K → itDiff K x i j st = .ok ((i : Int) - j) st) := by
  have hK0 : 0 < K := by omega
  obtain ⟨σ, W, he⟩ := reach_world hK h
  obtain ⟨s, hx', rfl⟩ := envOf_some he hx
  rw [W_obj W hx'] at ho; cases ho
  obtain ⟨a, h1, h2⟩ := iterAt_ok hK0 W hx' hi
  obtain ⟨b, h3, h4⟩ := iterAt_ok hK0 W hx' hj
  have e1 : ((s.obj K).front + i) % K = (s.pos + i) % K := (locate_pos hK0).2
  have e2 : ((s.obj K).front + j) % K = (s.pos + j) % K := (locate_pos hK0).2
  have key : itDiff K x i j st = .ok (((((s.obj K).front + i) % K : Nat) : Int) - (((s.obj K).front + j) % K : Nat)) st := by
    simp only [itDiff, M.bind_apply, h1, h3]
    rw [h2.sub_ok (W_obj W hx') h4, e1, e2]
  refine ⟨key, fun hc => ?_⟩
  rw [key]
  congr 1
  have d1 := Nat.div_add_mod ((s.obj K).front + i) K
  have d2 := Nat.div_add_mod ((s.obj K).front + j) K
  rw [hc] at d1
  generalize K * (((s.obj K).front + j) / K) = q at *
  omega

/-- **C16 (refuted).** In the deque obtained from `K - K/2 + 1` (513) times push_back,
`(end() - 1) - begin()` is negative. -/
theorem C16_deque_iter_diff_refuted (hK : 2 ≤ K) (v : V) :
    ∃ (st : DSt V) (e : Env V) (xs : List V) (d : Int), Reach K st e ∧ e 0 = some xs ∧ 0 < xs.length ∧
      itDiff K 0 (xs.length - 1) 0 st = .ok d st ∧ d < 0 ∧ d ≠ ((xs.length - 1 : Nat) : Int) - (0 : Nat) := by
  obtain ⟨st, s, σ, hR, W, hs, hA, hxs, hpos, hrun⟩ := fill_reach hK (K - K / 2 + 1) v
  have hK0 : 0 < K := by omega
  have hlen : s.xs.length = K - K / 2 + 1 := by simp [hxs]
  have hd := (C16_deque_iter_diff_partial hK hR (x := 0) (xs := s.xs) (by simp [Env.set, hxs]) (W_obj W hs)
    (i := s.xs.length - 1) (j := 0) (by omega) (by omega)).1
  have hfr : (s.obj K).front = K / 2 := by
    show s.pos % K = _
    rw [hpos]; exact Nat.mod_eq_of_lt (by omega)
  refine ⟨st, _, s.xs, _, hR, by simp [Env.set, hxs], by omega, hd, ?_, ?_⟩ <;> rw [hfr, hlen]
  · rw [show K / 2 + (K - K / 2 + 1 - 1) = K by omega, Nat.mod_self, Nat.add_zero, Nat.mod_eq_of_lt (by omega : K / 2 < K)]
    omega
  · rw [show K / 2 + (K - K / 2 + 1 - 1) = K by omega, Nat.mod_self, Nat.add_zero, Nat.mod_eq_of_lt (by omega : K / 2 < K)]
    omega

example : ∃ st : DSt Nat, ∃ e o, Reach 1024 st e ∧ e 0 = some (List.replicate 2000 7) ∧ st.objs 0 = some o ∧
    (o.front + 1000) / 1024 = (o.front + 600) / 1024 := by
  obtain ⟨st, s, σ, hR, W, hs, _, h1, h2, _⟩ := fill_reach (K := 1024) (by omega) 2000 7
  refine ⟨st, _, _, hR, Env.set_eq _ _ _, W_obj W hs, ?_⟩
  simp [DV.obj, h2]

/-! ### C17 -/

/-- **C17 (no leak).** After any program without faults at whose end no deque is alive nothing is
allocated. -/
theorem C17_deque_no_leak (hK : 2 ≤ K) {ops : List (Op V)} {e : Env V} {outs : List (Out V)}
    (h : specRun Env.none ops = some (e, outs)) (hf : NoFault K ops St.init) (hd : ∀ x, e x = none) :
    ∃ st, runOps K ops St.init = .ok outs st ∧ ∀ a, st.mem a = none := by
  obtain ⟨st, σ, r, W, he⟩ := run_refines hK (World.init (I := dqI K V)) rfl h hf
  exact ⟨st, r, W.empty_mem (fun x => envOf_none he (hd x))⟩

/-- **C17 (exact lifetimes).** In every reachable state every allocated block is a chunk of exactly one
living deque, has CHUNK_SIZE slots, and contains exactly that deque's elements with the linear positions
of the chunk: slot `i` of chunk `j` is element `K*j + i - (m_front_chunk*K + m_front)`. -/
theorem C17_deque_storage (hK : 2 ≤ K) {e : Env V} (h : Reach K st e) {a : Nat} {b : Blk V}
    (hb : st.mem a = some b) :
    ∃ x xs o j, e x = some xs ∧ st.objs x = some o ∧ o.chunks[j]? = some a ∧ b.len = K ∧
      (∀ i, i < K → b.slot i = if o.fchunk * K + o.front ≤ K * j + i
        then xs[K * j + i - (o.fchunk * K + o.front)]? else none) ∧
      ∀ y oy j', st.objs y = some oy → oy.chunks[j']? = some a → y = x ∧ j' = j := by
  obtain ⟨σ, W, rfl⟩ := reach_world hK h
  obtain ⟨x, hx⟩ := W.own a (by simp [hb])
  cases hs : σ x with
  | none => simp [hs] at hx
  | some s =>
    simp [hs] at hx
    obtain ⟨j, hj⟩ := List.mem_iff_getElem?.1 hx
    have hm := W_heap W hs j a hj
    rw [hb] at hm
    cases hm
    have hp : (s.obj K).fchunk * K + (s.obj K).front = s.pos := by
      show s.pos / K * K + s.pos % K = s.pos
      rw [Nat.mul_comm]; exact Nat.div_add_mod _ _
    refine ⟨x, s.xs, s.obj K, j, by simp [envOf, hs], W_obj W hs, hj, rfl, ?_, ?_⟩
    · intro i hi
      rw [hp]
      simp only [blk, cell, hi, if_true]
    · intro y oy j' hy hj'
      cases hsy : σ y with
      | none => rw [W.dom y hsy] at hy; cases hy
      | some sy =>
        rw [W_obj W hsy] at hy; cases hy
        have hxy : y = x := W.disj y x a (by simp [hsy]; exact List.mem_of_getElem? hj') (by simpa [hs] using hx)
        subst hxy
        rw [hs] at hsy; cases hsy
        exact ⟨rfl, nodup_inj (W_nodup W hs) hj' hj⟩

example : let ops : List (Op Nat) := [.newList 0 [1, 2, 3], .newCopy 1 0, .pushFront 1 4, .destroy 0, .destroy 1]
    NoFault 1024 ops St.init ∧ ∃ e, specRun Env.none ops = some (e, [.unit, .unit, .unit, .unit, .unit]) ∧
      ∀ x, e x = none :=
  ⟨⟨fun h => h, fun _ _ _ => ⟨fun h => h, fun _ _ _ => ⟨fun h => h, fun _ _ _ => ⟨fun h => h, fun _ _ _ =>
    ⟨fun h => h, fun _ _ _ => trivial⟩⟩⟩⟩⟩, _, rfl, by intro x; simp [Env.set, Env.none]; grind⟩

/-! ### C18 -/

/-- **C18 (pop on empty).** pop_back and pop_front on an empty deque leave the whole state unchanged. -/
theorem C18_deque_pop_empty (hK : 2 ≤ K) {e : Env V} (h : Reach K st e) (hx : e x = some []) :
    popBack K x st = .ok () st ∧ popFront K x st = .ok () st := by
  obtain ⟨σ, W, he⟩ := reach_world hK h
  obtain ⟨s, hx', hs⟩ := envOf_some he hx
  exact ⟨popBack_empty W hx' hs, popFront_empty W hx' hs⟩

/-- **C18 (clear).** clear() leaves an empty deque with the same chunks, none of which contains a live
element any more, and allocates nothing. -/
theorem C18_deque_clear (hK : 2 ≤ K) {e : Env V} (h : Reach K st e) {xs : List V} (hx : e x = some xs)
    {o : Obj} (ho : st.objs x = some o) :
    ∃ st' o', clear K x st = .ok () st' ∧ Reach K st' (e.set x (some [])) ∧ st'.objs x = some o' ∧
      o'.chunks = o.chunks ∧ o'.size = 0 ∧
      ∀ a ∈ o.chunks, ∃ b, st'.mem a = some b ∧ b.len = K ∧ ∀ i, b.slot i = none := by
  obtain ⟨σ, W, he⟩ := reach_world hK h
  obtain ⟨s, hx', rfl⟩ := envOf_some he hx
  rw [W_obj W hx'] at ho; cases ho
  obtain ⟨st', h1, W'⟩ := clear_spec hK W hx'
  have hs' := upd_same σ x (some (s.cleared K))
  refine ⟨st', _, h1, h.run (ops := [.clear x]) (os := [.unit]) (by simp [specRun, specStep, hx])
    ⟨fun h => h, fun _ _ _ => trivial⟩ (by simp [runOps, runOp, h1]), W_obj W' hs', rfl, rfl, ?_⟩
  intro a ha
  obtain ⟨j, hj⟩ := List.mem_iff_getElem?.1 ha
  refine ⟨_, W_heap W' hs' j a hj, rfl, ?_⟩
  intro i
  simp [blk, DV.cleared, cell_nil]

example : ∃ (st : DSt Nat) (e : Env Nat), Reach 1024 st e ∧ e 0 = some [] := by
  obtain ⟨st, s, σ, hR, _⟩ := fill_reach (K := 1024) (by omega) 0 7
  exact ⟨st, _, hR, Env.set_eq _ _ _⟩

/-! ### C19 -/

/-- **C19 (copy construction).** The copy equals the source and nothing else changes; from then on the two
are independent because the state is again reachable (every later observation is the specification's). -/
theorem C19_deque_copy (hK : 2 ≤ K) {e : Env V} (h : Reach K st e) {ys : List V} (hx : e x = none)
    (hy : e y = some ys) :
    ∃ st', copyCtor K x y st = .ok () st' ∧ Reach K st' (e.set x (some ys)) := by
  obtain ⟨σ, W, he⟩ := reach_world hK h
  obtain ⟨s, hy', rfl⟩ := envOf_some he hy
  obtain ⟨st', s', h1, W', h2, h3⟩ := copyCtor_spec hK W (envOf_none he hx) hy'
  exact ⟨st', h1, h.run (ops := [.newCopy x y]) (os := [.unit]) (by simp [specRun, specStep, hx, hy])
    ⟨fun h => h, fun _ _ _ => trivial⟩ (by simp [runOps, runOp, h1])⟩

/-- **C19 (copy assignment, partial).** Missing: self-assignment of a non-empty deque, and targets with more
than two chunks receiving more than half a chunk of elements (both refuted below).  Otherwise the target
becomes equal to the source and nothing else changes. -/
theorem C19_deque_assign_partial (hK : 2 ≤ K) {e : Env V} (h : Reach K st e) {xs ys : List V}
    (hx : e x = some xs) (hy : e y = some ys) (hf : ¬ opFault K st (.assign x y)) :
    ∃ st', assign K x y st = .ok () st' ∧ Reach K st' (e.set x (some ys)) := by
  obtain ⟨σ, W, he⟩ := reach_world hK h
  obtain ⟨st', σ', h1, W', h2, _⟩ := step_refines hK W he (op := .assign x y) (o := .unit)
    (e' := e.set x (some ys)) (by simp [specStep, hx, hy]) hf
  have h3 : assign K x y st = .ok () st' := by
    simp only [runOp, M.bind_apply] at h1
    cases ha : assign K x y st <;> rw [ha] at h1 <;> simp at h1
    rw [h1]
  exact ⟨st', h3, h.run (ops := [.assign x y]) (os := [.unit]) (by simp [specRun, specStep, hx, hy])
    ⟨hf, fun _ _ _ => trivial⟩ (by simp [runOps, runOp, h3])⟩

/-- **C19 (self-assignment, refuted).** `x = x` empties every deque. -/
theorem C19_deque_self_assign_refuted (hK : 2 ≤ K) {e : Env V} (h : Reach K st e) {xs : List V}
    (hx : e x = some xs) : ∃ st', assign K x x st = .ok () st' ∧ size x st' = .ok 0 st' := by
  obtain ⟨σ, W, he⟩ := reach_world hK h
  obtain ⟨s, hx', rfl⟩ := envOf_some he hx
  obtain ⟨st', h1, W'⟩ := assign_self hK W hx'
  exact ⟨st', h1, size_spec W' (upd_same _ _ _)⟩

theorem pushFrom_snoc (n i : Nat) (st : DSt V) : pushFrom K x y i (n + 1) st =
    (do pushFrom K x y i n; pushFrom K x y (i + n) 1 : DM V Unit) st := by
  induction n generalizing i st with
  | zero => simp [pushFrom]
  | succ n ih =>
    rw [pushFrom]
    simp only [M.bind_apply]
    conv => rhs; rw [pushFrom]
    simp only [M.bind_apply]
    cases locate K y i st with
    | ok p st1 =>
      simp only [M.bind_apply]
      cases pushBack K x (.cell p.1 p.2) st1 with
      | ok _ st2 =>
        simp only []
        rw [ih]
        simp only [M.bind_apply]
        rw [show i + 1 + n = i + (n + 1) by omega]
      | throw _ _ => rfl
      | ub _ => rfl
      | timeout => rfl
    | throw _ _ => rfl
    | ub _ => rfl
    | timeout => rfl

/-- Assigning one element more than fits behind the middle of a deque of at least three chunks. -/
theorem assign_fault (hK : 2 ≤ K) (W : DW K st σ) (hx : σ x = some s) (hy : σ y = some sy) (hxy : x ≠ y)
    (hc : 2 < s.chunks.length) (hn : sy.xs.length = K - K / 2 + 1) :
    ∃ u, (do assign K x y; get K x (K - K / 2) : DM V V) st = .ub u := by
  have hK0 : 0 < K := by omega
  obtain ⟨st1, h1, W1⟩ := clear_spec hK W hx
  have hy1 : (upd σ x (some (s.cleared K))) y = some sy := by simp [Ne.symm hxy, hy]
  have hmod : (s.cleared K).stop % K = K / 2 := by
    have := dm (K := K) (q := s.chunks.length / 2) (r := K / 2) (by omega)
    simp only [DV.stop, DV.cleared, List.length_nil, Nat.add_zero]; exact this.2
  have hq : K * (s.chunks.length / 2) + K < s.chunks.length * K := by
    have : (s.chunks.length / 2 + 1 + 1) * K ≤ s.chunks.length * K := Nat.mul_le_mul_right K (by omega)
    rw [Nat.add_mul, Nat.add_mul, Nat.mul_comm _ K] at this
    omega
  have hmid : ∀ e, K * (s.chunks.length / 2) < e → e < K * (s.chunks.length / 2) + K → e % K ≠ 0 := by
    intro e h1 h2
    have := dm (K := K) (q := s.chunks.length / 2) (r := e - K * (s.chunks.length / 2)) (by omega)
    rw [show K * (s.chunks.length / 2) + (e - K * (s.chunks.length / 2)) = e by omega] at this
    omega
  obtain ⟨st2, s2, h3, W2, h4, h5⟩ := pushFrom_le hK
    (fun k t => t.chunks = s.chunks ∧ K * (s.chunks.length / 2) < t.stop ∧
      t.stop + k = K * (s.chunks.length / 2) + K)
    (by
      rintro k t w a _ ⟨g1, g2, g3⟩
      refine ⟨fun hf => hmid _ g2 (by omega) hf.1, ?_⟩
      rw [pushB_stop]
      refine ⟨?_, by omega, by omega⟩
      unfold DV.pushB
      rw [if_neg (by rw [g1]; omega)]
      exact g1)
    (n := K - K / 2) (i := 0) W1 (upd_same _ _ _) hy1 hxy (by omega)
    ⟨rfl, by simp [DV.stop, DV.cleared]; omega, by simp [DV.stop, DV.cleared]; omega⟩
  rw [upd_upd] at W2
  have hs2 := upd_same σ x (some s2)
  have hy2 : (upd σ x (some s2)) y = some sy := by simp [Ne.symm hxy, hy]
  obtain ⟨a, hl, hr⟩ := cell_read (i := K - K / 2) (v := sy.xs[K - K / 2]) hK0 W2 hy2 (by simp)
  have hf2 : s2.fault K := by
    refine ⟨?_, by rw [h5.1]; omega⟩
    have := h5.2.2
    rw [Nat.add_zero] at this
    rw [this]; simp
  obtain ⟨u, hu⟩ := pushBack_fault hK W2 hs2 hf2 hr
  have hl2 : s2.xs.length = K - K / 2 := by rw [h4]; simp [DV.cleared]; omega
  rw [hl2] at hu
  simp only [M.bind_apply] at hu
  simp only [assign, M.bind_apply, h1, size_spec W1 hy1, hn]
  rw [pushFrom_snoc]
  simp only [M.bind_apply, h3, pushFrom, Nat.zero_add, hl]
  cases hp : pushBack K x (.cell a ((sy.pos + (K - K / 2)) % K)) st2 with
  | ok _ st3 =>
    rw [hp] at hu
    simp only [] at hu ⊢
    exact ⟨u, hu⟩
  | throw _ _ => rw [hp] at hu; simp at hu
  | ub u => exact ⟨u, rfl⟩
  | timeout => rw [hp] at hu; simp at hu

/-- **C19 (copy assignment, refuted).** For every chunk size there are a deque with three chunks and a
source of `K - K/2 + 1` elements such that reading the last element after the assignment is undefined
behaviour. -/
theorem C19_deque_assign_refuted (hK : 2 ≤ K) (v : V) :
    let ops := fill 0 (2 * K) v ++ (fill 1 (K - K / 2 + 1) v ++ [.assign 0 1, .get 0 (K - K / 2)])
    (specRun Env.none ops).isSome ∧ ∃ u, runOps K ops St.init = .ub u := by
  obtain ⟨st, s, h1, W, hA, hxs, hpos, _⟩ := fill_run (x := 0) hK (2 * K) v (World.init (I := dqI K V))
    (fun _ _ h => by cases h) rfl
  obtain ⟨st2, s2, h2, W2, hA2, hxs2, hpos2, _⟩ := fill_run (x := 1) hK (K - K / 2 + 1) v W hA (by simp)
  refine ⟨?_, ?_⟩
  · rw [specRun_append (fill_spec 0 _ v rfl), specRun_append (fill_spec 1 _ v (by simp [Env.set, Env.none]))]
    simp [specRun, specStep, Env.set]
  · rw [runOps_append, h1]
    simp only []
    rw [runOps_append, h2]
    simp only []
    have h0 : (upd (upd (fun _ => none) 0 (some s)) 1 (some s2)) 0 = some s := by simp
    have hle := W_le W2 h0
    have hc : 2 < s.chunks.length := by
      apply Classical.byContradiction
      intro hc
      have h3 : s.chunks.length * K ≤ 2 * K := Nat.mul_le_mul_right K (by omega)
      simp only [DV.stop, hxs, hpos, List.length_replicate] at hle
      omega
    obtain ⟨u, hu⟩ := assign_fault hK W2 h0 (upd_same _ _ _) (by omega) hc (by simp [hxs2])
    simp only [M.bind_apply] at hu
    simp only [runOps, runOp, M.bind_apply, M.pure_apply]
    cases hp : assign K 0 1 st2 with
    | ok _ st3 =>
      rw [hp] at hu
      simp only [] at hu ⊢
      rw [hu]
      exact ⟨u, rfl⟩
    | throw _ _ => rw [hp] at hu; simp at hu
    | ub u => exact ⟨u, rfl⟩
    | timeout => rw [hp] at hu; simp at hu

/-- The hypotheses of the copy and assignment theorems: an empty target and a source over three chunks. -/
example : ∃ (st : DSt Nat) (e : Env Nat), Reach 1024 st e ∧ e 0 = some (List.replicate 2048 7) ∧
    e 1 = some (List.replicate 5 3) ∧ e 2 = none ∧ ¬ opFault 1024 st (.assign 1 0) := by
  obtain ⟨st, s, h1, W, hA, hxs, hpos, hf1, _⟩ := fill_run (x := 0) (K := 1024) (by omega) 2048 7
    (World.init (I := dqI 1024 Nat)) (fun _ _ h => by cases h) rfl
  obtain ⟨st2, s2, h2, W2, hA2, hxs2, hpos2, hf2, _⟩ := fill_run (x := 1) (by omega) 5 3 W hA (by simp)
  refine ⟨st2, _, Reach.run ⟨_, _, fill_spec 0 _ 7 rfl, hf1, h1⟩ (fill_spec 1 5 3 (by simp [Env.set, Env.none])) hf2 h2,
    rfl, Env.set_eq _ _ _, by simp [Env.set, Env.none], ?_⟩
  rintro ⟨o, oy, ho, hoy, h | h⟩
  · omega
  · rw [W_obj W2 (upd_same _ _ _)] at ho; cases ho
    have h3 := hA2 1 s2 (upd_same _ _ _)
    simp only [DV.lastC, DV.stop, hxs2, hpos2, List.length_replicate] at h3
    have h4 : 2 < s2.chunks.length := h.1
    omega

/-! ### C20 -/

/-- **C20.** Every program over queues that respects the interface behaves as first-in-first-out
sequences: no undefined behaviour, exception or divergence, and every observation is the specification's.
(A queue only uses push_back and pop_front, which never lead to the fault of C11.) -/
theorem C20_queue_fifo (hK : 2 ≤ K) {ops : List (QOp V)} {e : Env V} {outs : List (Out V)}
    (h : qspecRun Env.none ops = some (e, outs)) :
    ∃ st, runQOps K ops St.init = .ok outs st ∧ ((∀ x, e x = none) → ∀ a, st.mem a = none) := by
  obtain ⟨st, σ, r, W, he, _⟩ := qrun_refines hK (World.init (I := dqI K V)) (fun _ _ h => by cases h) rfl h
  exact ⟨st, r, fun hd => W.empty_mem (fun x => envOf_none he (hd x))⟩

example : (qspecRun (V := Nat) Env.none [.new 0, .push 0 1, .push 0 2, .pushFrom 0 0, .front 0, .pop 0, .front 0,
      .newCopy 1 0, .pop 0, .front 0, .back 1, .size 1, .pop 0, .pop 0, .empty 0, .destroy 0, .destroy 1]).map Prod.snd =
    some [.unit, .unit, .unit, .unit, .val 1, .unit, .val 2, .unit, .unit, .val 1, .val 1, .nat 2, .unit, .unit,
      .bool true, .unit, .unit] := rfl

/-! ### the integers that stand for `m_back_chunk` -/

/-- **C11 (size_t).** `m_back_chunk` is an unsigned 64-bit number in the code and an integer from -1 on in the model.
Increment, decrement, the comparison with `m_chunks.size() - 1` and the bounds check of `m_chunks[m_back_chunk]` agree,
as long as there are fewer than 2^64 - 1 chunks. -/
theorem C11_deque_size_t (b : Int) (n : Nat) (h1 : -1 ≤ b) (h2 : b < 2 ^ 64 - 1) (h0 : 0 < n) (hn : n < 2 ^ 64 - 1) :
    UInt64.ofNat (residue (b + 1)) = UInt64.ofNat (residue b) + 1 ∧
    UInt64.ofNat (residue (b - 1)) = UInt64.ofNat (residue b) - 1 ∧
    (UInt64.ofNat (residue b) = UInt64.ofNat n - 1 ↔ b = (n : Int) - 1) ∧
    (UInt64.ofNat (residue b) < UInt64.ofNat n ↔ 0 ≤ b ∧ b < n) := by
  have e : ∀ k : Nat, (UInt64.ofNat k).toNat = k % 2 ^ 64 := fun k => UInt64.toNat_ofNat'
  refine ⟨?_, ?_, ?_, ?_⟩
  · apply UInt64.toNat_inj.mp
    rw [UInt64.toNat_add, e, e, residue_inc]
    simp only [residue, UInt64.reduceToNat]; omega
  · apply UInt64.toNat_inj.mp
    rw [UInt64.toNat_sub, e, e, residue_dec]
    simp only [residue, UInt64.reduceToNat]; omega
  · rw [← UInt64.toNat_inj, UInt64.toNat_sub, e, e]
    simp only [residue, UInt64.reduceToNat]; omega
  · rw [UInt64.lt_iff_toNat_lt, e, e]
    simp only [residue]; omega

/-- An empty deque at the start of its first chunk: `m_back_chunk` is SIZE_MAX. -/
example : UInt64.ofNat (residue (-1)) = 0xffffffffffffffff := by decide

end Cest.Deq
