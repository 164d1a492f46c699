import Verif.Deque.Cost
/-
Properties C129 (allocations and copies made by deques and queues) and C130 (storage held by a queue).
The countdown `thr` of the machine counts allocations, element copies and element assignments: started with
`thr = some (k + c)`, a program that makes `c` of them and meets no exception ends with `thr = some k`.
-/
namespace Cest.Deq
open Cest
variable {V : Type} {K : Nat} {st : DSt V} {x : Nat}

/-- **C129 (every fault-free deque history).** A program that respects the interface and meets none of the
faults of C11, C14 and C19 makes at most as many allocations, copies and assignments as its operations cost
together: 3 for a `push_back` or a `push_front`, 1 for an assignment through `operator[]`, none for `pop_back`,
`pop_front`, `clear`, destruction, element access and iteration. -/
theorem C129_deque_cost (hK : 2 ≤ K) {ops : List (Op V)} {e : Env V} {outs : List (Out V)}
    (h : specRun Env.none ops = some (e, outs)) (hf : NoFault K ops St.init) :
    ∃ st c, c ≤ total Env.none ops ∧ runOps K ops St.init = .ok outs st ∧
      ∀ k, runOps K ops { St.init with thr := some (k + c) } = .ok outs { st with thr := some k } := by
  obtain ⟨st, σ, hr, W, _⟩ := run_refines hK (World.init (I := dqI K V)) rfl h hf
  obtain ⟨_, d, hd, hk⟩ := (run_cost hK (World.init (I := dqI K V)) rfl h hf).ok hr
  exact ⟨st, d, hd, hr, hk⟩

/-- **C129 (one deque operation).** -/
theorem C129_deque_step (hK : 2 ≤ K) {e e' : Env V} (h : Reach K st e) {op : Op V} {o : Out V}
    (hs : specStep e op = some (e', o)) (hf : ¬ opFault K st op) :
    ∃ st' c, c ≤ price e op ∧ runOp K op st = .ok o st' ∧
      ∀ k, runOp K op { st with thr := some (k + c) } = .ok o { st' with thr := some k } := by
  obtain ⟨σ, W, he⟩ := reach_world hK h
  obtain ⟨st', σ', hr, _⟩ := step_refines hK W he hs hf
  obtain ⟨_, d, hd, hk⟩ := (runOp_cost hK W he hs).ok hr
  exact ⟨st', d, hd, hr, hk⟩

/-- **C129 (every queue history).** No queue program is excluded: a `push` makes at most three allocations and
copies, `pop`, `front`, `back`, `size`, `empty` and destruction make none. -/
theorem C129_queue_cost (hK : 2 ≤ K) {ops : List (QOp V)} {e : Env V} {outs : List (Out V)}
    (h : qspecRun Env.none ops = some (e, outs)) :
    ∃ st c, c ≤ qtotal Env.none ops ∧ runQOps K ops St.init = .ok outs st ∧
      ∀ k, runQOps K ops { St.init with thr := some (k + c) } = .ok outs { st with thr := some k } := by
  have hA : AllLast K (fun _ => (none : Option (DV V))) := fun _ _ h => by cases h
  obtain ⟨st, σ, hr, W, _⟩ := qrun_refines hK (World.init (I := dqI K V)) hA rfl h
  obtain ⟨_, d, hd, hk⟩ := (qrun_cost hK (World.init (I := dqI K V)) hA rfl h).ok hr
  exact ⟨st, d, hd, hr, hk⟩

/-- A program with a copied deque, pushes at both ends, an assignment and removals: its hypotheses hold and
its price is 26. -/
example : ∃ e outs, specRun Env.none
      [.newList 0 [1, 2], .newCopy 1 0, .pushBack 0 3, .pushFront 1 4, .pushFrontFrom 0 1 0, .set 0 1 9, .popFront 0] =
      some (e, outs) ∧
    total (V := Nat) Env.none
      [.newList 0 [1, 2], .newCopy 1 0, .pushBack 0 3, .pushFront 1 4, .pushFrontFrom 0 1 0, .set 0 1 9, .popFront 0] = 26 ∧
    NoFault 4 [.newList 0 [1, 2], .newCopy 1 0, .pushBack 0 3, .pushFront 1 4, .pushFrontFrom 0 1 0, .set 0 1 9,
      .popFront 0] St.init := by
  refine ⟨_, _, rfl, rfl, ?_⟩
  exact growsBack_NoFault (by decide) (World.init (I := dqI 4 Nat)) (fun _ _ h => by cases h) rfl rfl (by decide)

/-! ### C130 -/

/-- `n` times `push(v); pop();`: a queue that never holds more than one element. -/
def pingPong (v : V) : Nat → List (QOp V)
  | 0 => []
  | n+1 => .push 0 v :: .pop 0 :: pingPong v n

theorem pingPong_spec (v : V) : ∀ (n : Nat) (e : Env V), e 0 = some [] →
    qspecRun e (pingPong v n) = some (e, List.replicate (2 * n) .unit)
  | 0, e, _ => rfl
  | n+1, e, h => by
    have h1 : (e.set 0 (some [v])).set 0 (some []) = e := by
      funext z
      by_cases hz : z = 0
      · subst hz; simp [Env.set, h]
      · simp [Env.set, hz]
    have h2 := pingPong_spec v n e h
    have h3 : (e.set 0 (some [v])) 0 = some [v] := by simp [Env.set]
    simp only [pingPong, qspecRun, qspecStep, h, List.nil_append, h3, h1, h2]
    simp [List.replicate_succ, show 2 * (n + 1) = 2 * n + 1 + 1 by omega]

theorem pingPong_run (hK : 2 ≤ K) (v : V) : ∀ (n : Nat) (st : DSt V) (σ : Nat → Option (DV V)) (s : DV V),
    DW K st σ → σ 0 = some s → s.xs = [] → s.lastC K →
    ∃ st' σ' s', runQOps K (pingPong v n) st = .ok (List.replicate (2 * n) .unit) st' ∧ DW K st' σ' ∧
      σ' 0 = some s' ∧ s'.xs = [] ∧ s'.lastC K ∧ s'.pos = s.pos + n ∧ ∀ y, y ≠ 0 → σ' y = σ y
  | 0, st, σ, s, W, h0, hx, hl => ⟨st, σ, s, rfl, W, h0, hx, hl, rfl, fun _ _ => rfl⟩
  | n+1, st, σ, s, W, h0, hx, hl => by
    obtain ⟨st1, h1, W1⟩ := pushBack_spec (v := v) (r := .ext v) hK W h0
      (hl.noFault (by omega) (W_le W h0)) (fun _ _ => rfl)
    have hl1 := hl.push (v := v) st.next
    have hx1 : (s.pushB K v st.next).xs = [v] := by rw [pushB_xs, hx]; rfl
    have hp1 : (s.pushB K v st.next).pos = s.pos := by unfold DV.pushB; split <;> rfl
    obtain ⟨st2, h2, W2⟩ := popFront_spec hK W1 (upd_same _ _ _) (by rw [hx1]; simp)
    obtain ⟨st', σ', s', h3, W3, g1, g2, g3, g4, g5⟩ := pingPong_run hK v n st2 _ _ W2 (upd_same _ _ _)
      (by simp [hx1]) (by
        unfold DV.lastC DV.stop at hl1 ⊢
        simp [hx1] at hl1 ⊢; omega)
    refine ⟨st', σ', s', ?_, W3, g1, g2, g3, by rw [g4, hp1]; simp; omega,
      fun y hy => by rw [g5 y hy]; simp [hy]⟩
    simp [pingPong, runQOps, runQOp, qpush, qpop, h1, h2, h3, List.replicate_succ,
      show 2 * (n + 1) = 2 * n + 1 + 1 by omega]

/-- **C130 (how much storage a queue holds).** A queue that never holds more than one element: after `n` times
`push; pop` it is empty and owns `as.length` different chunks of `K` elements, all still allocated, where
`as.length` is `(K/2 + n) / K` rounded up.  The chunks in front of the first element are never reused and only
released by the destructor. -/
theorem C130_queue_storage (hK : 2 ≤ K) (v : V) (n : Nat) :
    ∃ e outs st, ∃ as : List Nat, qspecRun Env.none (.new 0 :: pingPong v n) = some (e, outs) ∧ e 0 = some [] ∧
      runQOps K (.new 0 :: pingPong v n) St.init = .ok outs st ∧
      as.Nodup ∧ (∀ a, a ∈ as ↔ st.mem a ≠ none) ∧
      K / 2 + n ≤ as.length * K ∧ as.length * K < K / 2 + n + K := by
  have hW := World.init (I := dqI K V)
  obtain ⟨st1, h1, W1⟩ := ctor_spec (x := 0) hK hW rfl
  obtain ⟨st2, σ2, s2, h2, W2, g1, g2, g3, g4, g5⟩ := pingPong_run hK v n st1 _ _ W1 (upd_same _ _ _) rfl (ctor_lastC hK _)
  have hsp := pingPong_spec v n ((Env.none : Env V).set 0 (some [])) (by simp [Env.set])
  refine ⟨(Env.none : Env V).set 0 (some []), .unit :: List.replicate (2 * n) .unit, st2, s2.chunks, ?_, by simp [Env.set], ?_,
    W_nodup W2 g1, ?_, ?_, ?_⟩
  · simp only [qspecRun, qspecStep, show (Env.none : Env V) 0 = none from rfl, hsp]
  · simp [runQOps, runQOp, qctor, h1, h2]
  · intro a
    constructor
    · exact fun ha => W2.alloc (x := 0) (by simpa [g1] using ha)
    · intro ha
      obtain ⟨y, hy⟩ := W2.own a ha
      by_cases h0 : y = 0
      · subst h0; simpa [g1] using hy
      · rw [g5 y h0] at hy; simp [h0] at hy
  · have := W_le W2 g1
    simp [DV.stop, g2, g4] at this; exact this
  · unfold DV.lastC DV.stop at g3
    simp [g2, g4] at g3; exact g3

/-- With CHUNK_SIZE = 1024: after 3000 times `push; pop` the empty queue owns four chunks. -/
example : ∃ outs, ∃ st : DSt Nat, ∃ as : List Nat, runQOps 1024 (.new 0 :: pingPong 7 3000) St.init = .ok outs st ∧
    as.Nodup ∧ (∀ a, a ∈ as ↔ st.mem a ≠ none) ∧ as.length = 4 := by
  obtain ⟨_, outs, st, as, _, _, h, h1, h2, h3, h4⟩ := C130_queue_storage (K := 1024) (by decide) 7 3000
  exact ⟨outs, st, as, h, h1, h2, by omega⟩

/-- **C130 (refuted).** No function of the number of elements bounds the storage of a queue: for every `B` there
is a program whose only queue never holds more than one element, and is empty in the end, and holds more than
`B` chunks. -/
theorem C130_queue_storage_bounded_refuted (hK : 2 ≤ K) (v : V) :
    ¬ ∃ B : Nat, ∀ n e outs st (as : List Nat), qspecRun Env.none (.new 0 :: pingPong v n) = some (e, outs) →
      runQOps K (.new 0 :: pingPong v n) St.init = .ok outs st → as.Nodup → (∀ a ∈ as, st.mem a ≠ none) →
      as.length ≤ B := by
  rintro ⟨B, hB⟩
  obtain ⟨e, outs, st, as, h1, _, h3, h4, h5, h6, _⟩ := C130_queue_storage hK v ((B + 1) * K)
  have := hB _ _ _ _ as h1 h3 h4 (fun a ha => (h5 a).1 ha)
  have h8 : as.length * K ≤ B * K := Nat.mul_le_mul_right K this
  rw [Nat.add_mul] at h6
  omega

/-- **C130 (partial).** What holds in every state a queue program can reach: behind its last element a queue has
room for less than one chunk, so its storage is the elements, less than one chunk, and what lies in front of
the first element.  Missing: a bound on the part in front of the first element (there is none, see above). -/
theorem C130_queue_storage_partial (hK : 2 ≤ K) {ops : List (QOp V)} {e : Env V} {outs : List (Out V)}
    (h : qspecRun Env.none ops = some (e, outs)) {xs : List V} (hx : e x = some xs) :
    ∃ st o, runQOps K ops St.init = .ok outs st ∧ st.objs x = some o ∧
      o.chunks.Nodup ∧ (∀ a ∈ o.chunks, st.mem a ≠ none) ∧
      o.fchunk * K + o.front + xs.length ≤ o.chunks.length * K ∧
      o.chunks.length * K < o.fchunk * K + o.front + xs.length + K := by
  have hA : AllLast K (fun _ => (none : Option (DV V))) := fun _ _ h => by cases h
  obtain ⟨st, σ, hr, W, he, hA'⟩ := qrun_refines hK (World.init (I := dqI K V)) hA rfl h
  obtain ⟨s, hx', rfl⟩ := envOf_some he hx
  have h1 := W_le W hx'
  have h2 := hA' x s hx'
  have h3 : s.pos / K * K + s.pos % K = s.pos := by rw [Nat.mul_comm]; exact Nat.div_add_mod _ _
  refine ⟨st, _, hr, W_obj W hx', W_nodup W hx', ?_, ?_, ?_⟩
  · intro a ha
    obtain ⟨j, hj⟩ := List.mem_iff_getElem?.1 ha
    rw [W_heap W hx' j a hj]; simp
  · simp only [DV.obj]; rw [h3]; exact h1
  · simp only [DV.obj]; rw [h3]; exact h2

/-- A reachable state with two queues. -/
example : ∃ e outs, qspecRun (V := Nat) Env.none
    [.new 0, .push 0 1, .push 0 2, .pop 0, .newCopy 1 0, .pushFrom 1 0] = some (e, outs) ∧ e 1 = some [2, 2] :=
  ⟨_, _, rfl, rfl⟩

end Cest.Deq
