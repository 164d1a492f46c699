import Verif.Deque.Props
/-
C132: references to elements of a deque survive insertions and removals at its ends.
-/
namespace Cest.Deq
open Cest
variable {V : Type}

/-- Insertion or removal at an end of a deque. -/
inductive EndOp (V : Type) where
  | pushBack (v : V)
  | pushFront (v : V)
  | popBack
  | popFront

/-- The operation on deque `x`. -/
def EndOp.op (x : Nat) : EndOp V → Op V
  | .pushBack v => .pushBack x v
  | .pushFront v => .pushFront x v
  | .popBack => .popBack x
  | .popFront => .popFront x

/-- Where the element at index `i` of a sequence of length `n` is afterwards (new length, new index);
`none` if it was removed. -/
def EndOp.track : Nat × Nat → EndOp V → Option (Nat × Nat)
  | (n, i), .pushBack _ => some (n + 1, i)
  | (n, i), .pushFront _ => some (n + 1, i + 1)
  | (n, i), .popBack => if i + 1 = n then none else some (n - 1, i)
  | (n, i), .popFront => if i = 0 then none else some (n - 1, i - 1)

/-- The same for several operations. -/
def trackAll : Nat × Nat → List (EndOp V) → Option (Nat × Nat)
  | p, [] => some p
  | p, op :: ops => match op.track p with
    | none => none
    | some q => trackAll q ops

variable {K : Nat} {st : DSt V} {σ : Nat → Option (DV V)} {x : Nat} {s : DV V} {v : V}

/-- Address of linear position `pos + i`. -/
def addr (K : Nat) (s : DV V) (i : Nat) : Option Nat × Nat :=
  (s.chunks[(s.pos + i) / K]?, (s.pos + i) % K)

theorem end_step (hK : 2 ≤ K) (W : DW K st σ) (hx : σ x = some s) {i n j : Nat} (hv : s.xs[i]? = some v)
    {op : EndOp V} (hf : ¬ opFault K st (op.op x)) (ht : op.track (s.xs.length, i) = some (n, j)) :
    ∃ o st' s', runOp K (op.op x) st = .ok o st' ∧ DW K st' (upd σ x (some s')) ∧
      s'.xs.length = n ∧ s'.xs[j]? = some v ∧ addr K s' j = addr K s i := by
  have hK0 : 0 < K := by omega
  have hi : i < s.xs.length := by grind
  have hlt := idx_lt W hx hi
  have hd : (s.pos + i) / K < s.chunks.length := (lt_chunks hK0).2 hlt
  cases op with
  | pushBack w =>
    simp [EndOp.track] at ht; obtain ⟨rfl, rfl⟩ := ht
    have hnf : ¬ s.fault K := fun h => hf ((fault_iff hK W hx).1 h)
    obtain ⟨st', h1, W'⟩ := pushBack_spec (r := .ext w) (v := w) hK W hx hnf (fun _ _ => rfl)
    refine ⟨.unit, st', _, by simp [EndOp.op, runOp, h1], W', ?_, ?_, ?_⟩
    · unfold DV.pushB; split <;> simp
    · unfold DV.pushB; split <;> simp [List.getElem?_append_left hi, hv]
    · unfold DV.pushB addr
      split
      · simp [List.getElem?_append_left hd]
      · simp
  | pushFront w =>
    simp [EndOp.track] at ht; obtain ⟨rfl, rfl⟩ := ht
    obtain ⟨st', h1, W'⟩ := pushFront_spec (r := .ext w) (v := w) hK W hx (fun _ _ => rfl)
    refine ⟨.unit, st', _, by simp [EndOp.op, runOp, h1], W', ?_, ?_, ?_⟩
    · rw [pushF_xs]; simp
    · rw [pushF_xs]; simp [hv]
    · unfold DV.pushF addr
      split
      · rename_i h0
        have e1 : K - 1 + (i + 1) = i + K := by omega
        simp only [e1, h0, Nat.zero_add, Nat.add_mod_right, Nat.add_div_right i hK0]
        simp
      · have e1 : s.pos - 1 + (i + 1) = s.pos + i := by omega
        simp only [e1]
  | popBack =>
    simp only [EndOp.track] at ht
    split at ht
    · cases ht
    rename_i hne
    simp at ht; obtain ⟨rfl, rfl⟩ := ht
    have hne' : s.xs ≠ [] := by intro h; simp [h] at hi
    obtain ⟨st', h1, W'⟩ := popBack_spec hK W hx hne'
    refine ⟨.unit, st', _, by simp [EndOp.op, runOp, h1], W', by simp, ?_, rfl⟩
    rw [List.getElem?_dropLast, if_pos (by omega)]
    exact hv
  | popFront =>
    simp only [EndOp.track] at ht
    split at ht
    · cases ht
    rename_i hne
    simp at ht; obtain ⟨rfl, rfl⟩ := ht
    have hne' : s.xs ≠ [] := by intro h; simp [h] at hi
    obtain ⟨st', h1, W'⟩ := popFront_spec hK W hx hne'
    refine ⟨.unit, st', _, by simp [EndOp.op, runOp, h1], W', by simp, ?_, ?_⟩
    · simp only [List.getElem?_tail]
      have : i - 1 + 1 = i := by omega
      rw [this]; exact hv
    · unfold addr
      have e1 : s.pos + 1 + (i - 1) = s.pos + i := by omega
      simp only [e1]

/-- **C132.** A reference to an element of a deque stays valid, and keeps denoting the same element,
through any number of insertions and removals at the two ends that do not remove that element: its
address does not change, and the value there is still `v`.  (The push_back fault of C11 is excluded.) -/
theorem C132_deque_reference (hK : 2 ≤ K) {e : Env V} (h : Reach K st e) {xs : List V}
    (hx : e x = some xs) {i : Nat} (hv : xs[i]? = some v) {ops : List (EndOp V)}
    (hf : NoFault K (ops.map (EndOp.op x)) st) {n j : Nat}
    (ht : trackAll (xs.length, i) ops = some (n, j)) :
    ∃ a k st' outs, locate K x i st = .ok (a, k) st ∧
      runOps K (ops.map (EndOp.op x)) st = .ok outs st' ∧
      locate K x j st' = .ok (a, k) st' ∧ load (some a) k st' = .ok v st' := by
  have hK0 : 0 < K := by omega
  obtain ⟨σ, W, rfl⟩ := reach_world hK h
  obtain ⟨s, hs, rfl⟩ := envOf_some rfl hx
  clear h hx
  have hi : i < s.xs.length := by grind
  obtain ⟨a, ha, hl⟩ := locate_spec hK0 W hs (idx_lt W hs hi)
  refine ⟨a, (s.pos + i) % K, ?_⟩
  suffices ∃ st' outs, runOps K (ops.map (EndOp.op x)) st = .ok outs st' ∧
      locate K x j st' = .ok (a, (s.pos + i) % K) st' ∧ load (some a) ((s.pos + i) % K) st' = .ok v st' by
    obtain ⟨st', outs, h1, h2, h3⟩ := this
    exact ⟨st', outs, hl, h1, h2, h3⟩
  have hadr : addr K s i = (some a, (s.pos + i) % K) := by simp [addr, ha]
  generalize (s.pos + i) % K = k at hadr
  clear hl ha
  induction ops generalizing st σ s i with
  | nil =>
    simp [trackAll] at ht; obtain ⟨-, rfl⟩ := ht
    obtain ⟨b, hb, hl⟩ := locate_spec hK0 W hs (idx_lt W hs hi)
    simp only [addr, Prod.mk.injEq] at hadr
    rw [hb] at hadr
    obtain ⟨h1, h2⟩ := hadr
    cases h1
    refine ⟨st, [], rfl, by rw [hl, h2], ?_⟩
    rw [← h2]
    exact heap_load hK0 (W_heap W hs) hb (by rw [cell_at, hv])
  | cons op ops ih =>
    simp only [trackAll] at ht
    split at ht
    · cases ht
    rename_i q hq
    obtain ⟨n1, i1⟩ := q
    simp only [List.map_cons, NoFault] at hf
    obtain ⟨o, st1, s1, h1, W1, hn, hv1, ha1⟩ := end_step hK W hs hv hf.1 hq
    obtain ⟨st2, outs, h2, h3, h4⟩ := ih (hf.2 _ _ h1) _ W1 s1 (upd_same _ _ _) hv1 (by rw [hn]; exact ht)
      (by grind) (by rw [ha1, hadr])
    exact ⟨st2, o :: outs, by simp [runOps, h1, h2], h3, h4⟩

/-- Programs without push_back meet no fault. -/
theorem noPushBack_NoFault {ops : List (Op V)} (h : ∀ op ∈ ops, op.noPushBack) (st : DSt V) :
    NoFault K ops st := by
  induction ops generalizing st with
  | nil => trivial
  | cons op ops ih =>
    exact ⟨noPushBack_noFault (h op (by simp)), fun _ st' _ => ih (fun o ho => h o (by simp [ho])) st'⟩

/-- A deque `[7, 8]` grown at the front across a chunk boundary, then shrunk at both ends: a reference to
the `7` still reads `7`. -/
example : ∃ (st st' : DSt Nat) (outs : List (Out Nat)) (a k : Nat), locate 4 0 0 st = .ok (a, k) st ∧
    runOps 4 ([.pushFront 1, .pushFront 2, .pushFront 3, .popBack, .popFront].map (EndOp.op 0)) st =
      .ok outs st' ∧ locate 4 0 2 st' = .ok (a, k) st' ∧ load (some a) k st' = .ok 7 st' := by
  have hs : specRun (V := Nat) Env.none [.newList 0 [7, 8]] =
    some (Env.none.set 0 (some [7, 8]), [.unit]) := rfl
  obtain ⟨st, hr⟩ := C12_deque_no_push_back (K := 4) (by decide) hs (by decide)
  have R : Reach 4 st (Env.none.set 0 (some [7, 8])) := ⟨_, _, hs, noPushBack_NoFault (by decide) _, hr⟩
  obtain ⟨a, k, st', outs, h1, h2, h3, h4⟩ := C132_deque_reference (K := 4) (by decide) R (x := 0)
    (xs := [7, 8]) rfl (i := 0) (v := 7) rfl
    (ops := [.pushFront 1, .pushFront 2, .pushFront 3, .popBack, .popFront])
    (noPushBack_NoFault (by decide) _) (n := 3) (j := 2) rfl
  exact ⟨st, st', outs, a, k, h1, h2, h3, h4⟩

end Cest.Deq
