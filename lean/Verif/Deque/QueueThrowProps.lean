import Verif.Deque.QueueThrowSpec
import Verif.Deque.QueueThrowRun
import Verif.Deque.HistProps
/-
C165: queues when storage runs out.
-/
namespace Cest.Deq
open Cest
variable {V : Type} {K : Nat}

/-! ### helper lemmas -/

/-- The deque operation behind a queue operation. -/
def QOp.op : QOp V → Op V
  | .new x => .new x
  | .newCopy x y => .newCopy x y
  | .push x v => .pushBack x v
  | .pushFrom x y => .pushBackFrom x y 0
  | .pop x => .popFront x
  | .destroy x => .destroy x
  | .size x => .size x
  | .empty x => .empty x
  | .front x => .front x
  | .back x => .back x

theorem runQOp_op {st : DSt V} {e : Env V} {l : Lays} {m : Nat} (hK : 2 ≤ K) (A : AgreeT K st e l m) {op : QOp V} {r}
    (hs : qspecStep e op = some r) (t : Option Nat) : runQOp K op { st with thr := t } = runOp K op.op { st with thr := t } := by
  cases op with
  | pushFrom x y =>
    obtain ⟨σ, ⟨g, s0, rfl, W, _⟩, he, _⟩ := A
    rcases hx : e x with _ | xs <;> rcases hy : e y with _ | (_ | ⟨v, ys⟩) <;> simp [qspecStep, hx, hy] at hs
    obtain ⟨s, hs', _⟩ := envOf_some he hy
    have ho : ({ s0.ext g with thr := t } : DSt V).objs y = some (s.obj K) := (W_obj W hs' : s0.objs y = _)
    have hf : (s.obj K).front < K := Nat.mod_lt _ (by omega)
    simp only [runQOp, QOp.op, runOp, locate, M.bind_apply, getObj_some ho, Nat.add_zero, Nat.div_eq_of_lt hf, Nat.mod_eq_of_lt hf, qpush]
    cases chunkAt (s.obj K) ((s.obj K).fchunk) ({ s0.ext g with thr := t } : DSt V) <;> rfl
  | _ => rfl

theorem runQT_cons {st st' : DSt V} {t : Option Nat} {op : QOp V} {ops : List (Option Nat × QOp V)} {ops' : List (Option Nat × Op V)} {os}
    (h : runQOp K op { st with thr := t } = runOp K op.op { st with thr := t }) (h1 : runT K [(t, op.op)] st = .ok os st')
    (h2 : runQT K ops st' = runT K ops' st') : runQT K ((t, op) :: ops) st = runT K ((t, op.op) :: ops') st := by
  unfold runQT
  unfold runT at h1 ⊢
  rw [h]
  cases hr : runOp K op.op { st with thr := t } with
  | ok o s =>
    simp only [hr] at h1 ⊢
    have : { s with thr := none } = st' := by
      simp only [runT, M.bind_apply, M.pure_apply] at h1
      cases h1; rfl
    simp only [M.bind_apply, this, h2]
  | throw x s =>
    simp only [hr] at h1 ⊢
    have : { s with thr := none } = st' := by
      simp only [runT, M.bind_apply, M.pure_apply] at h1
      cases h1; rfl
    simp only [M.bind_apply, this, h2]
  | ub u => rfl
  | timeout => rfl

theorem qspec_op {e e' : Env V} {op : QOp V} {o : Out V} (h : qspecStep e op = some (e', o)) :
    specStep e op.op = some (e', o) := by
  cases op with
  | pushFrom x y =>
    rcases hx : e x with _ | xs <;> rcases hy : e y with _ | (_ | ⟨v, ys⟩) <;> simp [qspecStep, hx, hy] at h
    obtain ⟨rfl, rfl⟩ := h
    simp [QOp.op, specStep, hx, hy]
  | pop x =>
    rcases hx : e x with _ | (_ | ⟨a, s⟩) <;> simp [qspecStep, hx] at h
    · obtain ⟨rfl, rfl⟩ := h
      simp only [QOp.op, specStep, hx, List.tail_nil, Option.some.injEq, Prod.mk.injEq, and_true]
      funext z
      by_cases hz : z = x
      · subst hz; simp [Env.set, hx]
      · simp [Env.set, hz]
    · obtain ⟨rfl, rfl⟩ := h
      simp [QOp.op, specStep, hx]
  | front x =>
    rcases hx : e x with _ | (_ | ⟨a, s⟩) <;> simp [qspecStep, hx] at h
    obtain ⟨rfl, rfl⟩ := h
    simp [QOp.op, specStep, hx]
  | _ => simpa only [qspecStep, QOp.op, specStep] using h

/-- The slot behind the last element is in the last chunk or just behind it. -/
def Lay.Last (K : Nat) (l : Lay) (size : Nat) : Prop :=
  ∃ c, l.chunks = c + 1 ∧ c * K < l.first + size ∧ l.first + size ≤ (c + 1) * K

theorem Lay.Last.init (hK : 2 ≤ K) : (Lay.init K).Last K 0 := by
  refine ⟨0, rfl, ?_, ?_⟩ <;> simp only [Lay.init] <;> omega

theorem Lay.Last.grow (hK : 2 ≤ K) {l : Lay} {n : Nat} (h : l.Last K n) :
    l.pushB K n = some (l.grow K n) ∧ (l.grow K n).Last K (n + 1) := by
  obtain ⟨c, h1, h2, h3⟩ := h
  unfold Lay.pushB Lay.grow
  by_cases hb : l.backFull K n = true
  · rw [if_pos hb, if_pos hb]
    refine ⟨rfl, c + 1, by simp [Lay.more, h1], ?_, ?_⟩
    all_goals
      have hb' : l.first + n = (c + 1) * K := by simpa [Lay.backFull, h1] using hb
      have e : (c + 1 + 1) * K = (c + 1) * K + K := Nat.succ_mul _ _
      simp only [Lay.more]
      omega
  · rw [if_neg hb, if_neg hb]
    have hb' : l.first + n ≠ (c + 1) * K := by simpa [Lay.backFull, h1] using hb
    have e : (c + 1) * K = c * K + K := Nat.succ_mul _ _
    refine ⟨if_neg fun hm => ?_, c, h1, by omega, by omega⟩
    obtain ⟨q, hq⟩ := Nat.dvd_of_mod_eq_zero hm
    rw [hq, Nat.mul_comm K q] at h2 h3 hb'
    have g1 : c < q := Nat.lt_of_mul_lt_mul_right h2
    have g2 : q ≤ c + 1 := Nat.le_of_mul_le_mul_right h3 (by omega)
    exact hb' (by rw [show q = c + 1 by omega])

theorem Lay.Last.fill (hK : 2 ≤ K) : ∀ (m : Nat) {l : Lay} {n : Nat}, l.Last K n →
    l.pushBs K n m = some (l.fill K n m) ∧ (l.fill K n m).Last K (n + m)
  | 0, _, _, h => ⟨rfl, h⟩
  | m+1, l, n, h => by
    obtain ⟨h1, h2⟩ := h.grow hK
    obtain ⟨h3, h4⟩ := Lay.Last.fill hK m h2
    refine ⟨by simp only [Lay.pushBs, h1, h3, Lay.fill], ?_⟩
    rw [show n + (m + 1) = n + 1 + m by omega]
    exact h4

/-- All queues are like that. -/
def AllLastL (K : Nat) (e : Env V) (l : Lays) : Prop := ∀ x xs, e x = some xs → (l x).Last K xs.length

theorem AllLastL.set {e : Env V} {l : Lays} (h : AllLastL K e l) (x : Nat) {xs : List V} {a : Lay} (ha : a.Last K xs.length) :
    AllLastL K (e.set x (some xs)) (l.set x a) := by
  intro z zs hz
  by_cases hx : z = x
  · subst hx
    simp only [Env.set, if_true, Option.some.injEq] at hz
    subst hz
    simpa [Lays.set] using ha
  · simp only [Env.set, if_neg hx] at hz
    simpa [Lays.set, hx] using h z zs hz

theorem qstep_last (hK : 2 ≤ K) {e e' : Env V} {l : Lays} {op : QOp V} {o : Out V} (A : AllLastL K e l)
    (h : qspecStep e op = some (e', o)) : layAfter K e l op.op = some (qlay K e l op) ∧ AllLastL K e' (qlay K e l op) := by
  cases op with
  | new x =>
    cases hx : e x <;> simp [qspecStep, hx] at h
    obtain ⟨rfl, rfl⟩ := h
    exact ⟨rfl, A.set x (Lay.Last.init hK)⟩
  | newCopy x y =>
    cases hx : e x <;> cases hy : e y <;> simp [qspecStep, hx, hy] at h
    obtain ⟨rfl, rfl⟩ := h
    rename_i ys
    obtain ⟨h1, h2⟩ := Lay.Last.fill hK ys.length (Lay.Last.init hK)
    rw [Nat.zero_add] at h2
    refine ⟨by simp [QOp.op, layAfter, qlay, hy, h1], ?_⟩
    simp only [qlay, hy, Option.getD_some]
    exact A.set x h2
  | push x v =>
    cases hx : e x <;> simp [qspecStep, hx] at h
    obtain ⟨rfl, rfl⟩ := h
    obtain ⟨h1, h2⟩ := (A x _ hx).grow hK
    refine ⟨by simp [QOp.op, layAfter, qlay, hx, h1], ?_⟩
    simp only [qlay, hx, Option.getD_some]
    exact A.set x (by simpa using h2)
  | pushFrom x y =>
    rcases hx : e x with _ | xs <;> rcases hy : e y with _ | (_ | ⟨v, ys⟩) <;> simp [qspecStep, hx, hy] at h
    obtain ⟨rfl, rfl⟩ := h
    obtain ⟨h1, h2⟩ := (A x _ hx).grow hK
    refine ⟨by simp [QOp.op, layAfter, qlay, hx, h1], ?_⟩
    simp only [qlay, hx, Option.getD_some]
    exact A.set x (by simpa using h2)
  | pop x =>
    rcases hx : e x with _ | (_ | ⟨a, s⟩) <;> simp [qspecStep, hx] at h
    · obtain ⟨rfl, rfl⟩ := h
      exact ⟨by simp [QOp.op, layAfter, qlay, hx], by simpa [qlay, hx] using A⟩
    · obtain ⟨rfl, rfl⟩ := h
      obtain ⟨c, h1, h2, h3⟩ := A x _ hx
      rw [List.length_cons] at h2 h3
      refine ⟨by simp [QOp.op, layAfter, qlay, hx], ?_⟩
      simp only [qlay, hx, Option.getD_some, List.length_cons, Nat.add_one_ne_zero, if_false]
      exact A.set x ⟨c, h1, by dsimp only; omega, by dsimp only; omega⟩
  | destroy x =>
    cases hx : e x <;> simp [qspecStep, hx] at h
    obtain ⟨rfl, rfl⟩ := h
    refine ⟨rfl, fun z zs hz => ?_⟩
    by_cases hzx : z = x
    · simp [Env.set, hzx] at hz
    · simp only [Env.set, if_neg hzx] at hz
      exact A z zs hz
  | size x =>
    cases hx : e x <;> simp [qspecStep, hx] at h
    obtain ⟨rfl, rfl⟩ := h
    exact ⟨rfl, A⟩
  | empty x =>
    cases hx : e x <;> simp [qspecStep, hx] at h
    obtain ⟨rfl, rfl⟩ := h
    exact ⟨rfl, A⟩
  | front x =>
    rcases hx : e x with _ | (_ | ⟨a, s⟩) <;> simp [qspecStep, hx] at h
    obtain ⟨rfl, rfl⟩ := h
    exact ⟨rfl, A⟩
  | back x =>
    rcases hx : e x with _ | s <;> simp [qspecStep, hx] at h
    rcases hl : s.getLast? with _ | a <;> simp [hl] at h
    obtain ⟨rfl, rfl⟩ := h
    exact ⟨rfl, A⟩

theorem qupset_op (e : Env V) (l : Lays) (k : Nat) (op : QOp V) : qupset K e l k op = upset K e l k op.op := by
  cases op <;> rfl

/-- A queue operation that throws changes no queue. -/
theorem qupset_same {e e'' : Env V} {l l'' : Lays} {k n : Nat} {op : QOp V} (h : qupset K e l k op = .caught e'' l'' n) :
    e'' = e ∧ l'' = l := by
  have hb : ∀ m, building K e l m k = .caught e'' l'' n → e'' = e ∧ l'' = l := by
    intro m hm
    unfold building at hm
    split at hm
    · cases hm; exact ⟨rfl, rfl⟩
    · split at hm <;> cases hm
      exact ⟨rfl, rfl⟩
  have hq : ∀ a, pushing e l a k = .caught e'' l'' n → e'' = e ∧ l'' = l := by
    intro a hm
    unfold pushing at hm
    split at hm <;> cases hm
    exact ⟨rfl, rfl⟩
  cases op <;> simp only [qupset] at h <;> first | exact hb _ h | exact hq _ h | cases h

theorem push_one {l : Lay} {b : Bool} {k m : Nat} (h : push (l.allocs b) k = .caught m) : m ≤ 1 := by
  unfold push at h
  have h2 : l.allocs b ≤ 2 := by 
    unfold Lay.allocs
    split
    · split <;> omega
    · omega
  split at h
  · cases h; omega
  · split at h <;> cases h

theorem pushes_one : ∀ (n : Nat) {l l' : Lay} {size z k m : Nat}, pushes K l size n k = .caught z l' m → m ≤ 1
  | 0, _, _, _, _, _, _, h => by cases h
  | n+1, l, l', size, z, k, m, h => by
    unfold pushes at h
    split at h
    · rename_i hp
      cases h
      exact push_one hp
    · cases h
    · split at h
      · exact pushes_one n h
      · cases h

/-- It loses a chunk or none. -/
theorem qupset_one {e e'' : Env V} {l l'' : Lays} {k n : Nat} {op : QOp V} (h : qupset K e l k op = .caught e'' l'' n) : n ≤ 1 := by
  have hb : ∀ m, building K e l m k = .caught e'' l'' n → n ≤ 1 := by
    intro m hm
    unfold building at hm
    split at hm
    · cases hm; omega
    · split at hm
      · cases hm
      · rename_i hq
        cases hm
        exact pushes_one _ hq
      · cases hm
  have hq : ∀ (a : Lay) b, pushing e l (a.allocs b) k = .caught e'' l'' n → n ≤ 1 := by
    intro a b hm
    unfold pushing at hm
    split at hm
    · cases hm
    · rename_i hq
      cases hm
      exact push_one hq
    · cases hm
  cases op <;> simp only [qupset] at h <;> first | exact hb _ h | exact hq _ _ h | cases h

theorem specRunT_cons {e e1 : Env V} {l l1 : Lays} {t : Option Nat} {op : Op V} {o : Out V} {ops : List (Option Nat × Op V)} {u : Upset V}
    (hs : specStep e op = some (e1, o)) (hl : layAfter K e l op = some l1) (hu : u = t.elim Upset.none fun k => upset K e l k op) :
    specRunT K e l ((t, op) :: ops) = match (generalizing := false) u with
      | .none => (specRunT K e1 l1 ops).map fun r => (r.1, r.2.1, some o :: r.2.2.1, r.2.2.2)
      | .caught e'' l'' n => (specRunT K e'' l'' ops).map fun r => (r.1, r.2.1, none :: r.2.2.1, n + r.2.2.2)
      | .broken => none := by
  subst hu
  cases t <;> simp only [specRunT, hs, hl, Option.elim] <;> rfl

theorem qrunT_op (hK : 2 ≤ K) {ops : List (Option Nat × QOp V)} : ∀ {st : DSt V} {e : Env V} {l : Lays} {m : Nat},
    AgreeT K st e l m → AllLastL K e l → ∀ {r}, qspecRunT K e l ops = some r →
    specRunT K e l (ops.map fun p => (p.1, p.2.op)) = some r ∧ AllLastL K r.1 r.2.1 ∧
      runQT K ops st = runT K (ops.map fun p => (p.1, p.2.op)) st := by
  induction ops with
  | nil =>
    intro st e l m _ A r h
    simp only [qspecRunT, Option.some.injEq] at h
    subst h
    exact ⟨rfl, A, rfl⟩
  | cons p ops ih =>
    obtain ⟨t, op⟩ := p
    intro st e l m G A r h
    unfold qspecRunT at h
    cases hs : qspecStep e op with
    | none => rw [hs] at h; cases h
    | some q =>
      obtain ⟨e1, o⟩ := q
      rw [hs] at h
      obtain ⟨g1, g2⟩ := qstep_last hK A hs
      have hu : (t.elim Upset.none fun k => qupset K e l k op) = t.elim Upset.none fun k => upset K e l k op.op := by
        cases t with
        | none => rfl
        | some k => exact qupset_op e l k op
      have one := specRunT_cons (ops := []) (qspec_op hs) g1 hu
      dsimp only at h
      rw [List.map_cons, specRunT_cons (qspec_op hs) g1 hu]
      cases hc : (t.elim Upset.none fun k => qupset K e l k op) with
      | none =>
        rw [hc] at h one
        obtain ⟨r', h1, rfl⟩ := Option.map_eq_some_iff.1 h
        obtain ⟨st', k1, k2⟩ := runT_refines hK G one
        obtain ⟨h2, h3, h4⟩ := ih k2 g2 h1
        exact ⟨by simp only [h2, Option.map_some], h3, runQT_cons (runQOp_op hK G hs t) k1 h4⟩
      | broken => rw [hc] at h; cases h
      | caught e'' l'' n =>
        rw [hc] at h one
        obtain ⟨r', h1, rfl⟩ := Option.map_eq_some_iff.1 h
        have hsame : e'' = e ∧ l'' = l := by
          cases t with
          | none => cases hc
          | some k => exact qupset_same hc
        obtain ⟨rfl, rfl⟩ := hsame
        obtain ⟨st', k1, k2⟩ := runT_refines hK G one
        obtain ⟨h2, h3, h4⟩ := ih k2 A h1
        exact ⟨by simp only [h2, Option.map_some], h3, runQT_cons (runQOp_op hK G hs t) k1 h4⟩

/-! ### C165 -/

/-- **C165.** Take any program of operations on any number of queues, with an exception thrown at any allocation of any operation, and caught,
as often as the program likes.  If the operations are used within their preconditions and no copy of an element throws, nothing in the
program has undefined behaviour, and every observation is the one of the specification `qspecRunT`: elements leave in the order they
entered, a `push` that cannot get storage changes no queue, a construction that cannot get storage leaves no queue.  The fault of
push_back (C11) never comes up.  At the end the chunks of each queue end less than one chunk behind its last element, and the allocated chunks are
those of the queues and the lost ones (`C165_queue_lost`). -/
theorem C165_queue_throw (hK : 2 ≤ K) {ops : List (Option Nat × QOp V)} {e : Env V} {l : Lays}
    {outs : List (Option (Out V))} {n : Nat} (h : qspecRunT K Env.none (fun _ => ⟨0, 0, 0⟩) ops = some (e, l, outs, n)) :
    ∃ st, runQT K ops St.init = .ok outs st ∧
      (∀ x, e x = none → st.objs x = none) ∧
      (∀ x xs, e x = some xs → ∃ o, st.objs x = some o ∧ o.size = xs.length ∧
        o.chunks.Nodup ∧ o.chunks.length = (l x).chunks ∧ o.ccap = (l x).room ∧
        (l x).first + xs.length ≤ o.chunks.length * K ∧ o.chunks.length * K < (l x).first + xs.length + K) ∧
      ∃ lost : List Nat, lost.Nodup ∧ lost.length = n ∧
        ∀ a, (st.mem a ≠ none ↔ a ∈ lost ∨ ∃ x o, st.objs x = some o ∧ a ∈ o.chunks) ∧
          ¬ (a ∈ lost ∧ ∃ x o, st.objs x = some o ∧ a ∈ o.chunks) := by
  obtain ⟨h1, A, hr⟩ := qrunT_op hK (st := St.init) (m := 0)
    ⟨fun _ => none, left_world (World.init (I := dqI K V)), rfl, fun _ _ h => by cases h⟩ (fun x xs hx => by cases hx) h
  obtain ⟨st, h2, h3, h4, h5⟩ := C142_deque hK h1
  refine ⟨st, by rw [hr]; exact h2, h3, fun x xs hx => ?_, h5⟩
  obtain ⟨o, a1, a2, a3, a4, a5, a6⟩ := h4 x xs hx
  obtain ⟨c, b1, b2, b3⟩ := A x xs hx
  have b1' : (l x).chunks = c + 1 := b1
  have e : (c + 1) * K = c * K + K := Nat.succ_mul _ _
  refine ⟨o, a1, a2, a3, a4, a5, by rw [a4]; exact a6, ?_⟩
  rw [a4, b1', e]
  have b2' : c * K < (l x).first + xs.length := b2
  omega

/-- The number of chunks lost is at most the number of exceptions caught. -/
theorem C165_queue_lost {ops : List (Option Nat × QOp V)} : ∀ {e e' : Env V} {l l' : Lays} {outs : List (Option (Out V))} {n : Nat},
    qspecRunT K e l ops = some (e', l', outs, n) → n ≤ (outs.filter fun o => o.isNone).length := by
  induction ops with
  | nil =>
    intro e e' l l' outs n h
    simp only [qspecRunT, Option.some.injEq, Prod.mk.injEq] at h
    omega
  | cons p ops ih =>
    obtain ⟨t, op⟩ := p
    intro e e' l l' outs n h
    unfold qspecRunT at h
    cases hs : qspecStep e op with
    | none => rw [hs] at h; cases h
    | some q =>
      rw [hs] at h
      dsimp only at h
      cases hc : (t.elim Upset.none fun k => qupset K e l k op) with
      | none =>
        rw [hc] at h
        obtain ⟨⟨_, _, _, _⟩, h1, h2⟩ := Option.map_eq_some_iff.1 h
        have := ih h1
        cases h2
        simpa using this
      | broken => rw [hc] at h; cases h
      | caught e'' l'' m =>
        rw [hc] at h
        obtain ⟨⟨_, _, _, _⟩, h1, h2⟩ := Option.map_eq_some_iff.1 h
        have := ih h1
        have hm : m ≤ 1 := by
          cases t with
          | none => cases hc
          | some k => exact qupset_one hc
        cases h2
        simp only [Option.isNone_none, List.filter_cons_of_pos, List.length_cons]
        omega

/-- Chunks of four elements: the table cannot grow, the chunk cannot be had, a copy cannot get its first chunk; then all goes well. -/
def qdemoT : List (Option Nat × QOp Nat) :=
  [(none, .new 0), (none, .push 0 1), (none, .push 0 2), (some 1, .push 0 3), (some 0, .push 0 4), (none, .push 0 5), (none, .size 0),
    (some 0, .newCopy 1 0), (none, .newCopy 1 0), (some 0, .pop 0), (none, .front 0), (none, .back 1)]

example : (qspecRunT 4 Env.none (fun _ => ⟨0, 0, 0⟩) qdemoT).map (fun r => (r.1 0, r.1 1, r.2.1 0, r.2.2)) =
    some (some [2, 5], some [1, 2, 5], ⟨3, 2, 2⟩, [some .unit, some .unit, some .unit, none, none, some .unit, some (.nat 3), none,
      some .unit, some .unit, some (.val 2), some (.val 5)], 1) := rfl

/-- `x.push(x.front())` needs a chunk, and cannot have it the first time. -/
example : (qspecRunT 2 Env.none (fun _ => ⟨0, 0, 0⟩)
      [(none, .new 0), (none, .push 0 7), (some 1, .pushFrom 0 0), (none, .pushFrom 0 0), (none, .back 0)]).map
      (fun r => (r.1 0, r.2.1 0, r.2.2)) =
    some (some [7, 7], (⟨1, 2, 2⟩ : Lay), [some .unit, some .unit, none, some .unit, some (.val 7)], 1) := rfl

end Cest.Deq
