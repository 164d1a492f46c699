import Verif.Tree.Methods
import Verif.Tree.Run
/-
The model of cest::set / cest::map refines the specification (helper lemmas for the property theorems).
-/
namespace Cest.Tree
open Cest
variable {V K : Type}

def toPtr : It → Option Nat
  | .elem a => some a
  | .end_ => none

theorem toPtr_inj {i j : It} : toPtr i = toPtr j ↔ i = j := by
  cases i <;> cases j <;> simp [toPtr]

theorem toPtr_first (r : List (Nat × V)) : toPtr (first r) = hd r := by
  cases r <;> rfl

/-- Machine state and iterator variables `its` agree with the specification environment. -/
structure Agree (g : Cfg V K) (st : TSt V) (its : Its) (e : Env V) : Prop where
  world : TW g st e.sets
  its : its = fun k => (e.its k).map toPtr
  next : st.next = e.next

theorem after_some {a : Nat} {s r : List (Nat × V)} (h : after a s = some r) :
    ∃ l v, s = l ++ (a, v) :: r := by
  induction s with
  | nil => simp [after] at h
  | cons e s ih =>
    obtain ⟨b, v⟩ := e
    simp only [after] at h
    split at h
    · rename_i hb; subst hb; simp at h; subst h; exact ⟨[], v, rfl⟩
    · obtain ⟨l, w, rfl⟩ := ih h; exact ⟨(b, v) :: l, w, rfl⟩

theorem valOf_some {a : Nat} {s : List (Nat × V)} {v : V} (h : valOf a s = some v) :
    ∃ l r, s = l ++ (a, v) :: r := by
  simp only [valOf, Option.map_eq_some_iff] at h
  obtain ⟨⟨b, w⟩, h1, rfl⟩ := h
  have hb := List.find?_some h1
  simp at hb; subst hb
  exact List.append_of_mem (List.mem_of_find?_eq_some h1)

theorem its_setI {e : Env V} {k : Nat} {i : It} :
    (fun j => ((e.setI k i).its j).map toPtr) = upd (fun j => (e.its j).map toPtr) k (some (toPtr i)) := by
  funext j
  simp only [Env.setI, upd_apply]
  split <;> simp

theorem getIt_eq {g : Cfg V K} {st : TSt V} {its : Its} {e : Env V} (A : Agree g st its e) {k : Nat} {i : It}
    (h : e.its k = some i) : getIt its k st = .ok (toPtr i) st := by
  simp [getIt, A.its, h]

theorem insert_refines {g : Cfg V K} (hg : g.Lawful) {st : TSt V} {its : Its} {e : Env V}
    (A : Agree g st its e) {x : Nat} {s : Seq V} (hx : e.sets x = some s) (v : V) (j : Nat) :
    ∃ st' p, (∀ fuel, depth s.length < fuel → insert g fuel x v st = .ok (p, (specInsert g e x s v j).2) st') ∧
      Agree g st' (upd its j (some p)) (specInsert g e x s v j).1 := by
  cases hl : lookup g s (g.key v) with
  | some r =>
    obtain ⟨a, w⟩ := r
    obtain ⟨st', h1, W1, hn⟩ := insert_old hg A.world hx v hl
    simp only [specInsert, hl]
    refine ⟨st', some a, h1, W1, ?_, by rw [hn, A.next]; rfl⟩
    rw [its_setI, A.its]; rfl
  | none =>
    obtain ⟨st', h1, W1, hn⟩ := insert_new hg A.world hx v hl
    simp only [specInsert, hl]
    rw [A.next] at W1 h1
    refine ⟨st', some e.next, h1, W1, ?_, by rw [hn, A.next]; rfl⟩
    rw [A.its]
    exact (its_setI (e := e.setL x (some (insSorted g s (e.next, v)))) (k := j) (i := .elem e.next)).symm

theorem depth_le (n : Nat) : depth n ≤ n := Nat.min_le_left _ _

/-- One operation: with enough fuel the model does what the specification says. -/
theorem step_refines [DecidableEq K] {g : Cfg V K} (hg : g.Lawful) {st : TSt V} {its : Its} {e e' : Env V}
    {op : Op V K} {o : Out V} (A : Agree g st its e) (h : specStep g e op = some (e', o)) :
    ∃ F st' its', (∀ fuel, F ≤ fuel → runOp g fuel its op st = .ok (its', o) st') ∧ Agree g st' its' e' := by
  have W := A.world
  cases op with
  | new x =>
    simp only [specStep] at h; split at h <;> simp at h
    rename_i hx; obtain ⟨rfl, rfl⟩ := h
    obtain ⟨st', h1, W1, hn⟩ := ctor_spec W hx
    exact ⟨0, st', its, fun _ _ => by simp [runOp, h1], W1, A.its, by rw [hn, A.next]; rfl⟩
  | newCopy x y =>
    simp only [specStep] at h; split at h <;> simp at h
    rename_i t hx hy; obtain ⟨rfl, rfl⟩ := h
    obtain ⟨st', h1, W1, hn⟩ := copyCtor_spec hg W hx hy
    refine ⟨t.length + 1, st', its, fun f hf => by simp [runOp, h1 f (by omega)], ?_, A.its, ?_⟩
    · rw [A.next] at W1; exact W1
    · rw [hn, A.next]; rfl
  | assign x y =>
    simp only [specStep] at h; split at h <;> simp at h
    rename_i s t hx hy; obtain ⟨hxy, rfl, rfl⟩ := h
    obtain ⟨st', h1, W1, hn⟩ := assign_spec hg W hxy hx hy
    refine ⟨s.length + t.length + 1, st', its,
      fun f hf => by simp [runOp, h1 f (by omega) (by omega)], ?_, A.its, ?_⟩
    · rw [A.next] at W1; exact W1
    · rw [hn, A.next]; rfl
  | destroy x =>
    simp only [specStep] at h; split at h <;> simp at h
    rename_i s hx; obtain ⟨rfl, rfl⟩ := h
    obtain ⟨st', h1, W1, hn⟩ := dtor_spec W hx
    exact ⟨depth s.length + 1, st', its, fun f hf => by simp [runOp, h1 f (by omega)], W1, A.its,
      by rw [hn, A.next]; rfl⟩
  | clear x =>
    simp only [specStep] at h; split at h <;> simp at h
    rename_i s hx; obtain ⟨rfl, rfl⟩ := h
    obtain ⟨st', h1, W1, hn⟩ := clear_spec W hx
    exact ⟨depth s.length + 1, st', its, fun f hf => by simp [runOp, h1 f (by omega)], W1, A.its,
      by rw [hn, A.next]; rfl⟩
  | insert x v j =>
    simp only [specStep] at h; split at h <;> simp at h
    rename_i s hx; obtain ⟨rfl, rfl⟩ := h
    obtain ⟨st', p, h1, A1⟩ := insert_refines hg A hx v j
    exact ⟨depth s.length + 1, st', _, fun f hf => by simp [runOp, h1 f (by omega)], A1⟩
  | insertHint x hh v j =>
    simp only [specStep] at h; split at h <;> simp at h
    rename_i s i hx hi; obtain ⟨rfl, rfl⟩ := h
    obtain ⟨st', p, h1, A1⟩ := insert_refines hg A hx v j
    exact ⟨depth s.length + 1, st', _,
      fun f hf => by simp [runOp, insertHint, getIt_eq A hi, h1 f (by omega)], A1⟩
  | find x k j =>
    simp only [specStep] at h; split at h <;> try simp at h
    rename_i s hx
    refine ⟨depth s.length + 1, st, upd its j (some ((lookup g s k).map Prod.fst)),
      fun f hf => ?_, ?_⟩
    · have : o = .unit := by split at h <;> simp at h <;> exact h.2.symm
      simp [runOp, find_spec hg W hx k (show depth s.length < f by omega), this]
    · split at h <;> simp at h
      · rename_i a w hl; obtain ⟨rfl, rfl⟩ := h
        exact ⟨W, by rw [its_setI, A.its, hl]; rfl, A.next⟩
      · rename_i hl; obtain ⟨rfl, rfl⟩ := h
        exact ⟨W, by rw [its_setI, A.its, hl]; rfl, A.next⟩
  | begin_ x j =>
    simp only [specStep] at h; split at h <;> simp at h
    rename_i s hx; obtain ⟨rfl, rfl⟩ := h
    refine ⟨0, st, _, fun _ _ => by simp [runOp, begin_spec W hx]; rfl, W, ?_, A.next⟩
    rw [its_setI, A.its, toPtr_first]
  | end_ x j =>
    simp only [specStep] at h; split at h <;> simp at h
    rename_i s hx; obtain ⟨rfl, rfl⟩ := h
    refine ⟨0, st, _, fun _ _ => by simp [runOp, end_spec W hx]; rfl, W, ?_, A.next⟩
    rw [its_setI, A.its]; rfl
  | inc x k =>
    simp only [specStep] at h; split at h <;> try simp at h
    rename_i s a hx hk
    split at h <;> simp at h
    rename_i r hr; obtain ⟨rfl, rfl⟩ := h
    obtain ⟨l, v, rfl⟩ := after_some hr
    refine ⟨depth (l ++ (a, v) :: r).length, st, _, fun f hf => by
      simp [runOp, getIt_eq A hk, toPtr, inc_spec hg W hx hf]; rfl, W, ?_, A.next⟩
    rw [its_setI, A.its, toPtr_first]
  | deref x k =>
    simp only [specStep] at h; split at h <;> try simp at h
    rename_i s a hx hk
    split at h <;> simp at h
    rename_i v hv; obtain ⟨rfl, rfl⟩ := h
    obtain ⟨l, r, rfl⟩ := valOf_some hv
    exact ⟨0, st, its, fun _ _ => by simp [runOp, getIt_eq A hk, toPtr, deref_spec W hx], A⟩
  | write x k w =>
    simp only [specStep] at h; split at h <;> try simp at h
    rename_i s a hx hk
    split at h <;> try simp at h
    rename_i v hv; obtain ⟨hkey, rfl, rfl⟩ := h
    obtain ⟨l, r, rfl⟩ := valOf_some hv
    obtain ⟨st', h1, W1, hn⟩ := setX_spec W w hx hkey
    exact ⟨0, st', its, fun _ _ => by simp [runOp, getIt_eq A hk, toPtr, h1], W1, A.its,
      by rw [hn, A.next]; rfl⟩
  | itEq k j =>
    simp only [specStep] at h; split at h <;> simp at h
    rename_i i i' hk hj; obtain ⟨rfl, rfl⟩ := h
    exact ⟨0, st, its, fun _ _ => by simp [runOp, getIt_eq A hk, getIt_eq A hj, itEq, toPtr_inj], A⟩
  | size x =>
    simp only [specStep] at h; split at h <;> simp at h
    rename_i s hx; obtain ⟨rfl, rfl⟩ := h
    exact ⟨0, st, its, fun _ _ => by simp [runOp, size_spec W hx], A⟩
  | empty x =>
    simp only [specStep] at h; split at h <;> simp at h
    rename_i s hx; obtain ⟨rfl, rfl⟩ := h
    exact ⟨0, st, its, fun _ _ => by simp [runOp, empty_spec W hx], A⟩
  | toList x =>
    simp only [specStep] at h; split at h <;> simp at h
    rename_i s hx; obtain ⟨rfl, rfl⟩ := h
    exact ⟨s.length + 1, st, its, fun f hf => by simp [runOp, toList_spec hg W hx (show s.length < f by omega)], A⟩

theorem run_refines [DecidableEq K] {g : Cfg V K} (hg : g.Lawful) {ops : List (Op V K)} {st : TSt V} {its : Its}
    {e e' : Env V} {os : List (Out V)} (A : Agree g st its e) (h : specRun g e ops = some (e', os)) :
    ∃ F st' its', (∀ fuel, F ≤ fuel → runOps g fuel its ops st = .ok (its', os) st') ∧ Agree g st' its' e' := by
  induction ops generalizing st its e os with
  | nil => simp [specRun] at h; obtain ⟨rfl, rfl⟩ := h; exact ⟨0, st, its, fun _ _ => rfl, A⟩
  | cons op ops ih =>
    simp only [specRun] at h
    split at h <;> try simp at h
    rename_i e1 o h1
    split at h <;> simp at h
    rename_i e2 os2 h2
    obtain ⟨rfl, rfl⟩ := h
    obtain ⟨F1, st1, its1, r1, A1⟩ := step_refines hg A h1
    obtain ⟨F2, st2, its2, r2, A2⟩ := ih A1 h2
    refine ⟨max F1 F2, st2, its2, ?_, A2⟩
    intro fuel hf
    simp [runOps, r1 fuel (by omega), r2 fuel (by omega)]

theorem agree_init (g : Cfg V K) : Agree g (St.init : TSt V) (fun _ => none) Env.none := by
  refine ⟨?_, ?_, rfl⟩
  · have := World.init (I := treeI g)
    simpa [Env.none] using this
  · funext k; simp [Env.none]

end Cest.Tree
