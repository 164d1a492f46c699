import Verif.FList.Proofs
import Verif.FList.Run
/-
The model of cest::forward_list refines the specification (helper lemmas for the property theorems).
-/
namespace Cest.FL
open Cest
variable {V : Type}

def toPtr : It → Ptr
  | .before x => .head x
  | .elem a => .node a
  | .end_ => .null

theorem toPtr_inj {i j : It} : toPtr i = toPtr j ↔ i = j := by
  cases i <;> cases j <;> simp [toPtr]

/-- Machine state and iterator variables `its` agree with the specification environment. -/
structure Agree (st : FSt V) (its : Its) (e : Env V) : Prop where
  world : FW st e.lists
  its : its = fun k => (e.its k).map toPtr
  next : st.next = e.next

theorem toPtr_first (r : List (Nat × V)) : toPtr (first r) = fstP r := by
  cases r <;> rfl

theorem splitAt_some {a : Nat} {s l r : List (Nat × V)} (h : splitAt a s = some (l, r)) :
    s = l ++ r ∧ ∃ v r', r = (a, v) :: r' := by
  induction s generalizing l with
  | nil => simp [splitAt] at h
  | cons e s ih =>
    obtain ⟨b, v⟩ := e
    simp only [splitAt] at h
    split at h
    · rename_i hb; subst hb
      simp at h; obtain ⟨rfl, rfl⟩ := h
      exact ⟨rfl, v, s, rfl⟩
    · split at h
      · rename_i l' r' h'
        simp at h; obtain ⟨rfl, rfl⟩ := h
        obtain ⟨h1, h2⟩ := ih h'
        exact ⟨by rw [h1]; rfl, h2⟩
      · simp at h

theorem splitAfter_some {x : Nat} {i : It} {s l r : List (Nat × V)}
    (h : splitAfter x s i = some (l, r)) : s = l ++ r ∧ toPtr i = lstP x l := by
  cases i with
  | before y =>
    simp only [splitAfter] at h
    split at h
    · rename_i hy; subst hy; simp at h; obtain ⟨rfl, rfl⟩ := h; exact ⟨rfl, rfl⟩
    · simp at h
  | elem a =>
    simp only [splitAfter] at h
    split at h <;> simp at h
    rename_i l' d r' h'
    obtain ⟨rfl, rfl⟩ := h
    obtain ⟨h1, v, r'', h2⟩ := splitAt_some h'
    simp at h2
    obtain ⟨rfl, rfl⟩ := h2
    exact ⟨by simp [h1], by rw [lstP_concat]; rfl⟩
  | end_ => simp [splitAfter] at h

theorem splitLast_some {i : It} {s l r : List (Nat × V)}
    (h : splitLast s i = some (l, r)) : s = l ++ r ∧ toPtr i = fstP r := by
  cases i with
  | before y => simp [splitLast] at h
  | elem a =>
    obtain ⟨h1, v, r', h2⟩ := splitAt_some h
    exact ⟨h1, by rw [h2]; rfl⟩
  | end_ => simp [splitLast] at h; obtain ⟨rfl, rfl⟩ := h; simp [toPtr, fstP]

theorem its_setI {e : Env V} {k : Nat} {i : It} :
    (fun j => ((e.setI k i).its j).map toPtr) = upd (fun j => (e.its j).map toPtr) k (some (toPtr i)) := by
  funext j
  simp only [Env.setI, upd_apply]
  split <;> simp

theorem getIt_eq {st : FSt V} {its : Its} {e : Env V} (A : Agree st its e) {k : Nat} {i : It}
    (h : e.its k = some i) : getIt its k st = .ok (toPtr i) st := by
  simp [getIt, A.its, h]

/-- One operation: with enough fuel the model does what the specification says. -/
theorem step_refines {st : FSt V} {its : Its} {e e' : Env V} {op : Op V} {o : Out V}
    (A : Agree st its e) (h : specStep e op = some (e', o)) :
    ∃ F st' its', (∀ fuel, F ≤ fuel → runOp fuel its op st = .ok (its', o) st') ∧ Agree st' its' e' := by
  have W := A.world
  cases op with
  | new x =>
    simp only [specStep] at h; split at h <;> simp at h
    rename_i hx; obtain ⟨rfl, rfl⟩ := h
    obtain ⟨st', h1, W1, hn⟩ := ctor_spec W hx
    exact ⟨0, st', its, fun _ _ => by simp [runOp, h1], W1, A.its, by rw [hn, A.next]; rfl⟩
  | newCopy x y =>
    simp only [specStep] at h; split at h <;> simp at h
    rename_i t hx hy; obtain ⟨rfl, rfl⟩ := h
    obtain ⟨st', h1, W1, hn⟩ := copyCtor_spec W hx hy
    refine ⟨t.length + 1, st', its, fun f hf => by simp [runOp, h1 f (by omega)], ?_, A.its, ?_⟩
    · rw [A.next] at W1; exact W1
    · rw [hn, A.next]; rfl
  | assign x y t =>
    simp only [specStep] at h; split at h <;> simp at h
    rename_i s s' hx hy ht; obtain ⟨rfl, rfl⟩ := h
    obtain ⟨st', h1, W1, hn⟩ := assign_spec W hx hy ht
    refine ⟨s.length + s'.length + 1, st', its,
      fun f hf => by simp [runOp, h1 f (by omega) (by omega)], ?_, A.its, ?_⟩
    · rw [A.next] at W1; exact W1
    · rw [hn, A.next]; rfl
  | swap x y =>
    simp only [specStep] at h; split at h <;> simp at h
    rename_i s t hx hy; obtain ⟨rfl, rfl⟩ := h
    obtain ⟨st', h1, W1, hn⟩ := swap_spec W hx hy
    exact ⟨0, st', its, fun _ _ => by simp [runOp, h1], W1, A.its, by rw [hn, A.next]; rfl⟩
  | destroy x =>
    simp only [specStep] at h; split at h <;> simp at h
    rename_i s hx; obtain ⟨rfl, rfl⟩ := h
    obtain ⟨st', h1, W1, hn⟩ := dtor_spec W hx
    exact ⟨s.length + 1, st', its, fun f hf => by simp [runOp, h1 f (by omega)], W1, A.its,
      by rw [hn, A.next]; rfl⟩
  | clear x =>
    simp only [specStep] at h; split at h <;> simp at h
    rename_i s hx; obtain ⟨rfl, rfl⟩ := h
    obtain ⟨st', h1, W1, hn⟩ := clear_spec W hx
    exact ⟨s.length + 1, st', its, fun f hf => by simp [runOp, h1 f (by omega)], W1, A.its,
      by rw [hn, A.next]; rfl⟩
  | pushFront x v =>
    simp only [specStep] at h; split at h <;> simp at h
    rename_i s hx; obtain ⟨rfl, rfl⟩ := h
    obtain ⟨st', h1, W1, hn⟩ := pushFront_spec W hx v
    exact ⟨0, st', its, fun _ _ => by simp [runOp, h1], by rw [A.next] at W1; exact W1, A.its,
      by rw [hn, A.next]; rfl⟩
  | popFront x =>
    simp only [specStep] at h; split at h <;> simp at h
    rename_i d s hx; obtain ⟨rfl, rfl⟩ := h
    obtain ⟨st', h1, W1, hn⟩ := popFront_spec W hx
    exact ⟨0, st', its, fun _ _ => by simp [runOp, h1], W1, A.its, by rw [hn, A.next]; rfl⟩
  | insertAfter x k v j =>
    simp only [specStep] at h; split at h <;> try simp at h
    rename_i s i hx hk
    split at h <;> simp at h
    rename_i l r hsp; obtain ⟨rfl, rfl⟩ := h
    obtain ⟨rfl, hp⟩ := splitAfter_some hsp
    obtain ⟨st', h1, W1, hn⟩ := insertAfter_spec W hx v
    refine ⟨0, st', _, fun _ _ => by simp only [runOp, M.bind_apply, getIt_eq A hk, hp, h1]; rfl, ?_, ?_, ?_⟩
    · rw [A.next] at W1; exact W1
    · rw [A.next]
      show upd its j _ = fun j' => (((e.setL x _).setI j (.elem e.next)).its j').map toPtr
      rw [its_setI, A.its]; rfl
    · rw [hn, A.next]; rfl
  | eraseAfter x k j =>
    simp only [specStep] at h; split at h <;> try simp at h
    rename_i s i hx hk
    split at h <;> simp at h
    rename_i l d r hsp; obtain ⟨rfl, rfl⟩ := h
    obtain ⟨rfl, hp⟩ := splitAfter_some hsp
    obtain ⟨st', h1, W1, hn⟩ := eraseAfter_spec W hx
    refine ⟨0, st', _, fun _ _ => by
      simp only [runOp, M.bind_apply, getIt_eq A hk, hp, h1]; rfl, ?_, ?_, ?_⟩
    · exact W1
    · show upd its j _ = fun j' => (((e.setL x _).setI j (first r)).its j').map toPtr
      rw [its_setI, A.its, toPtr_first]; rfl
    · rw [hn, A.next]; rfl
  | eraseRange x k m j =>
    simp only [specStep] at h; split at h <;> try simp at h
    rename_i s i i' hx hk hm
    split at h <;> try simp at h
    rename_i l r hsp
    split at h <;> simp at h
    rename_i mid r' hsl; obtain ⟨rfl, rfl⟩ := h
    obtain ⟨rfl, hp⟩ := splitAfter_some hsp
    obtain ⟨rfl, hq⟩ := splitLast_some hsl
    obtain ⟨st', h1, W1, hn⟩ := eraseRange_spec W hx
    refine ⟨mid.length + 1, st', _, fun f hf => by
      simp only [runOp, M.bind_apply, getIt_eq A hk, getIt_eq A hm, hp, hq, h1 f (by omega)]; rfl, W1, ?_, ?_⟩
    · show upd its j _ = fun j' => (((e.setL x _).setI j i').its j').map toPtr
      rw [its_setI, A.its, hq]; rfl
    · rw [hn, A.next]; rfl
  | before x j =>
    simp only [specStep] at h; split at h <;> simp at h
    rename_i s hx; obtain ⟨rfl, rfl⟩ := h
    refine ⟨0, st, _, fun _ _ => by simp only [runOp, M.bind_apply, before_spec W hx]; rfl, W, ?_, A.next⟩
    rw [its_setI, A.its]; rfl
  | begin_ x j =>
    simp only [specStep] at h; split at h <;> simp at h
    rename_i s hx; obtain ⟨rfl, rfl⟩ := h
    refine ⟨0, st, _, fun _ _ => by simp only [runOp, M.bind_apply, begin_spec W hx]; rfl, W, ?_, A.next⟩
    rw [its_setI, A.its, toPtr_first]
  | end_ x j =>
    simp only [specStep] at h; split at h <;> simp at h
    rename_i s hx; obtain ⟨rfl, rfl⟩ := h
    refine ⟨0, st, _, fun _ _ => rfl, W, ?_, A.next⟩
    rw [its_setI, A.its]; rfl
  | inc x k =>
    simp only [specStep] at h; split at h <;> try simp at h
    rename_i s i hx hk
    split at h <;> simp at h
    rename_i l r hsp; obtain ⟨rfl, rfl⟩ := h
    obtain ⟨rfl, hp⟩ := splitAfter_some hsp
    refine ⟨0, st, _, fun _ _ => by
      simp only [runOp, M.bind_apply, getIt_eq A hk, hp, inc_spec W hx]; rfl, W, ?_, A.next⟩
    rw [its_setI, A.its, toPtr_first]
  | deref x k =>
    simp only [specStep] at h; split at h <;> try simp at h
    rename_i s a hx hk
    split at h <;> simp at h
    rename_i l b w r hsp; obtain ⟨rfl, rfl⟩ := h
    obtain ⟨rfl, _, _, hp⟩ := splitAt_some hsp
    simp at hp; obtain ⟨⟨rfl, rfl⟩, rfl⟩ := hp
    exact ⟨0, st, its, fun _ _ => by
      simp only [runOp, M.bind_apply, getIt_eq A hk, toPtr, deref_spec W hx]; rfl, A⟩
  | set x k v =>
    simp only [specStep] at h; split at h <;> try simp at h
    rename_i s a hx hk
    split at h <;> simp at h
    rename_i l b w r hsp; obtain ⟨rfl, rfl⟩ := h
    obtain ⟨rfl, _, _, hp⟩ := splitAt_some hsp
    simp at hp; obtain ⟨⟨rfl, rfl⟩, rfl⟩ := hp
    obtain ⟨st', h1, W1, hn⟩ := setVal_spec (w := v) W hx
    exact ⟨0, st', its, fun _ _ => by
      simp only [runOp, M.bind_apply, getIt_eq A hk, toPtr, h1]; rfl, W1, A.its,
      by rw [hn, A.next]; rfl⟩
  | itEq k j =>
    simp only [specStep] at h; split at h <;> simp at h
    rename_i i i' hk hj; obtain ⟨rfl, rfl⟩ := h
    refine ⟨0, st, its, fun _ _ => ?_, A⟩
    simp only [runOp, M.bind_apply, getIt_eq A hk, getIt_eq A hj, M.pure_apply, itEq]
    congr 3
    rw [Bool.eq_iff_iff]; simp [toPtr_inj]
  | empty x =>
    simp only [specStep] at h; split at h <;> simp at h
    rename_i s hx; obtain ⟨rfl, rfl⟩ := h
    exact ⟨0, st, its, fun _ _ => by simp [runOp, empty_spec W hx], A⟩
  | front x =>
    simp only [specStep] at h; split at h <;> simp at h
    rename_i a v r hx; obtain ⟨rfl, rfl⟩ := h
    exact ⟨0, st, its, fun _ _ => by simp [runOp, front_spec W hx], A⟩
  | toList x =>
    simp only [specStep] at h; split at h <;> simp at h
    rename_i s hx; obtain ⟨rfl, rfl⟩ := h
    exact ⟨s.length + 1, st, its, fun f hf => by simp [runOp, toList_spec W hx (show s.length < f by omega)], A⟩

theorem run_refines {ops : List (Op V)} {st : FSt V} {its : Its} {e e' : Env V} {os : List (Out V)}
    (A : Agree st its e) (h : specRun e ops = some (e', os)) :
    ∃ F st' its', (∀ fuel, F ≤ fuel → runOps fuel its ops st = .ok (its', os) st') ∧ Agree st' its' e' := by
  induction ops generalizing st its e os with
  | nil => simp [specRun] at h; obtain ⟨rfl, rfl⟩ := h; exact ⟨0, st, its, fun _ _ => rfl, A⟩
  | cons op ops ih =>
    simp only [specRun] at h
    split at h <;> try simp at h
    rename_i e1 o h1
    split at h <;> simp at h
    rename_i e2 os2 h2
    obtain ⟨rfl, rfl⟩ := h
    obtain ⟨F1, st1, its1, r1, A1⟩ := step_refines A h1
    obtain ⟨F2, st2, its2, r2, A2⟩ := ih A1 h2
    refine ⟨max F1 F2, st2, its2, ?_, A2⟩
    intro fuel hf
    simp [runOps, r1 fuel (by omega), r2 fuel (by omega)]

theorem agree_init : Agree (St.init : FSt V) (fun _ => none) Env.none := by
  refine ⟨?_, ?_, rfl⟩
  · have := World.init (I := flistI V)
    simpa [Env.none] using this
  · funext k; simp [Env.none]

end Cest.FL
