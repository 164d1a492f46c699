import Verif.Alloc.Model
import Mathlib.Data.List.Nodup
import Mathlib.Data.List.Perm.Basic

/-! Lemmas for C159 and C160: every container owns blocks of its ow allocator, and together they ow every live block. -/
namespace Cest.Alloc
set_option linter.unusedSectionVars false
open Cest

variable {A : Type} {α β γ : Type} {env : Env A} {C : Nat} {φ : Nat → Bool}

/-- The live blocks are those of `L`, each once. -/
structure HInv (φ : Nat → Bool) (h : Heap A) (L : List (Blk A)) : Prop where
  nodup : (L.map Prod.fst).Nodup
  live : ∀ p a n, h.blk p = some (a, n) ↔ (p, a, n) ∈ L
  fresh : ∀ p, h.next ≤ p → h.blk p = none
  fail : h.fail = φ

/-- No request fails. -/
def Never (φ : Nat → Bool) : Prop := ∀ i, φ i = false

theorem HInv.perm {h : Heap A} {L L' : List (Blk A)} (H : HInv φ h L) (hp : L.Perm L') : HInv φ h L' :=
  ⟨(hp.map _).nodup_iff.1 H.nodup, fun p a n => (H.live p a n).trans hp.mem_iff, H.fresh, H.fail⟩

/-- From the blocks `P` to the blocks `ow x`, or with an exception to the blocks `E`, whatever else there is. -/
def Tr (φ : Nat → Bool) (f : HM A α) (P : List (Blk A)) (ow : α → List (Blk A)) (post : α → Prop) (E : List (Blk A)) : Prop :=
  ∀ h L, HInv φ h (P ++ L) → (∃ x h', f h = .ok x h' ∧ post x ∧ HInv φ h' (ow x ++ L)) ∨
    ¬ Never φ ∧ ∃ h', f h = .throw .badAlloc h' ∧ HInv φ h' (E ++ L)

variable {P P' E E' : List (Blk A)} {ow : α → List (Blk A)} {ow' : β → List (Blk A)} {post : α → Prop} {post' : β → Prop}

theorem Tr.pure {x : α} (hx : post x) (hp : P.Perm (ow x)) : Tr φ (Pure.pure x) P ow post E :=
  fun h L H => .inl ⟨x, h, rfl, hx, H.perm (hp.append_right L)⟩

theorem Tr.bind {f : HM A α} {g : α → HM A β} (hf : Tr φ f P ow post E)
    (hg : ∀ x, post x → Tr φ (g x) (ow x) ow' post' E) : Tr φ (f >>= g) P ow' post' E := by
  intro h L H
  rcases hf h L H with ⟨x, h', e, hx, H'⟩ | ⟨n, h', e, H'⟩
  · rcases hg x hx h' L H' with ⟨y, h'', e', hy, H''⟩ | ⟨n, h'', e', H''⟩
    · exact .inl ⟨y, h'', by rw [M.bind_apply, e]; exact e', hy, H''⟩
    · exact .inr ⟨n, h'', by rw [M.bind_apply, e]; exact e', H''⟩
  · exact .inr ⟨n, h', by rw [M.bind_apply, e], H'⟩

theorem Tr.pre {f : HM A α} (hp : P'.Perm P) (hf : Tr φ f P ow post E) : Tr φ f P' ow post E :=
  fun h L H => hf h L (H.perm (hp.append_right L))

theorem Tr.frame {f : HM A α} (F : List (Blk A)) (hf : Tr φ f P ow post E) :
    Tr φ f (P ++ F) (fun x => ow x ++ F) post (E ++ F) := by
  intro h L H
  rcases hf h (F ++ L) (by rwa [← List.append_assoc]) with ⟨x, h', e, hx, H'⟩ | ⟨n, h', e, H'⟩
  · exact .inl ⟨x, h', e, hx, by rwa [List.append_assoc]⟩
  · exact .inr ⟨n, h', e, by rwa [List.append_assoc]⟩

theorem Tr.never {f : HM A α} (hn : Never φ) (hf : Tr φ f P ow post E) : Tr φ f P ow post E' :=
  fun h L H => (hf h L H).elim .inl fun k => absurd hn k.1

theorem Tr.onThrow {f : HM A α} {c : HM A Unit} (hf : Tr φ f P ow post E')
    (hc : ∀ E'', Tr φ c E' (fun _ => E) (fun _ => True) E'') (hc' : ∀ h e h', c h ≠ .throw e h') :
    Tr φ (M.onThrow f c) P ow post E := by
  intro h L H
  rcases hf h L H with ⟨x, h', e, hx, H'⟩ | ⟨n, h', e, H'⟩
  · exact .inl ⟨x, h', M.onThrow_of_ok e, hx, H'⟩
  · rcases hc [] h' L H' with ⟨_, h'', e', _, H''⟩ | ⟨_, h'', e', _⟩
    · exact .inr ⟨n, h'', by simp only [M.onThrow, e, e'], H''⟩
    · exact absurd e' (hc' _ _ _)

theorem Tr.noexcept {f : HM A α} (hn : Never φ) (hf : Tr φ f P ow post E') : Tr φ (M.noexcept f) P ow post E := by
  intro h L H
  rcases hf h L H with ⟨x, h', e, hx, H'⟩ | ⟨n, _⟩
  · exact .inl ⟨x, h', M.noexcept_of_ok e, hx, H'⟩
  · exact absurd hn n

theorem tr_allocate (a : A) (n : Nat) (F : List (Blk A)) :
    Tr φ (allocate a n) F (fun p => (p, a, n) :: F) (fun _ => True) F := by
  intro h L H
  unfold allocate
  split
  · rename_i hf
    refine .inr ⟨fun hn => ?_, _, rfl, H.nodup, H.live, H.fresh, H.fail⟩
    rw [H.fail, hn] at hf
    cases hf
  refine .inl ⟨h.next, _, rfl, trivial, ?_, ?_, ?_, H.fail⟩
  · rw [List.cons_append, List.map_cons, List.nodup_cons]
    refine ⟨fun hm => ?_, H.nodup⟩
    obtain ⟨⟨p, b, m⟩, he, hp⟩ := List.mem_map.1 hm
    have := (H.live p b m).2 he
    rw [show p = h.next from hp, H.fresh _ (Nat.le_refl _)] at this
    cases this
  · intro p b m
    rw [List.cons_append, List.mem_cons, ← H.live]
    show (if p = h.next then some (a, n) else h.blk p) = _ ↔ _
    split
    · rename_i hp
      subst hp
      rw [H.fresh _ (Nat.le_refl _)]
      simp [eq_comm]
    · rename_i hp
      simp [hp]
  · intro p hp
    have hp : h.next + 1 ≤ p := hp
    show (if p = h.next then some (a, n) else h.blk p) = none
    rw [if_neg (by omega)]
    exact H.fresh p (by omega)

variable [DecidableEq A]

theorem tr_deallocate (a : A) (p n : Nat) (F : List (Blk A)) :
    Tr φ (deallocate env a (some p) n) ((p, a, n) :: F) (fun _ => F) (fun _ => True) E := by
  intro h L H
  have hb : h.blk p = some (a, n) := (H.live p a n).2 (by simp)
  have hn := H.nodup
  rw [List.cons_append, List.map_cons, List.nodup_cons] at hn
  refine .inl ⟨(), { h with blk := fun q => if q = p then none else h.blk q }, by unfold deallocate; exact if_pos hb, trivial, hn.2,
    ?_, ?_, H.fail⟩
  · intro q b m
    show (if q = p then none else h.blk q) = _ ↔ _
    split
    · rename_i hq
      subst hq
      refine ⟨fun h => (by cases h), fun hm => absurd ?_ hn.1⟩
      exact List.mem_map.2 ⟨_, hm, rfl⟩
    · rename_i hq
      rw [H.live, List.cons_append, List.mem_cons]
      exact ⟨fun h => h.resolve_left fun e => hq (congrArg Prod.fst e), Or.inr⟩
  · intro q hq
    show (if q = p then none else h.blk q) = none
    split
    · rfl
    · exact H.fresh q hq

theorem deallocate_nothrow (a : A) (p : Option Nat) (n : Nat) (h : Heap A) (e : Exc) (h' : Heap A) :
    deallocate env a p n h ≠ .throw e h' := by
  unfold deallocate
  split <;> split <;> simp

theorem tr_newAlloc (F : List (Blk A)) : Tr φ (newAlloc env) F (fun _ => F) (fun a => ∃ i, a = env.dflt i) E :=
  fun h _ H => .inl ⟨_, _, rfl, ⟨h.made, rfl⟩, ⟨H.nodup, H.live, H.fresh, H.fail⟩⟩

/-! ### what the containers own -/

def ownVec (x : Vec A) : List (Blk A) := match x.p with | some p => [(p, x.alloc, x.cap)] | none => []
def goodVec (x : Vec A) : Prop := x.cap = 0 ↔ x.p = none
def ownStr (x : Str A) : List (Blk A) := match x.p with | some p => [(p, x.alloc, x.cap + 1)] | none => []
def goodStr (x : Str A) : Prop := x.p ≠ none
def ownNodes (x : Nodes A) : List (Blk A) := x.nodes.map fun p => (p, x.alloc, 1)
def goodNodes (env : Env A) (x : Nodes A) : Prop := ∃ i, x.alloc = env.dflt i
def ownDq (C : Nat) (x : Dq A) : List (Blk A) := x.chunks.map fun p => (p, x.alloc, C)

/-! ### vector -/

theorem tr_vDefault : Tr φ (vDefault env) [] ownVec (fun x => goodVec x ∧ ownVec x = []) E :=
  (tr_newAlloc []).bind fun _ _ => Tr.pure (by simp [goodVec, ownVec]) (by simp [ownVec])

theorem tr_vDefault' : Tr φ (vDefault env) [] ownVec goodVec E :=
  (tr_newAlloc []).bind fun _ _ => Tr.pure (by simp [goodVec]) (by simp [ownVec])

theorem tr_vReserve (x : Vec A) (n : Nat) (hx : goodVec x) : Tr φ (vReserve env x n) (ownVec x) ownVec goodVec (ownVec x) := by
  unfold vReserve
  split
  · rename_i hn
    refine (tr_allocate x.alloc n _).bind fun p _ => ?_
    by_cases hc : x.cap = 0
    · simp only [hc, ne_eq, not_true, if_false]
      refine Tr.pure (by simp [goodVec]; omega) ?_
      simp [ownVec, hx.1 hc]
    · simp only [ne_eq, hc, not_false_eq_true, if_true]
      obtain ⟨q, hq⟩ := Option.ne_none_iff_exists'.1 fun h => hc (hx.2 h)
      refine Tr.bind (ow := fun _ => [(p, x.alloc, n)]) (post := fun _ => True) ?_ fun _ _ => Tr.pure (by simp [goodVec]; omega) ?_
      · rw [hq]
        refine (tr_deallocate x.alloc q x.cap [(p, x.alloc, n)]).pre ?_
        simp only [ownVec, hq]
        exact List.Perm.swap ..
      · simp [ownVec]
  · exact Tr.pure hx .rfl

theorem tr_vSize {x : Vec A} (n : Nat) (hx : goodVec x) :
    Tr φ (pure { x with size := n }) (ownVec x) ownVec goodVec E := Tr.pure hx .rfl

theorem tr_vPush (x : Vec A) (hx : goodVec x) : Tr φ (vPush env x) (ownVec x) ownVec goodVec (ownVec x) := by
  unfold vPush
  dsimp only
  split
  · exact (tr_vReserve x 1 hx).bind fun y hy => tr_vSize _ hy
  · split
    · exact (tr_vReserve x _ hx).bind fun y hy => tr_vSize _ hy
    · exact tr_vSize _ hx

theorem tr_vPushN (hn : Never φ) (n : Nat) : ∀ x : Vec A, goodVec x → Tr φ (vPushN env x n) (ownVec x) ownVec goodVec E := by
  induction n with
  | zero => exact fun x hx => Tr.pure hx .rfl
  | succ n ih => exact fun x hx => ((tr_vPush x hx).never hn).bind fun y hy => ih y hy

theorem tr_vCopy (y : Vec A) : Tr φ (vCopy env y) [] ownVec goodVec [] :=
  tr_vDefault.bind fun x hx => by
    have h := tr_vReserve (φ := φ) (env := env) x y.cap hx.1
    rw [hx.2] at h ⊢
    exact h.bind fun _ h => tr_vSize _ h

theorem tr_vCount (n : Nat) (a : A) : Tr φ (vCount env n a) [] ownVec goodVec [] :=
  Tr.bind (tr_vReserve { size := 0, cap := 0, p := none, alloc := a } n (by simp [goodVec])) fun _ h => tr_vSize _ h

theorem tr_vInit (hn : Never φ) (n : Nat) (a : A) : Tr φ (vInit env n a) [] ownVec goodVec [] :=
  tr_vPushN hn n { size := 0, cap := 0, p := none, alloc := a } (by simp [goodVec])

theorem tr_vDestroy (x : Vec A) (hx : goodVec x) : Tr φ (vDestroy env x) (ownVec x) (fun _ => []) (fun _ => True) E := by
  unfold vDestroy
  split
  · rename_i hc
    obtain ⟨q, hq⟩ := Option.ne_none_iff_exists'.1 fun h => hc (hx.2 h)
    rw [hq]
    exact (tr_deallocate x.alloc q x.cap []).pre (by simp [ownVec, hq])
  · rename_i hc
    exact Tr.pure trivial (by simp [ownVec, hx.1 (not_not.1 hc)])

theorem tr_vAssign (x y : Vec A) (hx : goodVec x) : Tr φ (vAssign env x y) (ownVec x) ownVec goodVec (ownVec x) :=
  (tr_vReserve x _ hx).bind fun _ h => tr_vSize _ h

theorem tr_vResize (x : Vec A) (n : Nat) (hx : goodVec x) : Tr φ (vResize env x n) (ownVec x) ownVec goodVec (ownVec x) := by
  unfold vResize
  dsimp only
  split
  · exact (tr_vReserve x n hx).bind fun y hy => tr_vSize _ hy
  · exact tr_vSize _ hx

/-! ### string -/

theorem tr_sAlloc (hn : Never φ) (a : A) : Tr φ (sAlloc a) [] ownStr goodStr E :=
  Tr.noexcept hn ((tr_allocate a 2 []).bind fun p _ => Tr.pure (by simp [goodStr]) (by simp [ownStr]))

theorem tr_sPtr (n : Nat) (a : A) : Tr φ (sPtr n a) [] ownStr goodStr [] :=
  (tr_allocate a (n + 2) []).bind fun p _ => Tr.pure (by simp [goodStr]) (by simp [ownStr])

theorem tr_sDefault (hn : Never φ) : Tr φ (sDefault env) [] ownStr goodStr E := (tr_newAlloc []).bind fun a _ => tr_sAlloc hn a
theorem tr_sCopy (n : Nat) : Tr φ (sCopy env n) [] ownStr goodStr [] := (tr_newAlloc []).bind fun a _ => tr_sPtr n a

/-- Replacing the block: first the new one is allocated, then the old one freed. -/
theorem tr_sGrow (x : Str A) (m : Nat) (hx : goodStr x) :
    Tr φ (do let p ← allocate x.alloc m; deallocate env x.alloc x.p (x.cap + 1); pure p) (ownStr x)
      (fun p => [(p, x.alloc, m)]) (fun _ => True) (ownStr x) := by
  obtain ⟨q, hq⟩ := Option.ne_none_iff_exists'.1 hx
  refine (tr_allocate x.alloc m _).bind fun p _ => ?_
  refine Tr.bind (ow := fun _ => [(p, x.alloc, m)]) (post := fun _ => True) ?_ fun _ _ => Tr.pure trivial .rfl
  rw [hq]
  refine (tr_deallocate x.alloc q _ [(p, x.alloc, m)]).pre ?_
  simp only [ownStr, hq]
  exact List.Perm.swap ..

theorem grow_bind (x : Str A) (m : Nat) (g : Nat → HM A β) :
    (do let p ← allocate x.alloc m; deallocate env x.alloc x.p (x.cap + 1); g p) =
      (do let p ← allocate x.alloc m; deallocate env x.alloc x.p (x.cap + 1); pure p) >>= g := by
  funext h
  simp only [M.bind_apply]
  cases allocate x.alloc m h with
  | ok a s =>
    simp only
    cases deallocate env x.alloc x.p (x.cap + 1) s <;> simp
  | _ => simp

theorem tr_sReserve (x : Str A) (n : Nat) (hx : goodStr x) : Tr φ (sReserve env x n) (ownStr x) ownStr goodStr (ownStr x) := by
  unfold sReserve
  split
  · rw [grow_bind]
    exact (tr_sGrow x _ hx).bind fun p _ => Tr.pure (by simp [goodStr]) (by simp [ownStr])
  · exact Tr.pure hx .rfl

theorem tr_sPush (x : Str A) (hx : goodStr x) : Tr φ (sPush env x) (ownStr x) ownStr goodStr (ownStr x) := by
  unfold sPush
  dsimp only
  split
  · exact (tr_sReserve x _ hx).bind fun y hy => Tr.pure hy .rfl
  · exact Tr.pure hx .rfl

theorem tr_sAppend (x : Str A) (n : Nat) (hx : goodStr x) : Tr φ (sAppend env x n) (ownStr x) ownStr goodStr (ownStr x) := by
  unfold sAppend
  dsimp only
  split
  · exact Tr.pure hx .rfl
  · rw [grow_bind]
    exact (tr_sGrow x _ hx).bind fun p _ => Tr.pure (by simp [goodStr]) (by simp [ownStr])

theorem tr_sDestroy (x : Str A) (hx : goodStr x) : Tr φ (sDestroy env x) (ownStr x) (fun _ => []) (fun _ => True) E := by
  obtain ⟨q, hq⟩ := Option.ne_none_iff_exists'.1 hx
  unfold sDestroy
  rw [hq]
  exact (tr_deallocate x.alloc q _ []).pre (by simp [ownStr, hq])

theorem tr_sAssign (hn : Never φ) (x : Str A) (n : Nat) (hx : goodStr x) :
    Tr φ (sAssign env x n) (ownStr x) ownStr goodStr E := by
  unfold sAssign
  dsimp only
  split
  · exact (tr_sDestroy x hx).bind fun _ _ => ((tr_allocate _ _ []).never hn).bind fun p _ =>
      Tr.pure (by simp [goodStr]) (by simp [ownStr])
  · exact Tr.pure hx .rfl

theorem tr_sRangeLoop (hn : Never φ) (n : Nat) : ∀ (len cap : Nat) (x : Str A), goodStr x →
    Tr φ (sRangeLoop env n len cap x) (ownStr x) (fun r => ownStr r.2) (fun r => goodStr r.2) E := by
  induction n with
  | zero => exact fun len cap x hx => Tr.pure hx .rfl
  | succ n ih =>
    intro len cap x hx
    unfold sRangeLoop
    split
    · dsimp only
      rw [grow_bind]
      refine ((tr_sGrow x _ hx).never hn).bind fun p _ => (ih _ _ _ (by simp [goodStr])).pre (by simp [ownStr])
    · exact ih _ _ x hx

theorem tr_sRange (hf : Never φ) (hn : env.nullOk = true) (n : Nat) (hpos : n ≠ 0) (a : A) :
    Tr φ (sRange env n a) [] ownStr goodStr [] := by
  obtain ⟨n, rfl⟩ := Nat.exists_eq_succ_of_ne_zero hpos
  unfold sRange
  refine Tr.bind (ow := fun r => ownStr r.2) (post := fun r => goodStr r.2) ?_ ?_
  · unfold sRangeLoop
    rw [if_pos rfl]
    refine (tr_allocate a _ []).bind fun p _ => Tr.bind (ow := fun _ => [(p, a, (0 + 1) * 2 + 1)]) (post := fun _ => True) ?_ ?_
    · exact fun h L H => .inl ⟨(), h, by simp [deallocate, hn], trivial, H⟩
    · exact fun _ _ => (tr_sRangeLoop hf n _ _ _ (by simp [goodStr])).pre (by simp [ownStr])
  · rintro ⟨len, x⟩ hx
    obtain ⟨q, hq⟩ := Option.ne_none_iff_exists'.1 hx
    have hq : x.p = some q := hq
    simp only [hq]
    exact Tr.pure (by simp [goodStr]) (by simp [ownStr, hq])

/-! ### nodes -/

theorem tr_nDefault : Tr φ (nDefault env) [] ownNodes (fun x => goodNodes env x ∧ ownNodes x = []) E :=
  (tr_newAlloc []).bind fun _ ⟨i, hi⟩ => Tr.pure ⟨⟨i, hi⟩, rfl⟩ (by simp [ownNodes])

theorem tr_nDefault' : Tr φ (nDefault env) [] ownNodes (goodNodes env) E :=
  (tr_newAlloc []).bind fun _ ⟨i, hi⟩ => Tr.pure ⟨i, hi⟩ (by simp [ownNodes])

theorem tr_nInsert (x : Nodes A) (i : Nat) (hx : goodNodes env x) :
    Tr φ (nInsert x i) (ownNodes x) ownNodes (goodNodes env) (ownNodes x) := by
  refine (tr_allocate x.alloc 1 _).bind fun p _ => Tr.pure hx ?_
  show ((p, x.alloc, 1) :: x.nodes.map fun q => (q, x.alloc, 1)).Perm
    ((x.nodes.take i ++ p :: x.nodes.drop i).map fun q => (q, x.alloc, 1))
  rw [← List.map_cons (f := fun q => (q, x.alloc, 1))]
  refine List.Perm.map _ ?_
  refine List.Perm.trans ?_ List.perm_middle.symm
  rw [List.take_append_drop]

theorem tr_nFree (a : A) (F : List (Blk A)) (l : List Nat) :
    Tr φ (nFree env a l) (l.map (fun p => (p, a, 1)) ++ F) (fun _ => F) (fun _ => True) E := by
  induction l with
  | nil => exact Tr.pure trivial .rfl
  | cons q l ih => exact (tr_deallocate a q 1 _).bind fun _ _ => ih

theorem nFree_nothrow (a : A) (l : List Nat) : ∀ (h : Heap A) (e : Exc) (h' : Heap A), nFree env a l h ≠ .throw e h' := by
  induction l with
  | nil => intro h e h' k; cases k
  | cons q l ih =>
    intro h e h' k
    unfold nFree at k
    rw [M.bind_apply] at k
    cases hd : deallocate env a (some q) 1 h with
    | ok _ h1 => rw [hd] at k; exact ih _ _ _ k
    | throw e h1 => exact deallocate_nothrow _ _ _ _ _ _ hd
    | ub u => rw [hd] at k; cases k
    | timeout => rw [hd] at k; cases k

theorem tr_nInsertN (n : Nat) : ∀ x : Nodes A, goodNodes env x → Tr φ (nInsertN env x n) (ownNodes x) ownNodes (goodNodes env) [] := by
  induction n with
  | zero => exact fun x hx => Tr.pure hx .rfl
  | succ n ih =>
    intro x hx
    refine Tr.bind (Tr.onThrow (tr_nInsert x _ hx) (fun E'' => ?_) (nFree_nothrow _ _)) fun y hy => ih y hy
    exact (tr_nFree x.alloc [] x.nodes).pre (by simp [ownNodes])

theorem tr_fInsertN (hn : Never φ) (n : Nat) :
    ∀ x : Nodes A, goodNodes env x → Tr φ (fInsertN x n) (ownNodes x) ownNodes (goodNodes env) E := by
  induction n with
  | zero => exact fun x hx => Tr.pure hx .rfl
  | succ n ih => exact fun x hx => ((tr_nInsert x _ hx).never hn).bind fun y hy => ih y hy

theorem tr_nClear (x : Nodes A) (hx : goodNodes env x) : Tr φ (nClear env x) (ownNodes x) ownNodes (goodNodes env) E := by
  refine Tr.bind (ow := fun _ => []) (post := fun _ => True) ?_ fun _ _ => Tr.pure hx .rfl
  exact (tr_nFree x.alloc [] x.nodes).pre (by simp [ownNodes])

theorem tr_nErase (x : Nodes A) (i : Nat) (hx : goodNodes env x) :
    Tr φ (nErase env x i) (ownNodes x) ownNodes (goodNodes env) E := by
  refine Tr.bind (ow := fun _ => (x.nodes.take i ++ x.nodes.drop (i + 1)).map fun p => (p, x.alloc, 1)) (post := fun _ => True)
    ?_ fun _ _ => Tr.pure hx .rfl
  refine (tr_nFree x.alloc _ _).pre ?_
  rw [← List.map_append]
  refine List.Perm.map _ ?_
  have h : (x.nodes.drop i).take 1 ++ x.nodes.drop (i + 1) = x.nodes.drop i := by
    rw [← List.drop_drop, List.take_append_drop]
  calc x.nodes.Perm (x.nodes.take i ++ ((x.nodes.drop i).take 1 ++ x.nodes.drop (i + 1))) := by
        rw [h, List.take_append_drop]
    _ |>.Perm _ := by
        rw [← List.append_assoc, ← List.append_assoc]
        exact List.perm_append_comm.append_right _

theorem tr_nCopy (y : Nodes A) : Tr φ (nCopy env y) [] ownNodes (goodNodes env) [] :=
  tr_nDefault'.bind fun x hx => tr_nInsertN _ x hx

theorem tr_fCopy (hn : Never φ) (y : Nodes A) : Tr φ (fCopy env y) [] ownNodes (goodNodes env) E :=
  tr_nDefault'.bind fun x hx => tr_fInsertN hn _ x hx

theorem tr_fAssign (hn : Never φ) (x y : Nodes A) (hx : goodNodes env x) (hd : ∀ i j, env.dflt i = env.dflt j) :
    Tr φ (fAssign env x y) (ownNodes x) ownNodes (goodNodes env) E := by
  unfold fAssign
  refine Tr.bind (((tr_fCopy (E := []) hn y).frame (ownNodes x)).never hn) fun t ht => ?_
  obtain ⟨i, hi⟩ := hx
  obtain ⟨j, hj⟩ := ht
  have e : x.alloc = t.alloc := by rw [hi, hj, hd i j]
  simp only [fSwap]
  refine Tr.bind (ow := fun _ => ownNodes { x with nodes := t.nodes }) (post := fun _ => True) ?_
    fun _ _ => Tr.pure ⟨i, hi⟩ .rfl
  unfold nClear
  refine Tr.bind (ow := fun _ => ownNodes { x with nodes := t.nodes }) (post := fun _ => True) ?_
    fun _ _ => Tr.pure trivial .rfl
  refine (tr_nFree t.alloc _ x.nodes).pre ?_
  simp only [ownNodes, e]
  exact List.perm_append_comm

/-! ### deque -/

theorem tr_dDefault : Tr φ (dDefault env C) [] (ownDq C) (fun _ => True) [] :=
  (tr_newAlloc []).bind fun a _ => (tr_allocate a C []).bind fun p _ => Tr.pure trivial (by simp [ownDq])

theorem tr_dPushBack (x : Dq A) : Tr φ (dPushBack C x) (ownDq C x) (ownDq C) (fun _ => True) (ownDq C x) := by
  unfold dPushBack
  split
  · split
    · refine (tr_allocate x.alloc C _).bind fun p _ => Tr.pure trivial ?_
      simp only [ownDq, List.map_append, List.map_cons, List.map_nil]
      exact (List.perm_append_singleton _ _).symm
    · exact Tr.pure trivial .rfl
  · exact Tr.pure trivial .rfl

theorem tr_dPushFront (x : Dq A) : Tr φ (dPushFront C x) (ownDq C x) (ownDq C) (fun _ => True) (ownDq C x) := by
  unfold dPushFront
  split
  · split
    · exact (tr_allocate x.alloc C _).bind fun p _ => Tr.pure trivial .rfl
    · exact Tr.pure trivial .rfl
  · exact Tr.pure trivial .rfl

theorem tr_dFree (a : A) (l : List Nat) :
    Tr φ (dFree env C a l) (l.map (fun p => (p, a, C))) (fun _ => []) (fun _ => True) E := by
  induction l with
  | nil => exact Tr.pure trivial .rfl
  | cons q l ih => exact (tr_deallocate a q C _).bind fun _ _ => ih

theorem dFree_nothrow (a : A) (l : List Nat) : ∀ (h : Heap A) (e : Exc) (h' : Heap A), dFree env C a l h ≠ .throw e h' := by
  induction l with
  | nil => intro h e h' k; cases k
  | cons q l ih =>
    intro h e h' k
    unfold dFree at k
    rw [M.bind_apply] at k
    cases hd : deallocate env a (some q) C h with
    | ok _ h1 => rw [hd] at k; exact ih _ _ _ k
    | throw e h1 => exact deallocate_nothrow _ _ _ _ _ _ hd
    | ub u => rw [hd] at k; cases k
    | timeout => rw [hd] at k; cases k

theorem tr_dPushN (n : Nat) : ∀ x : Dq A, Tr φ (dPushN env C x n) (ownDq C x) (ownDq C) (fun _ => True) [] := by
  induction n with
  | zero => exact fun x => Tr.pure trivial .rfl
  | succ n ih =>
    intro x
    exact Tr.bind (Tr.onThrow (tr_dPushBack x) (fun E'' => tr_dFree x.alloc x.chunks) (dFree_nothrow _ _)) fun y _ => ih y

theorem tr_dCopy (y : Dq A) : Tr φ (dCopy env C y) [] (ownDq C) (fun _ => True) [] := tr_dDefault.bind fun x _ => tr_dPushN _ x
theorem tr_dInit (n : Nat) (a : A) : Tr φ (dInit env C n a) [] (ownDq C) (fun _ => True) [] :=
  tr_dDefault.bind fun x _ => tr_dPushN _ x

theorem ownDq_popBack (x : Dq A) : ownDq C (dPopBack C x) = ownDq C x := by
  unfold dPopBack; split; · rfl
  split <;> rfl
theorem ownDq_popFront (x : Dq A) : ownDq C (dPopFront C x) = ownDq C x := by
  unfold dPopFront; split; · rfl
  split <;> rfl

/-! ### variables -/

def own (C : Nat) : Obj A → List (Blk A)
  | .vec x => ownVec x
  | .str x => ownStr x
  | .nodes x => ownNodes x
  | .dq x => ownDq C x

def good (env : Env A) : Obj A → Prop
  | .vec x => goodVec x
  | .str x => goodStr x
  | .nodes x => goodNodes env x
  | .dq _ => True

/-- The blocks of all variables. -/
def owned (C : Nat) (l : List (Nat × Obj A)) : List (Blk A) := l.flatMap fun e => own C e.2

structure Inv (env : Env A) (C : Nat) (φ : Nat → Bool) (s : St A) : Prop where
  names : (s.objs.map Prod.fst).Nodup
  heap : HInv φ s.heap (owned C s.objs)
  good : ∀ e ∈ s.objs, good env e.2

theorem Inv.perm {s : St A} {l : List (Nat × Obj A)} (H : Inv env C φ s) (hp : s.objs.Perm l) :
    Inv env C φ { s with objs := l } :=
  ⟨(hp.map _).nodup_iff.1 H.names, H.heap.perm (hp.flatMap_right _), fun e he => H.good e (hp.mem_iff.2 he)⟩

/-- What a well-formed statement may do: it works, or the program is not well formed. -/
def Fine (env : Env A) (C : Nat) (φ : Nat → Bool) (f : PM A Unit) : Prop := ∀ s, Inv env C φ s →
  (∃ s', f s = .ok () s' ∧ Inv env C φ s') ∨ (¬ Never φ ∧ ∃ s', f s = .throw .badAlloc s' ∧ Inv env C φ s') ∨
    f s = .ub .noObject ∨ f s = .ub .objectExists ∨ f s = .ub .precond

/-- A computation that looks at the variables only. -/
def Reads (r : PM A γ) : Prop := ∀ s, (∃ y, r s = .ok y s) ∨ r s = .ub .noObject ∨ r s = .ub .precond

theorem lookup_perm {l : List (Nat × Obj A)} {o : Nat} {x : Obj A} (hn : (l.map Prod.fst).Nodup)
    (h : l.lookup o = some x) : l.Perm ((o, x) :: l.filter fun e => e.1 ≠ o) := by
  induction l with
  | nil => simp at h
  | cons e l ih =>
    obtain ⟨k, y⟩ := e
    rw [List.map_cons, List.nodup_cons] at hn
    by_cases hk : o = k
    · subst hk
      simp only [List.lookup_cons, beq_self_eq_true, Option.some.injEq] at h
      subst h
      have : (l.filter fun e => e.1 ≠ o) = l := by
        rw [List.filter_eq_self]
        intro e he
        simpa using fun h => hn.1 (List.mem_map.2 ⟨e, he, h⟩)
      simp only [ne_eq, not_true, decide_false, Bool.false_eq_true, not_false_eq_true, List.filter_cons_of_neg]
      simp only [ne_eq] at this
      rw [this]
    · rw [List.lookup_cons, beq_false_of_ne hk] at h
      have hk' : ¬ k = o := fun e => hk e.symm
      simp only [ne_eq, hk', not_false_eq_true, decide_true, List.filter_cons_of_pos]
      have := ih hn.2 h
      simp only [ne_eq] at this
      exact (this.cons _).trans (List.Perm.swap ..)

theorem not_mem_drop (s : St A) (o : Nat) : o ∉ (s.drop o).objs.map Prod.fst := by
  intro h
  obtain ⟨e, he, h⟩ := List.mem_map.1 h
  simp only [St.drop, List.mem_filter] at he
  simp [h] at he

/-- With the variable `o` taken out. -/
theorem Inv.take {s : St A} {o : Nat} {x : Obj A} (H : Inv env C φ s) (h : s.objs.lookup o = some x) :
    ((s.drop o).objs.map Prod.fst).Nodup ∧ HInv φ s.heap (own C x ++ owned C (s.drop o).objs) ∧
      (∀ e ∈ (s.drop o).objs, Alloc.good env e.2) ∧ Alloc.good env x := by
  have H' := H.perm (lookup_perm H.names h)
  refine ⟨?_, H'.heap, fun e he => H'.good e (List.mem_cons_of_mem _ he), H'.good _ List.mem_cons_self⟩
  have := H'.names
  rw [List.map_cons, List.nodup_cons] at this
  exact this.2

/-- With `o` put back. -/
theorem Inv.put {s : St A} {o : Nat} {x : Obj A} {h' : Heap A} (h1 : ((s.drop o).objs.map Prod.fst).Nodup)
    (h2 : HInv φ h' (own C x ++ owned C (s.drop o).objs)) (h3 : ∀ e ∈ (s.drop o).objs, Alloc.good env e.2)
    (h4 : Alloc.good env x) : Inv env C φ { heap := h', objs := (o, x) :: (s.drop o).objs } := by
  refine ⟨?_, h2, ?_⟩
  · rw [List.map_cons, List.nodup_cons]
    exact ⟨not_mem_drop s o, h1⟩
  · intro e he
    rcases List.mem_cons.1 he with rfl | he
    · exact h4
    · exact h3 e he

theorem lift_ok {f : HM A α} {s : St A} {a : α} {h : Heap A} (e : f s.heap = .ok a h) :
    lift f s = .ok a { s with heap := h } := by unfold lift; rw [e]

theorem lift_throw {f : HM A α} {s : St A} {e' : Exc} {h : Heap A} (e : f s.heap = .throw e' h) :
    lift f s = .throw e' { s with heap := h } := by unfold lift; rw [e]

theorem Fine.seq {f : PM A Unit} {g : PM A Unit} (hf : Fine env C φ f) (hg : Fine env C φ g) : Fine env C φ (f >>= fun _ => g) := by
  intro s H
  rw [M.bind_apply]
  rcases hf s H with ⟨s', e, H'⟩ | ⟨n, s', e, H'⟩ | e | e | e <;> rw [e]
  · exact hg s' H'
  · exact .inr (.inl ⟨n, s', rfl, H'⟩)
  · exact .inr (.inr (.inl rfl))
  · exact .inr (.inr (.inr (.inl rfl)))
  · exact .inr (.inr (.inr (.inr rfl)))

theorem Fine.read {r : PM A γ} {g : γ → PM A Unit} (hr : Reads r) (hg : ∀ y, Fine env C φ (g y)) : Fine env C φ (r >>= g) := by
  intro s H
  rw [M.bind_apply]
  rcases hr s with ⟨y, e⟩ | e | e <;> rw [e]
  · exact hg y s H
  · exact .inr (.inr (.inl rfl))
  · exact .inr (.inr (.inr (.inr rfl)))

/-- How the four `get`s find their variable. -/
def Finds (mk : β → Obj A) (o : Nat) (g : PM A β) : Prop :=
  ∀ s, (∃ x, s.objs.lookup o = some (mk x) ∧ g s = .ok x s) ∨ g s = .ub .noObject

theorem Finds.reads {mk : β → Obj A} {o : Nat} {g : PM A β} (h : Finds mk o g) : Reads g := fun s => by
  rcases h s with ⟨x, _, e⟩ | e
  · exact .inl ⟨x, e⟩
  · exact .inr (.inl e)

theorem finds_vec (o : Nat) : Finds (A := A) .vec o (getVec o) := by
  intro s
  unfold getVec
  rw [M.bind_apply]
  unfold get
  cases h : s.objs.lookup o with
  | none => exact .inr rfl
  | some x => cases x <;> simp
theorem finds_str (o : Nat) : Finds (A := A) .str o (getStr o) := by
  intro s
  unfold getStr
  rw [M.bind_apply]
  unfold get
  cases h : s.objs.lookup o with
  | none => exact .inr rfl
  | some x => cases x <;> simp
theorem finds_nodes (o : Nat) : Finds (A := A) .nodes o (getNodes o) := by
  intro s
  unfold getNodes
  rw [M.bind_apply]
  unfold get
  cases h : s.objs.lookup o with
  | none => exact .inr rfl
  | some x => cases x <;> simp
theorem finds_dq (o : Nat) : Finds (A := A) .dq o (getDq o) := by
  intro s
  unfold getDq
  rw [M.bind_apply]
  unfold get
  cases h : s.objs.lookup o with
  | none => exact .inr rfl
  | some x => cases x <;> simp

theorem reads_need (b : Prop) [Decidable b] : Reads (A := A) (need b) := by
  intro s
  unfold need
  split
  · exact .inl ⟨(), rfl⟩
  · exact .inr (.inr rfl)

/-- Changing one variable. -/
theorem Fine.upd {mk : β → Obj A} {o : Nat} {g : PM A β} {r : β → PM A γ} {f : β → γ → HM A β} (hg : Finds mk o g)
    (hr : ∀ x, Reads (r x))
    (hf : ∀ x y, good env (mk x) →
      Tr φ (f x y) (own C (mk x)) (fun x => own C (mk x)) (fun x => good env (mk x)) (own C (mk x))) :
    Fine env C φ (g >>= fun x => r x >>= fun y => lift (f x y) >>= fun x' => put o (mk x')) := by
  intro s H
  rw [M.bind_apply]
  rcases hg s with ⟨x, hx, e⟩ | e <;> rw [e]
  · dsimp only
    rw [M.bind_apply]
    rcases hr x s with ⟨y, e⟩ | e | e <;> rw [e]
    · dsimp only
      obtain ⟨h1, h2, h3, h4⟩ := H.take hx
      rcases hf x y h4 _ _ h2 with ⟨x', h', e', hx', H'⟩ | ⟨n, h', e', H'⟩
      · rw [M.bind_apply, lift_ok e']
        exact .inl ⟨_, rfl, Inv.put (s := s) h1 H' h3 hx'⟩
      · rw [M.bind_apply, lift_throw e']
        refine .inr (.inl ⟨n, _, rfl, ?_⟩)
        have := (Inv.put (s := s) h1 H' h3 h4)
        exact this.perm (lookup_perm H.names hx).symm
    · exact .inr (.inr (.inl rfl))
    · exact .inr (.inr (.inr (.inr rfl)))
  · exact .inr (.inr (.inl rfl))

theorem Fine.upd1 {mk : β → Obj A} {o : Nat} {g : PM A β} {f : β → HM A β} (hg : Finds mk o g)
    (hf : ∀ x, good env (mk x) →
      Tr φ (f x) (own C (mk x)) (fun x => own C (mk x)) (fun x => good env (mk x)) (own C (mk x))) :
    Fine env C φ (g >>= fun x => lift (f x) >>= fun x' => put o (mk x')) :=
  Fine.upd (r := fun _ => pure ()) (f := fun x _ => f x) hg (fun _ _ => .inl ⟨(), rfl⟩) fun x _ => hf x

theorem Fine.updr {mk : β → Obj A} {o : Nat} {g : PM A β} {r : β → PM A γ} {f : β → γ → β} (hg : Finds mk o g)
    (hr : ∀ x, Reads (r x))
    (hf : ∀ x y, good env (mk x) → good env (mk (f x y)) ∧ (own C (mk x)).Perm (own C (mk (f x y)))) :
    Fine env C φ (g >>= fun x => r x >>= fun y => put o (mk (f x y))) :=
  Fine.upd (f := fun x y => pure (f x y)) hg hr fun x y hx => Tr.pure (hf x y hx).1 (hf x y hx).2

theorem Fine.updp {mk : β → Obj A} {o : Nat} {g : PM A β} {f : β → β} (hg : Finds mk o g)
    (hf : ∀ x, good env (mk x) → good env (mk (f x)) ∧ (own C (mk x)).Perm (own C (mk (f x)))) :
    Fine env C φ (g >>= fun x => put o (mk (f x))) :=
  Fine.updr (r := fun _ => pure ()) (f := fun x _ => f x) hg (fun _ _ => .inl ⟨(), rfl⟩) fun x _ => hf x

/-- A new variable. -/
theorem Fine.create {mk : β → Obj A} {o : Nat} {r : PM A γ} {f : γ → HM A β} (hr : Reads r)
    (hf : ∀ y, Tr φ (f y) [] (fun x => own C (mk x)) (fun x => good env (mk x)) []) :
    Fine env C φ (create o (r >>= fun y => lift (f y) >>= fun x => pure (mk x))) := by
  intro s H
  unfold Alloc.create
  cases hl : s.objs.lookup o with
  | some _ => exact .inr (.inr (.inr (.inl rfl)))
  | none =>
    dsimp only
    rw [M.bind_apply, M.bind_apply]
    rcases hr s with ⟨y, e⟩ | e | e <;> rw [e]
    · dsimp only
      have hd : s.drop o = s := by
        have : (s.objs.filter fun e => e.1 ≠ o) = s.objs := by
          rw [List.filter_eq_self]
          intro e he
          rw [List.lookup_eq_none_iff] at hl
          have := hl e he
          simpa using fun h : e.1 = o => absurd this (by simp [h])
        unfold St.drop
        rw [this]
      rcases hf y s.heap (owned C s.objs) H.heap with ⟨x, h', e', hx, H'⟩ | ⟨n, h', e', H'⟩
      · rw [M.bind_apply, lift_ok e']
        exact .inl ⟨_, rfl, Inv.put (s := s) (by rw [hd]; exact H.names) (by rw [hd]; exact H') (by rw [hd]; exact H.good) hx⟩
      · rw [M.bind_apply, lift_throw e']
        exact .inr (.inl ⟨n, _, rfl, H.names, H', H.good⟩)
    · exact .inr (.inr (.inl rfl))
    · exact .inr (.inr (.inr (.inr rfl)))

theorem Fine.create0 {mk : β → Obj A} {o : Nat} {f : HM A β}
    (hf : Tr φ f [] (fun x => own C (mk x)) (fun x => good env (mk x)) []) :
    Fine env C φ (Alloc.create o (lift f >>= fun x => pure (mk x))) :=
  Fine.create (r := pure ()) (f := fun _ => f) (fun _ => .inl ⟨(), rfl⟩) fun _ => hf

/-- Changing two variables without touching the heap. -/
theorem Fine.two {mk : β → Obj A} {o src : Nat} {g g' : PM A β} {F : β → β → β × β} (hg : Finds mk o g)
    (hg' : Finds mk src g') (hinj : ∀ x y, mk x = mk y → x = y) (hs : ∀ x, (F x x).2 = x)
    (hF : ∀ x y, good env (mk x) → good env (mk y) → good env (mk (F x y).1) ∧ good env (mk (F x y).2) ∧
      (own C (mk x) ++ own C (mk y)).Perm (own C (mk (F x y).2) ++ own C (mk (F x y).1))) :
    Fine env C φ (g >>= fun x => g' >>= fun y => put o (mk (F x y).1) >>= fun _ => put src (mk (F x y).2)) := by
  intro s H
  rw [M.bind_apply]
  rcases hg s with ⟨x, hx, e⟩ | e <;> rw [e]
  swap
  · exact .inr (.inr (.inl rfl))
  dsimp only
  rw [M.bind_apply]
  rcases hg' s with ⟨y, hy, e⟩ | e <;> rw [e]
  swap
  · exact .inr (.inr (.inl rfl))
  refine .inl ⟨_, rfl, ?_⟩
  obtain ⟨h1, h2, h3, h4⟩ := H.take hx
  by_cases ho : o = src
  · subst ho
    rw [hx] at hy
    have hxy := hinj _ _ (Option.some.inj hy)
    subst hxy
    rw [hs]
    have hd : (St.drop { heap := s.heap, objs := (o, mk (F x x).1) :: (s.drop o).objs } o) = s.drop o := by
      simp [St.drop]
    rw [show (St.drop { s.drop o with objs := (o, mk (F x x).1) :: (s.drop o).objs } o) = s.drop o from hd]
    exact Inv.put (s := s) h1 h2 h3 h4
  · have hp : s.objs.Perm ((src, mk y) :: (s.drop src).objs) := lookup_perm H.names hy
    have hp' := lookup_perm H.names hx
    have hl : (s.drop o).objs.lookup src = some (mk y) := by
      have hnd := ((hp'.map Prod.fst).nodup_iff.1 H.names)
      have hm : (src, mk y) ∈ (s.drop o).objs := by
        have : (src, mk y) ∈ (o, mk x) :: (s.drop o).objs := hp'.mem_iff.1 (hp.mem_iff.2 List.mem_cons_self)
        rcases List.mem_cons.1 this with h | h
        · exact absurd (congrArg Prod.fst h).symm ho
        · exact h
      clear hp hp' hnd
      generalize (s.drop o).objs = l at *
      clear h2 h3
      induction l with
      | nil => cases hm
      | cons e l ih =>
        obtain ⟨k, z⟩ := e
        rw [List.map_cons, List.nodup_cons] at h1
        rcases List.mem_cons.1 hm with h | h
        · injection h with ha hb
          subst ha hb
          simp
        · have : ¬ src = k := fun e => h1.1 (List.mem_map.2 ⟨_, h, e⟩)
          rw [List.lookup_cons, beq_false_of_ne this]
          exact ih h1.2 h
    have H1 : Inv env C φ { heap := s.heap, objs := (o, mk x) :: (s.drop o).objs } := H.perm hp'
    have hq : (s.drop o).objs.Perm ((src, mk y) :: ((s.drop o).drop src).objs) := lookup_perm h1 hl
    have H2 := H1.perm (hq.cons _)
    obtain ⟨k1, k2, k3⟩ := hF x y (H2.good (o, mk x) (by simp)) (H2.good (src, mk y) (by simp))
    have hd : ({ s.drop o with objs := (o, mk (F x y).1) :: (s.drop o).objs } : St A).drop src =
        { (s.drop o).drop src with objs := (o, mk (F x y).1) :: ((s.drop o).drop src).objs } := by
      simp [St.drop, ho]
    rw [hd]
    refine ⟨?_, ?_, ?_⟩
    · have := H2.names
      simp only [List.map_cons] at this ⊢
      exact (List.Perm.swap _ _ _).nodup_iff.1 this
    · refine H2.heap.perm ?_
      simp only [owned, List.flatMap_cons]
      rw [← List.append_assoc, ← List.append_assoc]
      exact k3.append_right _
    · intro e he
      simp only [List.mem_cons] at he
      rcases he with rfl | rfl | he
      · exact k2
      · exact k1
      · exact H2.good e (by simp [he])

theorem tr_destroyObj (x : Obj A) (hx : good env x) : Tr φ (destroyObj env C x) (own C x) (fun _ => []) (fun _ => True) E := by
  cases x with
  | vec x => exact tr_vDestroy x hx
  | str x => exact tr_sDestroy x hx
  | nodes x =>
    refine Tr.bind (ow := fun _ => []) (post := fun _ => True) ?_ fun _ _ => Tr.pure trivial .rfl
    refine Tr.bind (ow := fun _ => []) (post := fun _ => True) ?_ fun _ _ => Tr.pure trivial .rfl
    exact (tr_nFree x.alloc [] x.nodes).pre (by simp [own, ownNodes])
  | dq x => exact tr_dFree x.alloc x.chunks

theorem fine_destroy (o : Nat) : Fine env C φ (get o >>= fun x => lift (destroyObj env C x) >>= fun _ => remove o) := by
  intro s H
  rw [M.bind_apply]
  unfold get
  cases hl : s.objs.lookup o with
  | none => exact .inr (.inr (.inl rfl))
  | some x =>
    dsimp only
    obtain ⟨h1, h2, h3, h4⟩ := H.take hl
    rcases tr_destroyObj (φ := φ) (C := C) (E := own C x) x h4 _ _ h2 with ⟨_, h', e', _, H'⟩ | ⟨n, h', e', H'⟩
    · rw [M.bind_apply, lift_ok e']
      exact .inl ⟨_, rfl, ⟨h1, H', h3⟩⟩
    · rw [M.bind_apply, lift_throw e']
      refine .inr (.inl ⟨n, _, rfl, ?_⟩)
      have := (Inv.put (s := s) h1 H' h3 h4)
      exact this.perm (lookup_perm H.names hl).symm

theorem fine_nPushLoop (o n : Nat) : Fine env C φ (nPushLoop o n) := by
  induction n with
  | zero => exact fun s H => .inl ⟨s, rfl, H⟩
  | succ n ih =>
    have h1 : Fine env C φ (getNodes o >>= fun x => lift (nInsert x x.nodes.length) >>= fun x' => put o (.nodes x')) :=
      Fine.upd1 (finds_nodes o) fun x hx => tr_nInsert x _ hx
    have h2 := h1.seq ih
    intro s H
    have := h2 s H
    unfold nPushLoop
    simp only [M.bind_apply] at this ⊢
    revert this
    cases getNodes o s with
    | ok x s1 => simp only; cases lift (nInsert x x.nodes.length) s1 <;> exact id
    | _ => exact id

theorem fine_dPushLoop (o n : Nat) : Fine env C φ (dPushLoop C o n) := by
  induction n with
  | zero => exact fun s H => .inl ⟨s, rfl, H⟩
  | succ n ih =>
    have h1 : Fine env C φ (getDq o >>= fun x => lift (dPushBack C x) >>= fun x' => put o (.dq x')) :=
      Fine.upd1 (finds_dq o) fun x _ => tr_dPushBack x
    have h2 := h1.seq ih
    intro s H
    have := h2 s H
    unfold dPushLoop
    simp only [M.bind_apply] at this ⊢
    revert this
    cases getDq o s with
    | ok x s1 => simp only; cases lift (dPushBack C x) s1 <;> exact id
    | _ => exact id

theorem fine_sAssign (hn : Never φ) (o n : Nat) : Fine env C φ (getStr o >>= fun x =>
    M.onThrow (lift (sAssign env x n)) (put o (.str { x with cap := n + 1 })) >>= fun x' => put o (.str x')) := by
  have h : Fine env C φ (getStr o >>= fun x => lift (sAssign env x n) >>= fun x' => put o (.str x')) :=
    Fine.upd1 (finds_str o) fun x hx => tr_sAssign hn x n hx
  intro s H
  have := h s H
  simp only [M.bind_apply] at this ⊢
  cases hg : getStr o s with
  | ok x s1 =>
    rw [hg] at this
    dsimp only at this ⊢
    cases hl : lift (sAssign env x n) s1 with
    | throw e s2 =>
      rw [hl] at this
      rcases this with ⟨_, e, _⟩ | ⟨k, _⟩ | e | e | e
      · cases e
      · exact absurd hn k
      all_goals cases e
    | ok y s2 => rw [hl] at this; simpa only [M.onThrow, hl] using this
    | ub u => rw [hl] at this; simpa only [M.onThrow, hl] using this
    | timeout => rw [hl] at this; simpa only [M.onThrow, hl] using this
  | throw e s1 => rw [hg] at this; exact this
  | ub u => rw [hg] at this; exact this
  | timeout => rw [hg] at this; exact this

/-- A statement whose exception is caught. -/
theorem Fine.catch {f : PM A Unit} (hf : Fine env C φ f) : ∀ s, Inv env C φ s →
    (∃ s', M.tryCatch f (fun _ => pure ()) s = .ok () s' ∧ Inv env C φ s') ∨
      M.tryCatch f (fun _ => pure ()) s = .ub .noObject ∨ M.tryCatch f (fun _ => pure ()) s = .ub .objectExists ∨
      M.tryCatch f (fun _ => pure ()) s = .ub .precond := by
  intro s H
  rw [M.tryCatch_apply]
  rcases hf s H with ⟨s', e, H'⟩ | ⟨_, s', e, H'⟩ | e | e | e <;> rw [e]
  · exact .inl ⟨s', rfl, H'⟩
  · exact .inl ⟨s', rfl, H'⟩
  · exact .inr (.inl rfl)
  · exact .inr (.inr (.inl rfl))
  · exact .inr (.inr (.inr rfl))

end Cest.Alloc
