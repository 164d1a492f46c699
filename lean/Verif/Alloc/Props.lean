import Verif.Alloc.Proofs
import Mathlib.Data.List.Nodup
import Mathlib.Data.List.Pairwise

/-!
C159: storage goes back to an allocator equal to the one it came from, once, with the number of elements it was requested with.
C160: the containers use the allocator they are given.
C161: C159 when requests for storage fail and the program catches the exception.
-/
namespace Cest.Alloc
open Cest
set_option linter.unusedSectionVars false

variable {A : Type} [DecidableEq A] {env : Env A} {C : Nat} {φ : Nat → Bool}

/-! ### C159 -/

/-- What a program must avoid: assigning and exchanging `forward_list`s when default-constructed allocators differ, the
string constructor from input iterators when a null pointer must not be deallocated, and that constructor with an empty range. -/
def Allowed (env : Env A) : Op A → Prop
  | .fAssign _ _ => ∀ i j, env.dflt i = env.dflt j
  | .fSwap _ _ => ∀ i j, env.dflt i = env.dflt j
  | .sRange _ n _ => env.nullOk = true ∧ n ≠ 0
  | _ => True

/-- What a program must avoid as well when requests for storage may fail. -/
def Robust : Op A → Prop
  | .vInit _ _ _ => False
  | .sDefault _ => False
  | .sAlloc _ _ => False
  | .sAssign _ _ => False
  | .sRange _ _ _ => False
  | .fCopy _ _ => False
  | .fAssign _ _ => False
  | _ => True

/-- Every statement but those keeps the books. -/
theorem fine_step (op : Op A) (h : Allowed env op) (hr : Never φ ∨ Robust op) : Fine env C φ (step env C op) := by
  cases op with
  | vDefault o => exact Fine.create0 tr_vDefault'
  | vCopy o src => exact Fine.create (finds_vec src).reads tr_vCopy
  | vMove o src =>
    refine Fine.seq (Fine.create0 tr_vDefault') ?_
    exact Fine.two (F := fun x y => (y, x)) (finds_vec o) (finds_vec src) (fun _ _ h => Obj.vec.inj h) (fun _ => rfl)
      fun x y hx hy => ⟨hy, hx, .rfl⟩
  | vCount o n a => exact Fine.create0 (tr_vCount n a)
  | vInit o n a => exact Fine.create0 (tr_vInit (hr.resolve_right id) n a)
  | vPush o => exact Fine.upd1 (finds_vec o) tr_vPush
  | vPop o =>
    refine Fine.updr (A := A) (env := env) (C := C) (φ := φ) (f := fun x _ => { x with size := x.size - 1 }) (finds_vec o) (fun x => reads_need (A := A) (x.size ≠ 0)) ?_
    exact fun x _ hx => ⟨hx, .rfl⟩
  | vReserve o n => exact Fine.upd1 (finds_vec o) fun x hx => tr_vReserve x n hx
  | vResize o n => exact Fine.upd1 (finds_vec o) fun x hx => tr_vResize x n hx
  | vClear o => exact Fine.updp (A := A) (env := env) (C := C) (φ := φ) (f := fun x => { x with size := 0 }) (finds_vec o) fun x hx => ⟨hx, .rfl⟩
  | vErase o n =>
    refine Fine.updr (A := A) (env := env) (C := C) (φ := φ) (f := fun x _ => { x with size := x.size - n }) (finds_vec o) (fun x => reads_need (A := A) (n ≤ x.size)) ?_
    exact fun x _ hx => ⟨hx, .rfl⟩
  | vAssign o src => exact Fine.upd (finds_vec o) (fun _ => (finds_vec src).reads) fun x y hx => tr_vAssign x y hx
  | vSwap o src =>
    exact Fine.two (F := fun x y => (y, x)) (finds_vec o) (finds_vec src) (fun _ _ h => Obj.vec.inj h) (fun _ => rfl)
      fun x y hx hy => ⟨hy, hx, .rfl⟩
  | sDefault o => exact Fine.create0 (tr_sDefault (hr.resolve_right id))
  | sAlloc o a => exact Fine.create0 (tr_sAlloc (hr.resolve_right id) a)
  | sPtr o n a => exact Fine.create0 (tr_sPtr n a)
  | sCopy o n => exact Fine.create0 (tr_sCopy n)
  | sRange o n a => exact Fine.create0 (tr_sRange (hr.resolve_right id) h.1 n h.2 a)
  | sPush o => exact Fine.upd1 (finds_str o) tr_sPush
  | sAppend o n => exact Fine.upd1 (finds_str o) fun x hx => tr_sAppend x n hx
  | sAssign o n => exact fine_sAssign (hr.resolve_right id) o n
  | sReserve o n => exact Fine.upd1 (finds_str o) fun x hx => tr_sReserve x n hx
  | sClear o => exact Fine.updp (A := A) (env := env) (C := C) (φ := φ) (f := fun x => { x with size := 0 }) (finds_str o) fun x hx => ⟨hx, .rfl⟩
  | sPop o =>
    refine Fine.updr (A := A) (env := env) (C := C) (φ := φ) (f := fun x _ => { x with size := x.size - 1 }) (finds_str o) (fun x => reads_need (A := A) (x.size ≠ 0)) ?_
    exact fun x _ hx => ⟨hx, .rfl⟩
  | nDefault o => exact Fine.create0 tr_nDefault'
  | nCopy o src => exact Fine.create (finds_nodes src).reads tr_nCopy
  | fCopy o src => exact Fine.create (finds_nodes src).reads (tr_fCopy (hr.resolve_right id))
  | nInsert o i => exact Fine.upd1 (finds_nodes o) fun x hx => tr_nInsert x i hx
  | nErase o i =>
    refine Fine.upd (f := fun x _ => nErase env x i) (finds_nodes o) (fun x => reads_need (A := A) (i < x.nodes.length)) ?_
    exact fun x _ hx => tr_nErase x i hx
  | nClear o => exact Fine.upd1 (finds_nodes o) (fun x hx => tr_nClear x hx)
  | nAssign o src =>
    have h1 : Fine env C φ (getNodes o >>= fun x => lift (nClear env x) >>= fun x' => put o (.nodes x')) :=
      Fine.upd1 (finds_nodes o) (fun x hx => tr_nClear x hx)
    have h2 : Fine env C φ (getNodes src >>= fun y => nPushLoop o y.nodes.length) :=
      Fine.read (finds_nodes src).reads fun y => fine_nPushLoop o _
    have h3 := h1.seq h2
    simp only [step]
    intro s H
    have := h3 s H
    simp only [M.bind_apply] at this ⊢
    revert this
    cases getNodes o s with
    | ok x s1 => simp only; cases lift (nClear env x) s1 <;> exact id
    | _ => exact id
  | fAssign o src => exact Fine.upd (finds_nodes o) (fun _ => (finds_nodes src).reads) fun x y hx => tr_fAssign (hr.resolve_right id) x y hx h
  | fSwap o src =>
    refine Fine.two (F := fSwap) (finds_nodes o) (finds_nodes src) (fun _ _ h => Obj.nodes.inj h) (fun _ => rfl) ?_
    rintro x y ⟨i, hi⟩ ⟨j, hj⟩
    refine ⟨⟨i, hi⟩, ⟨j, hj⟩, ?_⟩
    simp only [own, ownNodes, fSwap, hi, hj, h i j]
    exact .rfl
  | dDefault o => exact Fine.create0 tr_dDefault
  | dCopy o src => exact Fine.create (finds_dq src).reads tr_dCopy
  | dInit o n a => exact Fine.create0 (tr_dInit n a)
  | dPushBack o => exact Fine.upd1 (finds_dq o) fun x _ => tr_dPushBack x
  | dPushFront o => exact Fine.upd1 (finds_dq o) fun x _ => tr_dPushFront x
  | dPopBack o => exact Fine.updp (A := A) (env := env) (C := C) (φ := φ) (f := dPopBack C) (finds_dq o) fun x _ => ⟨trivial, by simp only [own, ownDq_popBack]; exact .rfl⟩
  | dPopFront o => exact Fine.updp (A := A) (env := env) (C := C) (φ := φ) (f := dPopFront C) (finds_dq o) fun x _ => ⟨trivial, by simp only [own, ownDq_popFront]; exact .rfl⟩
  | dClear o => exact Fine.updp (A := A) (env := env) (C := C) (φ := φ) (f := dClear C) (finds_dq o) fun x _ => ⟨trivial, .rfl⟩
  | dAssign o src =>
    have h1 : Fine env C φ (getDq o >>= fun x => put o (.dq (dClear C x))) :=
      Fine.updp (A := A) (env := env) (C := C) (φ := φ) (f := dClear C) (finds_dq o) fun x _ => ⟨trivial, .rfl⟩
    have h2 : Fine env C φ (getDq src >>= fun y => dPushLoop C o y.size) :=
      Fine.read (finds_dq src).reads fun y => fine_dPushLoop o _
    have h3 := h1.seq h2
    simp only [step]
    intro s H
    have := h3 s H
    simp only [M.bind_apply] at this ⊢
    revert this
    cases getDq o s <;> exact id
  | destroy o => exact fine_destroy o

theorem fine_run (prog : List (Op A)) (h : ∀ op ∈ prog, Allowed env op) (hr : Never φ ∨ ∀ op ∈ prog, Robust op) :
    ∀ s, Inv env C φ s → (∃ s', run env C prog s = .ok () s' ∧ Inv env C φ s') ∨ run env C prog s = .ub .noObject ∨
      run env C prog s = .ub .objectExists ∨ run env C prog s = .ub .precond := by
  induction prog with
  | nil => exact fun s H => .inl ⟨s, rfl, H⟩
  | cons op l ih =>
    intro s H
    have ih' := ih (fun op' h' => h op' (List.mem_cons_of_mem _ h'))
      (hr.imp_right fun k op' h' => k op' (List.mem_cons_of_mem _ h'))
    have h1 := (fine_step (C := C) op (h op List.mem_cons_self) (hr.imp_right fun k => k op List.mem_cons_self)).catch s H
    simp only [run, M.bind_apply]
    rcases h1 with ⟨s', e, H'⟩ | e | e | e <;> rw [e]
    · exact ih' s' H'
    · exact .inr (.inl rfl)
    · exact .inr (.inr (.inl rfl))
    · exact .inr (.inr (.inr rfl))

theorem inv_start : Inv env C φ (St.start φ) :=
  ⟨by simp [St.start], ⟨by simp [St.start, owned], by simp [St.start, owned], by simp [St.start], rfl⟩, by simp [St.start]⟩

theorem never_false : Never fun _ => false := fun _ => rfl

/-- What C159 and C161 say about the end of a program. -/
def Tidy (r : Res (St A) Unit) : Prop :=
  (∃ s, r = .ok () s ∧ (s.objs = [] → ∀ p, s.heap.blk p = none)) ∨ r = .ub .noObject ∨ r = .ub .objectExists ∨ r = .ub .precond

theorem tidy (prog : List (Op A)) (h : ∀ op ∈ prog, Allowed env op) (hr : Never φ ∨ ∀ op ∈ prog, Robust op) :
    Tidy (run env C prog (St.start φ)) := by
  rcases fine_run (C := C) prog h hr _ inv_start with ⟨s, e, H⟩ | e
  · refine .inl ⟨s, e, fun h0 p => ?_⟩
    cases hb : s.heap.blk p with
    | none => rfl
    | some r =>
      have := (H.heap.live p r.1 r.2).1 hb
      rw [h0] at this
      simp [owned] at this
  · exact .inr e

/-- C159: any number of variables of the seven classes, any allocators, any program that avoids the statements above: no
`deallocate` is handed a pointer that an equal allocator did not return for that number of elements, or that was already
deallocated; and when every variable is gone, so is every block.  Otherwise the program named a variable that does not exist, or
created one twice, or broke a precondition. -/
theorem C159_partial (prog : List (Op A)) (h : ∀ op ∈ prog, Allowed env op) : Tidy (run env C prog St.init) :=
  tidy prog h (.inl never_false)

/-- C161: the same when any requests for storage fail (`φ`) and the program catches every `std::bad_alloc` and goes on, for programs that
also avoid the statements that are not `Robust`. -/
theorem C161_partial (prog : List (Op A)) (h : ∀ op ∈ prog, Allowed env op) (hr : ∀ op ∈ prog, Robust op) :
    Tidy (run env C prog (St.start φ)) := tidy prog h (.inr hr)

/-- The variable holds block `p` of `n` elements and will return it to `a`. -/
def Holds (C : Nat) : Obj A → Blk A → Prop
  | .vec x, (p, a, n) => x.p = some p ∧ a = x.alloc ∧ n = x.cap
  | .str x, (p, a, n) => x.p = some p ∧ a = x.alloc ∧ n = x.cap + 1
  | .nodes x, (p, a, n) => p ∈ x.nodes ∧ a = x.alloc ∧ n = 1
  | .dq x, (p, a, n) => p ∈ x.chunks ∧ a = x.alloc ∧ n = C

theorem holds_iff (x : Obj A) (b : Blk A) : Holds C x b ↔ b ∈ own C x := by
  obtain ⟨p, a, n⟩ := b
  cases x with
  | vec x => cases hp : x.p <;> simp [Holds, own, ownVec, hp, eq_comm]
  | str x => cases hp : x.p <;> simp [Holds, own, ownStr, hp, eq_comm]
  | nodes x =>
    simp only [Holds, own, ownNodes, List.mem_map, Prod.mk.injEq]
    exact ⟨fun ⟨h1, h2, h3⟩ => ⟨p, h1, rfl, h2.symm, h3.symm⟩, fun ⟨q, h1, h2, h3, h4⟩ => ⟨h2 ▸ h1, h3.symm, h4.symm⟩⟩
  | dq x =>
    simp only [Holds, own, ownDq, List.mem_map, Prod.mk.injEq]
    exact ⟨fun ⟨h1, h2, h3⟩ => ⟨p, h1, rfl, h2.symm, h3.symm⟩, fun ⟨q, h1, h2, h3, h4⟩ => ⟨h2 ▸ h1, h3.symm, h4.symm⟩⟩

/-- C159, the invariant behind it: at the end of every such program (hence at every moment) the live blocks are exactly those the variables
hold, with the allocator and the size they were requested with, and no block is held by two variables. -/
theorem C159_owner (prog : List (Op A)) (h : ∀ op ∈ prog, Allowed env op) {s : St A}
    (hr : Never φ ∨ ∀ op ∈ prog, Robust op) (e : run env C prog (St.start φ) = .ok () s) :
    (∀ p a n, s.heap.blk p = some (a, n) ↔ ∃ x ∈ s.objs, Holds C x.2 (p, a, n)) ∧
    ∀ x ∈ s.objs, ∀ y ∈ s.objs, ∀ p b c, Holds C x.2 (p, b) → Holds C y.2 (p, c) → x = y := by
  have H : Inv env C φ s := by
    rcases fine_run (C := C) prog h hr _ inv_start with ⟨s', e', H⟩ | e' | e' | e' <;> rw [e] at e'
    · injection e' with _ e'
      rw [e']
      exact H
    all_goals cases e'
  refine ⟨fun p a n => ?_, fun x hx y hy p b c h1 h2 => ?_⟩
  · rw [H.heap.live]
    simp only [owned, List.mem_flatMap, holds_iff]
  · rw [holds_iff] at h1 h2
    have hn := H.heap.nodup
    unfold owned at hn
    rw [List.map_flatMap, List.nodup_flatMap] at hn
    by_contra hxy
    have hd : List.Disjoint ((own C x.2).map Prod.fst) ((own C y.2).map Prod.fst) :=
      haveI : Std.Symm (Function.onFun List.Disjoint fun a : Nat × Obj A => (own C a.2).map Prod.fst) := ⟨fun _ _ h _ h1 h2 => h h2 h1⟩
      hn.2.forall hx hy hxy
    exact hd (List.mem_map.2 ⟨_, h1, rfl⟩) (List.mem_map.2 ⟨_, h2, rfl⟩)

/-- Programs that do nothing but use up `i` default-constructed allocators. -/
def burn : Nat → List (Op A)
  | 0 => []
  | n + 1 => .vDefault 0 :: .destroy 0 :: burn n

theorem run_append (p q : List (Op A)) (s : St A) : run env C (p ++ q) s = (run env C p >>= fun _ => run env C q) s := by
  induction p generalizing s with
  | nil => rfl
  | cons op p ih =>
    rw [List.cons_append]
    simp only [run, M.bind_apply]
    cases M.tryCatch (step env C op) (fun _ => pure ()) s with
    | ok _ s1 => simpa only [M.bind_apply] using ih s1
    | _ => rfl

theorem run_burn (n : Nat) (m : Nat) : run env C (burn n)
    ({ heap := { blk := fun _ => none, next := 0, made := m, reqs := 0, fail := φ }, objs := [] } : St A) =
      .ok () { heap := { blk := fun _ => none, next := 0, made := m + n, reqs := 0, fail := φ }, objs := [] } := by
  induction n generalizing m with
  | zero => rfl
  | succ n ih =>
    rw [show m + (n + 1) = (m + 1) + n by omega, ← ih (m + 1)]
    rfl

/-- C159 fails for `forward_list`, whatever the allocator type, as soon as two default-constructed allocators differ: there is a list `l` for
which `l = l` (after one insertion) deallocates a node with an allocator that did not provide it.  `swap` leaves the allocators
where they are, and the temporary has another one (forward_list.hpp:112-123). -/
theorem C159_forward_list_refuted (hd : ∃ i j, env.dflt i ≠ env.dflt j) :
    ∃ n, run env C (burn n ++ [.nDefault 0, .nInsert 0 0, .fAssign 0 0]) St.init = .ub .badFree := by
  have hs : ∃ n, env.dflt n ≠ env.dflt (n + 1) := by
    by_contra hc
    have hc : ∀ n, env.dflt n = env.dflt (n + 1) := fun n => not_not.1 fun h => hc ⟨n, h⟩
    have h0 : ∀ n, env.dflt n = env.dflt 0 := fun n => by
      induction n with
      | zero => rfl
      | succ n ih => rw [← hc n, ih]
    obtain ⟨i, j, h⟩ := hd
    exact h ((h0 i).trans (h0 j).symm)
  obtain ⟨n, hn⟩ := hs
  refine ⟨n, ?_⟩
  rw [run_append, M.bind_apply, St.init, St.start, run_burn]
  simp [run, step, create, get, getNodes, put, lift, nDefault, newAlloc, nInsert, allocate, St.drop, fAssign, fCopy, fInsertN,
    fSwap, M.tryCatch_apply, nClear, nFree, deallocate, hn]

/-- And the same with two lists that are only exchanged: each later frees the nodes of the other. -/
theorem C159_swap_refuted (hd : ∃ i j, env.dflt i ≠ env.dflt j) :
    ∃ n, run env C (burn n ++ [.nDefault 0, .nDefault 1, .nInsert 0 0, .fSwap 0 1, .destroy 1]) St.init = .ub .badFree := by
  have hs : ∃ n, env.dflt n ≠ env.dflt (n + 1) := by
    by_contra hc
    have hc : ∀ n, env.dflt n = env.dflt (n + 1) := fun n => not_not.1 fun h => hc ⟨n, h⟩
    have h0 : ∀ n, env.dflt n = env.dflt 0 := fun n => by
      induction n with
      | zero => rfl
      | succ n ih => rw [← hc n, ih]
    obtain ⟨i, j, h⟩ := hd
    exact h ((h0 i).trans (h0 j).symm)
  obtain ⟨n, hn⟩ := hs
  refine ⟨n, ?_⟩
  rw [run_append, M.bind_apply, St.init, St.start, run_burn]
  simp [run, step, create, get, getNodes, put, lift, nDefault, newAlloc, nInsert, allocate, St.drop, fSwap, nClear, nFree,
    deallocate, destroyObj, List.lookup, M.tryCatch_apply, hn]

/-- C159 fails for the string constructor from input iterators: for every non-empty range the first thing it deallocates is a
null pointer, as one character (string.hpp:95 with m_p and m_capacity from :295-296). -/
theorem C159_string_refuted (hn : env.nullOk = false) (n : Nat) (hpos : n ≠ 0) (a : A) :
    run env C [.sRange 0 n a] St.init = .ub .badFree := by
  obtain ⟨n, rfl⟩ := Nat.exists_eq_succ_of_ne_zero hpos
  simp [run, step, create, lift, sRange, sRangeLoop, allocate, deallocate, hn, St.init, St.start, M.tryCatch_apply]

/-- With an empty range it writes through the null pointer, whatever the allocator. -/
theorem C159_string_empty_refuted (a : A) : run env C [.sRange 0 0 a] St.init = .ub .null := by
  simp [run, step, create, lift, sRange, sRangeLoop, St.init, St.start, M.tryCatch_apply]

/-- The exclusions of `C159_partial` are the weakest possible for programs that may use any statement with non-empty ranges: if no
program misuses `deallocate`, then default-constructed allocators are all equal and null pointers may be deallocated. -/
theorem C159_exact [Inhabited A] :
    (∀ prog : List (Op A), run env C prog St.init ≠ .ub .badFree) ↔
      (∀ i j, env.dflt i = env.dflt j) ∧ env.nullOk = true := by
  constructor
  · intro h
    refine ⟨fun i j => not_not.1 fun hij => ?_, ?_⟩
    · obtain ⟨n, hn⟩ := C159_forward_list_refuted (env := env) (C := C) ⟨i, j, hij⟩
      exact h _ hn
    · by_contra hc
      exact h _ (C159_string_refuted (by simpa using hc) 1 (by decide) default)
  · rintro ⟨h1, h2⟩ prog
    have key : ∀ s : St A, Inv env C (fun _ => false) s → run env C prog s ≠ .ub .badFree := by
      induction prog with
      | nil => intro s _ h; cases h
      | cons op l ih =>
        intro s H
        unfold run
        rw [M.bind_apply]
        by_cases ha : Allowed env op
        · rcases (fine_step op ha (.inl never_false)).catch s H with ⟨s', e, H'⟩ | e | e | e <;> rw [e]
          · exact ih s' H'
          all_goals simp
        · have : ∃ o a, op = .sRange o 0 a := by
            cases op with
            | sRange o n a =>
              refine ⟨o, a, ?_⟩
              have : n = 0 := by
                by_contra hn
                exact ha ⟨h2, hn⟩
              rw [this]
            | fAssign => exact absurd h1 ha
            | fSwap => exact absurd h1 ha
            | _ => exact absurd trivial ha
          obtain ⟨o, a, rfl⟩ := this
          rw [M.tryCatch_apply]
          simp only [step, create]
          cases s.objs.lookup o <;> simp [lift, sRange, sRangeLoop]
    exact key _ inv_start

/-- `C159_partial` at work: unequal allocators (numbered 0, 1, 2, …), vectors, strings, lists and deques, swapped,
copied and destroyed. -/
def demo : List (Op Nat) :=
  [.vInit 0 3 7, .vDefault 1, .vPush 1, .vSwap 0 1, .vCopy 2 0, .vMove 3 1, .sPtr 4 2 9, .sAppend 4 10, .sAssign 4 40, .nDefault 5,
    .nInsert 5 0, .nInsert 5 1, .nErase 5 0, .nCopy 6 5, .nAssign 6 5, .dInit 7 5 8, .dPushFront 7, .dCopy 8 7,
    .destroy 0, .destroy 1, .destroy 2, .destroy 3, .destroy 4, .destroy 5, .destroy 6, .destroy 7, .destroy 8]

example : ∀ op ∈ demo, Allowed { dflt := fun i => i, nullOk := false } op := by simp [demo, Allowed]
example : (match run { dflt := fun i => i, nullOk := false } 4 demo St.init with
    | .ok _ s => s.objs.isEmpty && s.heap.next == 16
    | _ => false) = true := by decide +kernel

/-! ### C161: the statements that are not robust -/

/-- After the program there are no variables, and a block is left. -/
def Leaks : Res (St A) Unit → Prop
  | .ok _ s => s.objs = [] ∧ ∃ p b, s.heap.blk p = some b
  | _ => False

/-- C161 fails for `vector(init, alloc)` with two elements or more: when the second request fails the first block is lost, since the
constructor does not delegate and so no destructor runs (vector.hpp:65-70). -/
theorem C161_vector_refuted (n : Nat) (a : A) : Leaks (run env C [.vInit 0 (n + 2) a] (St.start fun i => i == 1)) := by
  simp [run, step, create, lift, vInit, vPushN, vPush, vReserve, allocate, St.start, M.tryCatch_apply, Leaks]

/-- C161 fails for the copy constructor of `forward_list`, for the same reason (forward_list.hpp:100-110). -/
theorem C161_forward_list_refuted :
    Leaks (run env C [.nDefault 0, .nInsert 0 0, .nInsert 0 0, .fCopy 1 0, .destroy 0] (St.start fun i => i == 3)) := by
  simp [run, step, create, get, getNodes, put, lift, nDefault, newAlloc, nInsert, allocate, St.drop, fCopy, fInsertN,
    nClear, nFree, deallocate, destroyObj, remove, List.lookup, St.start, M.tryCatch_apply, Leaks]

/-- And so for its `operator=` (forward_list.hpp:112-117), here even of a list to itself. -/
theorem C161_forward_list_assign_refuted :
    Leaks (run env C [.nDefault 0, .nInsert 0 0, .nInsert 0 0, .fAssign 0 0, .destroy 0] (St.start fun i => i == 3)) := by
  simp [run, step, create, get, getNodes, put, lift, nDefault, newAlloc, nInsert, allocate, St.drop, fAssign, fCopy,
    fInsertN, nClear, nFree, deallocate, destroyObj, remove, List.lookup, St.start, M.tryCatch_apply, Leaks]

/-- C161 fails for `basic_string::operator=`: the old storage is deallocated before the new is requested (string.hpp:224-227), so when
the request fails the destructor deallocates it again. -/
theorem C161_string_assign_refuted (n : Nat) (a : A) :
    run env C [.sPtr 0 0 a, .sAssign 0 (n + 1), .destroy 0] (St.start fun i => i == 1) = .ub .badFree := by
  simp [run, step, create, get, getStr, put, lift, sPtr, sAssign, sDestroy, allocate, deallocate, St.drop, destroyObj, List.lookup,
    St.start, M.tryCatch_apply, M.onThrow]

/-- C161 fails for `basic_string()` and `basic_string(alloc)`: they allocate though they are noexcept, so the program ends
(string.hpp:37-48). -/
theorem C161_string_refuted (a : A) : run env C [.sDefault 0] (St.start fun i => i == 0) = .ub .terminate ∧
    run env C [.sAlloc 0 a] (St.start fun i => i == 0) = .ub .terminate := by
  constructor <;> simp [run, step, create, lift, sDefault, sAlloc, newAlloc, allocate, St.start, M.tryCatch_apply, M.noexcept]

/-- C161 fails for the string constructor from input iterators even where null pointers may be deallocated: with three characters or
more, when the second request fails the first block is lost (string.hpp:67-104; the constructor does not delegate either). -/
theorem C161_string_range_refuted (hn : env.nullOk = true) (n : Nat) (a : A) :
    Leaks (run env C [.sRange 0 (n + 3) a] (St.start fun i => i == 1)) := by
  simp [run, step, create, lift, sRange, sRangeLoop, allocate, deallocate, hn, St.start, M.tryCatch_apply, Leaks]

/-- `C161_partial` at work: requests 1 and 5 fail; the first leaves the vector as it was, the second undoes half a copy. -/
def demoFail : List (Op Nat) :=
  [.vDefault 0, .vPush 0, .vPush 0, .nDefault 1, .nInsert 1 0, .nInsert 1 0, .nCopy 2 1, .destroy 0, .destroy 1]

example : (∀ op ∈ demoFail, Allowed { dflt := fun i => i, nullOk := false } op) ∧ ∀ op ∈ demoFail, Robust op := by
  simp [demoFail, Allowed, Robust]
example : (match run { dflt := fun i => i, nullOk := false } 4 demoFail (St.start fun i => i == 1 || i == 5) with
    | .ok _ s => s.objs.isEmpty && s.heap.next == 4 && s.heap.reqs == 6
    | _ => false) = true := by
  simp [demoFail, run, step, create, get, getNodes, getVec, put, lift, vDefault, vPush, vReserve, nDefault, newAlloc, nInsert, allocate,
    St.drop, nCopy, nInsertN, nClear, nFree, vDestroy, deallocate, destroyObj, remove, List.lookup, St.start, M.tryCatch_apply, M.onThrow]

/-! ### C160 -/

/-- Between `h` and `h'` storage was requested from `a` only, and no allocator was made up. -/
def OnlyFrom (a : A) (h h' : Heap A) : Prop :=
  h'.made = h.made ∧ ∀ p b m, h'.blk p = some (b, m) → h.blk p = some (b, m) ∨ b = a

theorem OnlyFrom.rfl (a : A) (h : Heap A) : OnlyFrom a h h := ⟨Eq.refl _, fun _ _ _ => .inl⟩

theorem OnlyFrom.trans {a : A} {h h' h'' : Heap A} (H : OnlyFrom a h h') (H' : OnlyFrom a h' h'') : OnlyFrom a h h'' :=
  ⟨H'.1.trans H.1, fun p b m e => (H'.2 p b m e).elim (H.2 p b m) .inr⟩

theorem onlyFrom_allocate {a : A} {n p : Nat} {h h' : Heap A} (e : allocate a n h = .ok p h') : OnlyFrom a h h' := by
  unfold allocate at e
  split at e
  · cases e
  injection e with _ e
  subst e
  refine ⟨Eq.refl _, fun q b m hb => ?_⟩
  dsimp only at hb
  split at hb
  · exact .inr (by simpa using (congrArg (fun o => o.map Prod.fst) hb).symm)
  · exact .inl hb

theorem onlyFrom_deallocate {a c : A} {p : Option Nat} {n : Nat} {h h' : Heap A} {u : Unit}
    (e : deallocate env c p n h = .ok u h') : OnlyFrom a h h' := by
  unfold deallocate at e
  split at e
  · split at e
    · injection e with _ e
      subst e
      exact .rfl ..
    · cases e
  · split at e
    · injection e with _ e
      subst e
      refine ⟨Eq.refl _, fun q b m hb => ?_⟩
      dsimp only at hb
      split at hb
      · cases hb
      · exact .inl hb
    · cases e

theorem bind_ok_inv {S α β : Type} {m : M S α} {f : α → M S β} {s s' : S} {b : β} (h : (m >>= f) s = .ok b s') :
    ∃ a s1, m s = .ok a s1 ∧ f a s1 = .ok b s' := by
  rw [M.bind_apply] at h
  cases hm : m s with
  | ok a s1 => rw [hm] at h; exact ⟨a, s1, rfl, h⟩
  | throw e s1 => rw [hm] at h; cases h
  | ub u => rw [hm] at h; cases h
  | timeout => rw [hm] at h; cases h

theorem only_vReserve {x x' : Vec A} {n : Nat} {h h' : Heap A} (e : vReserve env x n h = .ok x' h') :
    x'.alloc = x.alloc ∧ OnlyFrom x.alloc h h' := by
  unfold vReserve at e
  split at e
  · obtain ⟨p, h1, e1, e⟩ := bind_ok_inv e
    dsimp only at e
    split at e
    · obtain ⟨_, h2, e2, e⟩ := bind_ok_inv e
      injection e with e3 e
      subst e e3
      exact ⟨rfl, (onlyFrom_allocate e1).trans (onlyFrom_deallocate e2)⟩
    · injection e with e3 e
      subst e e3
      exact ⟨rfl, onlyFrom_allocate e1⟩
  · injection e with e3 e
    subst e e3
    exact ⟨rfl, .rfl ..⟩

theorem only_vPush {x x' : Vec A} {h h' : Heap A} (e : vPush env x h = .ok x' h') :
    x'.alloc = x.alloc ∧ OnlyFrom x.alloc h h' := by
  unfold vPush at e
  dsimp only at e
  have fin : ∀ n, (do let y ← vReserve env x n; pure { y with size := y.size + 1 } : HM A (Vec A)) h = .ok x' h' →
      x'.alloc = x.alloc ∧ OnlyFrom x.alloc h h' := by
    intro n e
    obtain ⟨y, h1, e1, e⟩ := bind_ok_inv e
    injection e with e3 e
    subst e e3
    exact ⟨(only_vReserve e1).1, (only_vReserve e1).2⟩
  split at e
  · exact fin _ e
  · split at e
    · exact fin _ e
    · injection e with e3 e
      subst e e3
      exact ⟨rfl, .rfl ..⟩

theorem only_vPushN (n : Nat) : ∀ {x x' : Vec A} {h h' : Heap A}, vPushN env x n h = .ok x' h' →
    x'.alloc = x.alloc ∧ OnlyFrom x.alloc h h' := by
  induction n with
  | zero =>
    intro x x' h h' e
    injection e with e3 e
    subst e e3
    exact ⟨rfl, .rfl ..⟩
  | succ n ih =>
    intro x x' h h' e
    obtain ⟨y, h1, e1, e⟩ := bind_ok_inv e
    obtain ⟨a1, o1⟩ := only_vPush e1
    obtain ⟨a2, o2⟩ := ih e
    exact ⟨a2.trans a1, o1.trans (by rw [← a1]; exact o2)⟩

/-- C160 for `vector(count, alloc)`: the vector keeps `alloc` and takes its storage from it. -/
theorem C160_vector_count {n : Nat} {a : A} {x : Vec A} {h h' : Heap A} (e : vCount env n a h = .ok x h') :
    x.alloc = a ∧ OnlyFrom a h h' := by
  obtain ⟨y, h1, e1, e⟩ := bind_ok_inv e
  injection e with e3 e
  subst e e3
  exact ⟨(only_vReserve e1).1, (only_vReserve e1).2⟩

/-- C160 for `vector(init, alloc)`. -/
theorem C160_vector_init {n : Nat} {a : A} {x : Vec A} {h h' : Heap A} (e : vInit env n a h = .ok x h') :
    x.alloc = a ∧ OnlyFrom a h h' := only_vPushN n e

theorem noexcept_ok_inv {S α : Type} {f : M S α} {s s' : S} {x : α} (e : M.noexcept f s = .ok x s') : f s = .ok x s' := by
  unfold M.noexcept at e
  cases h : f s <;> rw [h] at e <;> first | exact e | cases e

theorem onThrow_ok_inv {S α : Type} {f : M S α} {g : M S Unit} {s s' : S} {x : α} (e : M.onThrow f g s = .ok x s') :
    f s = .ok x s' := by
  unfold M.onThrow at e
  cases h : f s <;> rw [h] at e <;> first | exact e | (dsimp only at e; split at e <;> cases e)

/-- C160 for `basic_string(alloc)`, `basic_string(s, count, alloc)` and `basic_string(s, alloc)`. -/
theorem C160_string {n : Nat} {a : A} {x : Str A} {h h' : Heap A} (e : sAlloc a h = .ok x h' ∨ sPtr n a h = .ok x h') :
    x.alloc = a ∧ OnlyFrom a h h' := by
  have e : (∃ n c m, (allocate a n >>= fun p => pure ({ size := c, cap := m, p := some p, alloc := a } : Str A)) h = .ok x h') := by
    rcases e with e | e
    · exact ⟨_, _, _, noexcept_ok_inv e⟩
    · exact ⟨_, _, _, e⟩
  obtain ⟨_, _, _, e⟩ := e
  · obtain ⟨p, h1, e1, e⟩ := bind_ok_inv e
    injection e with e3 e
    subst e e3
    exact ⟨rfl, onlyFrom_allocate e1⟩

/-- C160 for copy assignment of vectors and strings: they keep the allocator they have. -/
theorem C160_assign {x y x' : Vec A} {h h' : Heap A} (e : vAssign env x y h = .ok x' h') :
    x'.alloc = x.alloc ∧ OnlyFrom x.alloc h h' := by
  obtain ⟨z, h1, e1, e⟩ := bind_ok_inv e
  injection e with e3 e
  subst e e3
  exact ⟨(only_vReserve e1).1, (only_vReserve e1).2⟩

theorem C160_string_assign {x x' : Str A} {n : Nat} {h h' : Heap A} (e : sAssign env x n h = .ok x' h') :
    x'.alloc = x.alloc ∧ OnlyFrom x.alloc h h' := by
  unfold sAssign at e
  dsimp only at e
  split at e
  · obtain ⟨_, h1, e1, e⟩ := bind_ok_inv e
    obtain ⟨p, h2, e2, e⟩ := bind_ok_inv e
    injection e with e3 e
    subst e e3
    exact ⟨rfl, (onlyFrom_deallocate e1).trans (onlyFrom_allocate e2)⟩
  · injection e with e3 e
    subst e e3
    exact ⟨rfl, .rfl ..⟩

theorem dPushN_alloc (n : Nat) : ∀ {x x' : Dq A} {h h' : Heap A}, dPushN env C x n h = .ok x' h' →
    x'.alloc = x.alloc ∧ OnlyFrom x.alloc h h' := by
  induction n with
  | zero =>
    intro x x' h h' e
    injection e with e3 e
    subst e e3
    exact ⟨rfl, .rfl ..⟩
  | succ n ih =>
    intro x x' h h' e
    obtain ⟨y, h1, e1, e⟩ := bind_ok_inv e
    replace e1 := onThrow_ok_inv e1
    have : y.alloc = x.alloc ∧ OnlyFrom x.alloc h h1 := by
      unfold dPushBack at e1
      split at e1
      · split at e1
        · obtain ⟨p, h2, e2, e1⟩ := bind_ok_inv e1
          injection e1 with e3 e1
          subst e1 e3
          exact ⟨rfl, onlyFrom_allocate e2⟩
        · injection e1 with e3 e1
          subst e1 e3
          exact ⟨rfl, .rfl ..⟩
      · injection e1 with e3 e1
        subst e1 e3
        exact ⟨rfl, .rfl ..⟩
    obtain ⟨a2, o2⟩ := ih e
    exact ⟨a2.trans this.1, this.2.trans (by rw [← this.1]; exact o2)⟩

/-- C160 fails for `deque(init, alloc)`: the deque has a default-constructed allocator and takes all its storage from that one
(deque.hpp:169-173). -/
theorem C160_deque_refuted {n : Nat} {a : A} {x : Dq A} {h h' : Heap A} (e : dInit env C n a h = .ok x h')
    (ha : env.dflt h.made ≠ a) : x.alloc ≠ a ∧
      ∀ p m, h'.blk p = some (a, m) → h.blk p = some (a, m) := by
  obtain ⟨y, h1, e1, e⟩ := bind_ok_inv e
  obtain ⟨b, h2, e2, e1⟩ := bind_ok_inv e1
  obtain ⟨p, h3, e3, e1⟩ := bind_ok_inv e1
  injection e2 with hb e2
  injection e1 with e4 e1
  subst e1 e4
  obtain ⟨a1, o1⟩ := dPushN_alloc n e
  have hb : b = env.dflt h.made := hb.symm
  dsimp only at a1 o1
  have o0 := (onlyFrom_allocate e3).trans o1
  refine ⟨by rw [a1, hb]; exact ha, fun p m hp => ?_⟩
  rcases o0.2 p a m hp with h | h
  · subst e2
    exact h
  · exact absurd (h.trans hb).symm ha

/-- C160 fails for the copy constructors: the copy has a default-constructed allocator, not the one of the source
(vector.hpp:42, string.hpp:65, list.hpp:142, forward_list.hpp:100, set.hpp:102, map.hpp:163, deque.hpp:163; the standard asks
`select_on_container_copy_construction`, which by default gives the allocator of the source). -/
theorem C160_copy_refuted {y x : Vec A} {h h' : Heap A} (e : vCopy env y h = .ok x h') (ha : env.dflt h.made ≠ y.alloc) :
    x.alloc ≠ y.alloc := by
  obtain ⟨v, h1, e1, e⟩ := bind_ok_inv e
  obtain ⟨b, h2, e2, e1⟩ := bind_ok_inv e1
  obtain ⟨w, h3, e3, e⟩ := bind_ok_inv e
  injection e2 with hb e2
  injection e1 with e4 e1
  injection e with e5 e
  subst e4 e5
  show w.alloc ≠ _
  rw [(only_vReserve e3).1]
  dsimp only
  rw [← hb]
  exact ha

theorem C160_copy_deque_refuted {y x : Dq A} {h h' : Heap A} (e : dCopy env C y h = .ok x h')
    (ha : env.dflt h.made ≠ y.alloc) : x.alloc ≠ y.alloc :=
  (C160_deque_refuted (n := y.size) (a := y.alloc) e ha).1

theorem C160_copy_string_refuted {n : Nat} {a : A} {x : Str A} {h h' : Heap A} (e : sCopy env n h = .ok x h')
    (ha : env.dflt h.made ≠ a) : x.alloc ≠ a := by
  obtain ⟨b, h2, e2, e⟩ := bind_ok_inv e
  injection e2 with hb e2
  rw [(C160_string (.inr e)).1, ← hb]
  exact ha

theorem nInsertN_alloc (n : Nat) : ∀ {x x' : Nodes A} {h h' : Heap A}, nInsertN env x n h = .ok x' h' → x'.alloc = x.alloc := by
  induction n with
  | zero =>
    intro x x' h h' e
    injection e with e3 e
    rw [e3]
  | succ n ih =>
    intro x x' h h' e
    obtain ⟨y, h1, e1, e⟩ := bind_ok_inv e
    obtain ⟨p, h2, e2, e1⟩ := bind_ok_inv (onThrow_ok_inv e1)
    injection e1 with e4 e1
    rw [ih e, ← e4]

theorem fInsertN_alloc (n : Nat) : ∀ {x x' : Nodes A} {h h' : Heap A}, fInsertN x n h = .ok x' h' → x'.alloc = x.alloc := by
  induction n with
  | zero =>
    intro x x' h h' e
    injection e with e3 e
    rw [e3]
  | succ n ih =>
    intro x x' h h' e
    obtain ⟨y, h1, e1, e⟩ := bind_ok_inv e
    obtain ⟨p, h2, e2, e1⟩ := bind_ok_inv e1
    injection e1 with e4 e1
    rw [ih e, ← e4]

theorem C160_copy_nodes_refuted {y x : Nodes A} {h h' : Heap A}
    (e : nCopy env y h = .ok x h' ∨ fCopy env y h = .ok x h') (ha : env.dflt h.made ≠ y.alloc) : x.alloc ≠ y.alloc := by
  rcases e with e | e <;>
  · obtain ⟨v, h1, e1, e⟩ := bind_ok_inv e
    obtain ⟨b, h2, e2, e1⟩ := bind_ok_inv e1
    injection e2 with hb e2
    injection e1 with e4 e1
    first | rw [nInsertN_alloc _ e, ← e4] | rw [fInsertN_alloc _ e, ← e4]
    dsimp only
    rw [← hb]
    exact ha

/-- Concrete cases: allocator 7 is given; the vector of three elements takes its storage from 7, the deque from allocator 0. -/
example : ∃ x h', vInit { dflt := fun i => i, nullOk := false } 3 7 (St.init (A := Nat)).heap = .ok x h' ∧ x.cap = 4 ∧
    x.p.bind h'.blk = some (7, 4) := ⟨_, _, rfl, rfl, rfl⟩
example : ∃ x h', dInit { dflt := fun i => i, nullOk := false } 4 3 7 (St.init (A := Nat)).heap = .ok x h' ∧
    x.chunks.map h'.blk = [some (0, 4), some (0, 4)] := ⟨_, _, rfl, rfl⟩
example : ∃ x h', vCopy { dflt := fun i => i, nullOk := false } { size := 0, cap := 0, p := none, alloc := 5 }
    (St.init (A := Nat)).heap = .ok x h' ∧ x.alloc = 0 := ⟨_, _, rfl, rfl⟩

end Cest.Alloc
