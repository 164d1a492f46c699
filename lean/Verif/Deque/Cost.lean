import Verif.Core.Cost
import Verif.Deque.Props
import Verif.Deque.CostSpec
/-
Lemmas for C129: what the functions of cest::deque cost.
-/
namespace Cest.Deq
open Cest
variable {V : Type} {K : Nat} {st : DSt V} {σ : Nat → Option (DV V)} {x y : Nat} {s sy : DV V}

theorem read_cost (r : Ref V) : CostLe r.read 0 := by
  cases r with
  | ext v => exact CostLe.pure _
  | cell a i => exact CostLe.load _ _
theorem chunkAt_cost (o : Obj) (i : Int) : CostLe (chunkAt o i : DM V Nat) 0 := by
  unfold chunkAt
  refine CostLe.ite (fun _ => ?_) (fun _ => CostLe.ub _)
  split
  · exact CostLe.pure _
  · exact CostLe.ub _
theorem chunksPush_cost (x a : Nat) : CostLe (chunksPush x a : DM V Unit) 1 := by
  unfold chunksPush
  refine CostLe.bind (b₁ := 0) (b₂ := 1) (CostLe.getObj x) (fun o => ?_)
  refine CostLe.ite (fun _ => ?_) (fun _ => (CostLe.setObj _ _).mono (by omega))
  exact CostLe.bind (b₁ := 1) (b₂ := 0) (CostLe.tick _) (fun _ => CostLe.setObj _ _)
theorem locate_cost (i : Nat) : CostLe (locate K x i : DM V (Nat × Nat)) 0 := by
  unfold locate
  exact CostLe.bind (b₁ := 0) (b₂ := 0) (CostLe.getObj x) (fun o =>
    CostLe.bind (b₁ := 0) (b₂ := 0) (chunkAt_cost _ _) (fun _ => CostLe.pure _))
theorem clear_cost : CostLe (clear K x : DM V Unit) 0 := by
  unfold clear size
  refine CostLe.bind (b₁ := 0) (b₂ := 0) (by cost0) (fun n => ?_)
  refine CostLe.bind (b₁ := 0) (b₂ := 0) ?_ (fun _ => by cost0)
  refine (CostLe.forN (b := 0) (fun i => ?_) 0 n).mono (by omega)
  exact CostLe.bind (b₁ := 0) (b₂ := 0) (locate_cost _) (fun _ => CostLe.destroyAt _ _)
theorem freeChunks_cost : ∀ as : List Nat, CostLe (freeChunks K as : DM V Unit) 0
  | [] => CostLe.pure _
  | a :: as => CostLe.bind (b₁ := 0) (b₂ := 0) (CostLe.freeArr _ _) (fun _ => freeChunks_cost as)
theorem dtor_cost : CostLe (dtor K x : DM V Unit) 0 := by
  unfold dtor
  exact CostLe.bind (b₁ := 0) (b₂ := 0) clear_cost (fun _ =>
    CostLe.bind (b₁ := 0) (b₂ := 0) (CostLe.getObj x) (fun o =>
    CostLe.bind (b₁ := 0) (b₂ := 0) (freeChunks_cost _) (fun _ => CostLe.delObj _)))
theorem ctor_cost : CostLe (ctor K x : DM V Unit) 2 := by
  unfold ctor
  refine CostLe.bind (b₁ := 0) (b₂ := 2) (CostLe.newObj _ _) (fun _ => ?_)
  refine CostLe.onThrow (b₁ := 2) (b₂ := 0) ?_ (CostLe.delObj _)
  refine CostLe.bind (b₁ := 1) (b₂ := 1) (CostLe.allocArr _) (fun a => ?_)
  refine CostLe.bind (b₁ := 0) (b₂ := 1) (CostLe.getObj x) (fun o => ?_)
  refine CostLe.bind (b₁ := 0) (b₂ := 1) (CostLe.setObj _ _) (fun _ => ?_)
  exact CostLe.bind (b₁ := 1) (b₂ := 0) (chunksPush_cost _ _) (fun _ => by cost0)
theorem pushFrontHelper_cost : CostLe (pushFrontHelper K x : DM V Unit) 2 := by
  unfold pushFrontHelper
  refine CostLe.bind (b₁ := 0) (b₂ := 2) (CostLe.getObj x) (fun o => ?_)
  dsimp only
  have tl : ∀ f : Obj → Obj, CostLe (do
      let o ← getObj x
      setObj x (f o) : DM V Unit) 0 := fun f => by cost0
  have tl2 : ∀ f g : Obj → Obj, CostLe (do
      let o ← getObj x
      setObj x (f o)
      let o ← getObj x
      setObj x (g o) : DM V Unit) 0 := fun f g => by cost0
  refine CostLe.ite (fun _ => ?_) (fun _ => ?_)
  · refine CostLe.ite (fun _ => ?_) (fun _ => ?_)
    · refine CostLe.bind (b₁ := 1) (b₂ := 1) (CostLe.allocArr _) (fun a => ?_)
      refine CostLe.bind (b₁ := 1) (b₂ := 0) (chunksPush_cost _ _) (fun _ => ?_)
      refine CostLe.bind (b₁ := 0) (b₂ := 0) (CostLe.getObj x) (fun o => ?_)
      split
      · exact CostLe.bind (b₁ := 0) (b₂ := 0) (CostLe.ub _) (fun _ => tl2 _ _)
      · exact CostLe.bind (b₁ := 0) (b₂ := 0) (CostLe.setObj _ _) (fun _ => tl2 _ _)
    · exact (CostLe.bind (b₁ := 0) (b₂ := 0) (CostLe.setObj _ _) (fun _ => tl2 _ _)).mono (by omega)
  · exact (CostLe.bind (b₁ := 0) (b₂ := 0) (CostLe.setObj _ _) (fun _ => tl _)).mono (by omega)
theorem pushBackHelper_cost : CostLe (pushBackHelper K x : DM V Unit) 2 := by
  unfold pushBackHelper
  refine CostLe.bind (b₁ := 0) (b₂ := 2) (CostLe.getObj x) (fun o => ?_)
  dsimp only
  have tl : ∀ f : Obj → Obj, CostLe (do
      let o ← getObj x
      setObj x (f o) : DM V Unit) 0 := fun f => by cost0
  have tl2 : ∀ f g : Obj → Obj, CostLe (do
      let o ← getObj x
      setObj x (f o)
      let o ← getObj x
      setObj x (g o) : DM V Unit) 0 := fun f g => by cost0
  refine CostLe.ite (fun _ => ?_) (fun _ => ?_)
  · refine CostLe.ite (fun _ => ?_) (fun _ => (tl2 _ _).mono (by omega))
    refine CostLe.bind (b₁ := 1) (b₂ := 1) (CostLe.allocArr _) (fun a => ?_)
    refine CostLe.bind (b₁ := 1) (b₂ := 0) (chunksPush_cost _ _) (fun _ => ?_)
    refine CostLe.bind (b₁ := 0) (b₂ := 0) (CostLe.getObj x) (fun o => ?_)
    exact CostLe.bind (b₁ := 0) (b₂ := 0) (CostLe.setObj _ _) (fun _ => tl2 _ _)
  · exact (CostLe.bind (b₁ := 0) (b₂ := 0) (CostLe.setObj _ _) (fun _ => tl _)).mono (by omega)
theorem pushFront_cost (r : Ref V) : CostLe (pushFront K x r) 3 := by
  unfold pushFront
  refine CostLe.bind (b₁ := 2) (b₂ := 1) pushFrontHelper_cost (fun _ => ?_)
  refine CostLe.bind (b₁ := 0) (b₂ := 1) (CostLe.getObj x) (fun o => ?_)
  refine CostLe.bind (b₁ := 0) (b₂ := 1) (chunkAt_cost _ _) (fun a => ?_)
  exact CostLe.bind (b₁ := 0) (b₂ := 1) (read_cost r) (fun v => CostLe.constructAt _ _ _)
theorem pushBack_cost (r : Ref V) : CostLe (pushBack K x r) 3 := by
  unfold pushBack
  refine CostLe.bind (b₁ := 2) (b₂ := 1) pushBackHelper_cost (fun _ => ?_)
  refine CostLe.bind (b₁ := 0) (b₂ := 1) (CostLe.getObj x) (fun o => ?_)
  refine CostLe.bind (b₁ := 0) (b₂ := 1) (chunkAt_cost _ _) (fun a => ?_)
  exact CostLe.bind (b₁ := 0) (b₂ := 1) (read_cost r) (fun v => CostLe.constructAt _ _ _)
theorem pushFrom_cost : ∀ (n i : Nat), CostLe (pushFrom K x y i n : DM V Unit) (3 * n)
  | 0, i => CostLe.pure _
  | n+1, i => by
    unfold pushFrom
    refine CostLe.mono (b := 0 + (3 + 3 * n)) ?_ (by omega)
    exact CostLe.bind (locate_cost _) (fun p => CostLe.bind (pushBack_cost _) (fun _ => pushFrom_cost n (i+1)))
theorem pushAll_cost : ∀ vs : List V, CostLe (pushAll K x vs) (3 * vs.length)
  | [] => CostLe.pure _
  | v :: vs => by
    unfold pushAll
    refine CostLe.mono (b := 3 + 3 * vs.length) ?_ (by simp; omega)
    exact CostLe.bind (pushBack_cost _) (fun _ => pushAll_cost vs)
theorem popBack_cost : CostLe (popBack K x : DM V Unit) 0 := by
  unfold popBack empty
  refine CostLe.bind (b₁ := 0) (b₂ := 0) (by cost0) (fun e => ?_)
  refine CostLe.ite (fun _ => ?_) (fun _ => CostLe.pure _)
  refine CostLe.bind (b₁ := 0) (b₂ := 0) (CostLe.getObj x) (fun o => ?_)
  refine CostLe.bind (b₁ := 0) (b₂ := 0) (chunkAt_cost _ _) (fun a => ?_)
  exact CostLe.bind (b₁ := 0) (b₂ := 0) (CostLe.destroyAt _ _) (fun _ => by cost0)
theorem popFront_cost : CostLe (popFront K x : DM V Unit) 0 := by
  unfold popFront empty
  refine CostLe.bind (b₁ := 0) (b₂ := 0) (by cost0) (fun e => ?_)
  refine CostLe.ite (fun _ => ?_) (fun _ => CostLe.pure _)
  refine CostLe.bind (b₁ := 0) (b₂ := 0) (CostLe.getObj x) (fun o => ?_)
  refine CostLe.bind (b₁ := 0) (b₂ := 0) (chunkAt_cost _ _) (fun a => ?_)
  exact CostLe.bind (b₁ := 0) (b₂ := 0) (CostLe.destroyAt _ _) (fun _ => by cost0)
theorem set_cost (i : Nat) (v : V) : CostLe (set K x i v) 1 := by
  unfold set
  exact CostLe.bind (b₁ := 0) (b₂ := 1) (locate_cost _) (fun _ => CostLe.store _ _ _)
theorem get_cost (i : Nat) : CostLe (get K x i : DM V V) 0 := by
  unfold get
  exact CostLe.bind (b₁ := 0) (b₂ := 0) (locate_cost _) (fun _ => CostLe.load _ _)
theorem size_cost : CostLe (size x : DM V Nat) 0 := by unfold size; cost0
theorem empty_cost : CostLe (empty x : DM V Bool) 0 := by unfold empty; cost0
theorem front_cost : CostLe (front x : DM V V) 0 := by
  unfold front
  exact CostLe.bind (b₁ := 0) (b₂ := 0) (CostLe.getObj x) (fun o =>
    CostLe.bind (b₁ := 0) (b₂ := 0) (chunkAt_cost _ _) (fun _ => CostLe.load _ _))
theorem back_cost : CostLe (back x : DM V V) 0 := by
  unfold back
  exact CostLe.bind (b₁ := 0) (b₂ := 0) (CostLe.getObj x) (fun o =>
    CostLe.bind (b₁ := 0) (b₂ := 0) (chunkAt_cost _ _) (fun _ => CostLe.load _ _))
theorem inc_cost (it : It) : CostLe (it.inc K x : DM V It) 0 := by
  unfold It.inc
  refine CostLe.bind (b₁ := 0) (b₂ := 0) (CostLe.getObj x) (fun o => ?_)
  refine CostLe.bind (b₁ := 0) (b₂ := 0) (chunkAt_cost _ _) (fun a => ?_)
  refine CostLe.ite (fun _ => ?_) (fun _ => by cost0)
  exact CostLe.bind (b₁ := 0) (b₂ := 0) (chunkAt_cost _ _) (fun a => CostLe.pure _)
theorem collect_cost (e : It) : ∀ (f : Nat) (it : It), CostLe (collect K x e f it : DM V (List V)) 0
  | 0, _ => CostLe.timeout
  | f+1, it => by
    unfold collect
    refine CostLe.ite (fun _ => CostLe.pure _) (fun _ => ?_)
    exact CostLe.bind (b₁ := 0) (b₂ := 0) (CostLe.load _ _) (fun v =>
      CostLe.bind (b₁ := 0) (b₂ := 0) (inc_cost _) (fun it' =>
      CostLe.bind (b₁ := 0) (b₂ := 0) (collect_cost e f it') (fun _ => CostLe.pure _)))
theorem toList_cost (f : Nat) : CostLe (toList K x f : DM V (List V)) 0 := by
  unfold toList begin_ end_
  refine CostLe.bind (b₁ := 0) (b₂ := 0) ?_ (fun b => ?_)
  · exact CostLe.bind (b₁ := 0) (b₂ := 0) (CostLe.getObj x) (fun o =>
      CostLe.bind (b₁ := 0) (b₂ := 0) (chunkAt_cost _ _) (fun _ => CostLe.pure _))
  · refine CostLe.bind (b₁ := 0) (b₂ := 0) ?_ (fun e => collect_cost _ _ _)
    exact CostLe.bind (b₁ := 0) (b₂ := 0) (CostLe.getObj x) (fun o =>
      CostLe.bind (b₁ := 0) (b₂ := 0) (chunkAt_cost _ _) (fun _ => CostLe.pure _))

/-- The number of elements copied is the size of the source. -/
theorem copyCtor_cost (hK : 2 ≤ K) (W : DW K st σ) (hx : σ x = none) (hy : σ y = some sy) :
    CostAt (copyCtor K x y : DM V Unit) st (2 + 3 * sy.xs.length) := by
  have hxy : x ≠ y := by rintro rfl; rw [hx] at hy; cases hy
  obtain ⟨st1, h1, W1⟩ := ctor_spec hK W hx
  have hy1 : (upd σ x (some (⟨[st.next], 1, K / 2, []⟩ : DV V))) y = some sy := by simp [Ne.symm hxy, hy]
  obtain ⟨st2, s2, h2, _⟩ := pushFrom_spec hK (fun _ s => s.lastC K)
    (lastC_step (by omega)) (n := sy.xs.length) (i := 0) W1 (upd_same _ _ _) hy1 hxy (by omega) (ctor_lastC hK _)
  unfold copyCtor
  refine CostAt.bind_ok (ctor_cost st W.thr) h1 ?_
  refine CostAt.onThrow_ok (a := ()) (s' := st2) ?_ ?_
  · refine ((size_cost (x := y) st1 W1.thr).bind_ok (size_spec W1 hy1) (b₂ := 3 * sy.xs.length) ?_).mono (by omega)
    exact pushFrom_cost _ _ st1 W1.thr
  · simp only [M.bind_apply, size_spec W1 hy1, h2]

theorem assign_cost (hK : 2 ≤ K) (W : DW K st σ) (hx : σ x = some s) (hy : σ y = some sy) :
    CostAt (assign K x y : DM V Unit) st (3 * sy.xs.length) := by
  obtain ⟨st1, h1, W1⟩ := clear_spec hK W hx
  unfold assign
  refine (CostAt.bind_ok (clear_cost st W.thr) h1 (b₂ := 3 * sy.xs.length) ?_).mono (by omega)
  by_cases hxy : x = y
  · subst hxy
    refine ((size_cost (x := x) st1 W1.thr).bind_ok (size_spec W1 (upd_same _ _ _)) (b₂ := 3 * sy.xs.length) ?_).mono
      (by omega)
    exact (pushFrom_cost _ _ st1 W1.thr).mono (by simp [DV.cleared])
  · have hy1 : (upd σ x (some (s.cleared K))) y = some sy := by simp [Ne.symm hxy, hy]
    refine ((size_cost (x := y) st1 W1.thr).bind_ok (size_spec W1 hy1) (b₂ := 3 * sy.xs.length) ?_).mono (by omega)
    exact pushFrom_cost _ _ st1 W1.thr

theorem runOp_cost (hK : 2 ≤ K) {e e' : Env V} {op : Op V} {o : Out V} (W : DW K st σ) (he : envOf σ = e)
    (hs : specStep e op = some (e', o)) : CostAt (runOp K op) st (price e op) := by
  have t := W.thr
  cases op <;> unfold runOp
  case new x => exact (ctor_cost st t).ret
  case newList x vs =>
    refine (CostLe.bind (b₁ := 2) (b₂ := 3 * vs.length) ctor_cost (fun _ => ?_) st t).ret
    exact CostLe.onThrow (b₁ := 3 * vs.length) (b₂ := 0) (pushAll_cost vs) dtor_cost
  case newCopy x y =>
    simp only [specStep] at hs
    split at hs <;> simp at hs
    rename_i hx hy
    obtain ⟨sy, hy', rfl⟩ := envOf_some he hy
    simp only [price, hy, Option.getD_some]
    exact (copyCtor_cost hK W (envOf_none he hx) hy').ret
  case assign x y =>
    simp only [specStep] at hs
    split at hs <;> simp at hs
    rename_i hx hy
    obtain ⟨s, hx', rfl⟩ := envOf_some he hx
    obtain ⟨sy, hy', rfl⟩ := envOf_some he hy
    simp only [price, hy, Option.getD_some]
    exact (assign_cost hK W hx' hy').ret
  case pushBack x v => exact (pushBack_cost _ st t).ret
  case pushFront x v => exact (pushFront_cost _ st t).ret
  case pushBackFrom x y i =>
    exact CostLe.bind (b₁ := 0) (b₂ := 3) (locate_cost _) (fun _ =>
      CostLe.bind (b₁ := 3) (b₂ := 0) (pushBack_cost _) (fun _ => CostLe.pure _)) st t
  case pushFrontFrom x y i =>
    exact CostLe.bind (b₁ := 0) (b₂ := 3) (locate_cost _) (fun _ =>
      CostLe.bind (b₁ := 3) (b₂ := 0) (pushFront_cost _) (fun _ => CostLe.pure _)) st t
  case popBack x => exact (popBack_cost st t).ret
  case popFront x => exact (popFront_cost st t).ret
  case clear x => exact (clear_cost st t).ret
  case set x i v => exact (set_cost _ _ st t).ret
  case destroy x => exact (dtor_cost st t).ret
  case size x => exact (size_cost st t).ret
  case empty x => exact (empty_cost st t).ret
  case get x i => exact (get_cost _ st t).ret
  case front x => exact (front_cost st t).ret
  case back x => exact (back_cost st t).ret
  case toList x =>
    exact CostLe.bind (b₁ := 0) (b₂ := 0) size_cost (fun _ =>
      CostLe.bind (b₁ := 0) (b₂ := 0) (toList_cost _) (fun _ => CostLe.pure _)) st t

theorem run_cost (hK : 2 ≤ K) {ops : List (Op V)} {e e' : Env V} {os : List (Out V)}
    (W : DW K st σ) (he : envOf σ = e) (hs : specRun e ops = some (e', os)) (hf : NoFault K ops st) :
    CostAt (runOps K ops) st (total e ops) := by
  induction ops generalizing st σ e e' os with
  | nil => exact CostLe.pure _ st W.thr
  | cons op ops ih =>
    simp only [specRun] at hs
    split at hs <;> try simp at hs
    rename_i e1 o h1
    split at hs <;> simp at hs
    rename_i e2 os2 h2
    obtain ⟨st1, σ1, r1, W1, he1, _⟩ := step_refines hK W he h1 hf.1
    unfold runOps
    simp only [total, h1]
    exact (runOp_cost hK W he h1).bind_ok r1 (ih W1 he1 h2 (hf.2 _ _ r1)).ret

theorem growsBack_NoFault (hK : 2 ≤ K) {ops : List (Op V)} {e e' : Env V} {os : List (Out V)}
    (W : DW K st σ) (hA : AllLast K σ) (he : envOf σ = e) (hs : specRun e ops = some (e', os))
    (hg : ∀ op ∈ ops, op.growsBack) : NoFault K ops st := by
  induction ops generalizing st σ e e' os with
  | nil => trivial
  | cons op ops ih =>
    simp only [specRun] at hs
    split at hs <;> try simp at hs
    rename_i e1 o h1
    split at hs <;> simp at hs
    rename_i e2 os2 h2
    have hop : op.growsBack := hg op (by simp)
    have hnf := growsBack_noFault hK W hA hop
    refine ⟨hnf, fun o' st' hr => ?_⟩
    obtain ⟨st1, σ1, r1, W1, he1, hA1⟩ := step_refines hK W he h1 hnf
    rw [hr] at r1; cases r1
    exact ih W1 (hA1 hop hA) he1 h2 (fun op' h => hg op' (by simp [h]))

theorem runQOp_cost (hK : 2 ≤ K) {e e' : Env V} {op : QOp V} {o : Out V} (W : DW K st σ) (he : envOf σ = e)
    (hs : qspecStep e op = some (e', o)) : CostAt (runQOp K op) st (qprice e op) := by
  have t := W.thr
  cases op <;> unfold runQOp
  case new x => exact (ctor_cost st t).ret
  case newCopy x y =>
    simp only [qspecStep] at hs
    split at hs <;> simp at hs
    rename_i hx hy
    obtain ⟨sy, hy', rfl⟩ := envOf_some he hy
    simp only [qprice, hy, Option.getD_some]
    exact (copyCtor_cost hK W (envOf_none he hx) hy').ret
  case push x v => exact (pushBack_cost _ st t).ret
  case pushFrom x y =>
    refine CostLe.bind (b₁ := 0) (b₂ := 3) (CostLe.getObj y) (fun o => ?_) st t
    exact CostLe.bind (b₁ := 0) (b₂ := 3) (chunkAt_cost _ _) (fun _ =>
      CostLe.bind (b₁ := 3) (b₂ := 0) (pushBack_cost _) (fun _ => CostLe.pure _))
  case pop x => exact (popFront_cost st t).ret
  case destroy x => exact (dtor_cost st t).ret
  case size x => exact (size_cost st t).ret
  case empty x => exact (empty_cost st t).ret
  case front x => exact (front_cost st t).ret
  case back x => exact (back_cost st t).ret

theorem qrun_cost (hK : 2 ≤ K) {ops : List (QOp V)} {e e' : Env V} {os : List (Out V)}
    (W : DW K st σ) (hA : AllLast K σ) (he : envOf σ = e) (hs : qspecRun e ops = some (e', os)) :
    CostAt (runQOps K ops) st (qtotal e ops) := by
  induction ops generalizing st σ e e' os with
  | nil => exact CostLe.pure _ st W.thr
  | cons op ops ih =>
    simp only [qspecRun] at hs
    split at hs <;> try simp at hs
    rename_i e1 o h1
    split at hs <;> simp at hs
    rename_i e2 os2 h2
    obtain ⟨st1, σ1, r1, W1, he1, hA1⟩ := qstep_refines hK W hA he h1
    unfold runQOps
    simp only [qtotal, h1]
    exact (runQOp_cost hK W he h1).bind_ok r1 (ih W1 hA1 he1 h2).ret

end Cest.Deq
