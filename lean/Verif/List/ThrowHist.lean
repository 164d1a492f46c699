import Verif.Core.Frame
import Verif.List.Refine
import Verif.List.ThrowSpec
import Verif.List.ThrowRun
/-
Lemmas for C138: operations of cest::list that throw, in a state with leaked nodes.
-/
namespace Cest.Lst
open Cest
variable {V α β : Type}

/-! ### The functions do not notice leaked nodes -/

theorem getNext_loc (p : Ptr) : Local (getNext p : LM V Ptr) := by
  cases p
  · exact Local.ub _
  · exact Local.bind (Local.getObj _) fun _ => Local.pure _
  · exact Local.bind (Local.getC _) fun _ => Local.pure _
theorem getPrev_loc (p : Ptr) : Local (getPrev p : LM V Ptr) := by
  cases p
  · exact Local.ub _
  · exact Local.bind (Local.getObj _) fun _ => Local.pure _
  · exact Local.bind (Local.getC _) fun _ => Local.pure _
theorem setNext_loc (p q : Ptr) : Local (setNext p q : LM V Unit) := by
  cases p
  · exact Local.ub _
  · exact Local.bind (Local.getObj _) fun _ => Local.setObj _ _
  · exact Local.bind (Local.getC _) fun _ => Local.setC _ _
theorem setPrev_loc (p q : Ptr) : Local (setPrev p q : LM V Unit) := by
  cases p
  · exact Local.ub _
  · exact Local.bind (Local.getObj _) fun _ => Local.setObj _ _
  · exact Local.bind (Local.getC _) fun _ => Local.setC _ _
theorem getVal_loc (p : Ptr) : Local (getVal p : LM V V) := by
  cases p
  · exact Local.ub _
  · exact Local.ub _
  · refine Local.bind (Local.getC _) fun c => ?_
    split
    · exact Local.pure _
    · exact Local.ub _
theorem setVal_loc (p : Ptr) (v : V) : Local (setVal p v : LM V Unit) := by
  cases p
  · exact Local.ub _
  · exact Local.ub _
  · refine Local.bind (Local.getC _) fun c => ?_
    split
    · exact Local.bind (Local.tick _) fun _ => Local.setC _ _
    · exact Local.ub _
theorem destroyVal_loc (p : Ptr) : Local (destroyVal p : LM V Unit) := by
  cases p
  · exact Local.ub _
  · exact Local.ub _
  · refine Local.bind (Local.getC _) fun c => ?_
    split
    · exact Local.setC _ _
    · exact Local.ub _
theorem freeNode_loc (p : Ptr) : Local (freeNode p : LM V Unit) := by
  cases p
  · exact Local.ub _
  · exact Local.ub _
  · refine Local.bind (Local.getC _) fun c => ?_
    split
    · exact Local.ub _
    · exact Local.freeC _
theorem constructNode_loc (a : Nat) (v : V) : Local (constructNode a v : LM V Unit) := by
  refine Local.bind (Local.getC _) fun c => ?_
  split
  · exact Local.ub _
  · exact Local.bind (Local.tick _) fun _ => Local.setC _ _
theorem getIt_loc (its : Its) (k : Nat) : Local (getIt its k : LM V Ptr) := by
  unfold getIt
  cases its k with
  | none => exact Local.ub _
  | some p => exact Local.pure p

/-- Code without loops. -/
macro "loc" : tactic => `(tactic| repeat (first
  | exact Local.pure _ | exact Local.ub _ | exact Local.timeout
  | exact Local.getObj _ | exact Local.setObj _ _ | exact Local.newObj _ _ | exact Local.delObj _
  | exact Local.allocC _
  | exact getNext_loc _ | exact getPrev_loc _ | exact setNext_loc _ _ | exact setPrev_loc _ _
  | exact getVal_loc _ | exact setVal_loc _ _ | exact destroyVal_loc _ | exact freeNode_loc _
  | exact constructNode_loc _ _ | exact getIt_loc _ _
  | assumption
  | refine Local.bind ?_ (fun _ => ?_)
  | refine Local.ite ?_ ?_
  | split))

theorem insert_loc (x : Nat) (p : Ptr) (v : V) : Local (insert x p v) := by
  unfold insert allocNode; loc
theorem erase_loc (x : Nat) (p : Ptr) : Local (erase x p : LM V Ptr) := by
  unfold erase unhook; loc
theorem pushBack_loc (x : Nat) (v : V) : Local (pushBack x v) := by
  unfold pushBack end_
  refine Local.bind (by loc) fun e => ?_
  have := insert_loc x e v
  loc
theorem clearLoop_loc (x : Nat) : ∀ (f : Nat) (p : Ptr), Local (clearLoop x f p : LM V Unit)
  | 0, _ => Local.timeout
  | f+1, p => by
    unfold clearLoop
    refine Local.ite (Local.pure _) (Local.bind (getNext_loc _) fun nx => ?_)
    have := clearLoop_loc x f nx
    loc
theorem clear_loc (f x : Nat) : Local (clear f x : LM V Unit) := by
  unfold clear
  refine Local.bind (getNext_loc _) fun p => ?_
  have := clearLoop_loc (V := V) x f p
  loc
theorem dtor_loc (f x : Nat) : Local (dtor f x : LM V Unit) :=
  Local.bind (clear_loc f x) fun _ => Local.delObj _
theorem copyLoop_loc (x y : Nat) : ∀ (f : Nat) (p : Ptr), Local (copyLoop x y f p : LM V Unit)
  | 0, _ => Local.timeout
  | f+1, p => by
    unfold copyLoop
    refine Local.bind (by unfold end_; loc) fun e => Local.ite (Local.pure _) ?_
    refine Local.bind (getVal_loc _) fun v => Local.bind (pushBack_loc _ _) fun _ => Local.bind (getNext_loc _) fun q => ?_
    exact copyLoop_loc x y f q
theorem walk_loc (x : Nat) : ∀ (f : Nat) (p : Ptr), Local (walk x f p : LM V (List V))
  | 0, _ => Local.timeout
  | f+1, p => by
    unfold walk
    refine Local.bind (by unfold end_; loc) fun e => Local.ite (Local.pure _) ?_
    refine Local.bind (getVal_loc _) fun v => Local.bind (getNext_loc _) fun q => ?_
    exact Local.bind (walk_loc x f q) fun _ => Local.pure _
theorem walkBack_loc (x : Nat) : ∀ (f : Nat) (p : Ptr), Local (walkBack x f p : LM V (List V))
  | 0, _ => Local.timeout
  | f+1, p => by
    unfold walkBack
    refine Local.bind (getNext_loc _) fun e => Local.ite (Local.pure _) ?_
    refine Local.bind (getPrev_loc _) fun q => Local.bind (getVal_loc _) fun v => ?_
    exact Local.bind (walkBack_loc x f q) fun _ => Local.pure _

theorem runOp_loc (fuel : Nat) (its : Its) (op : Op V) : Local (runOp fuel its op) := by
  have hi := fun x p => insert_loc (V := V) x p
  cases op <;> simp only [runOp]
  case new => unfold ctor; loc
  case newCopy x y =>
    refine Local.bind ?_ fun _ => Local.pure _
    unfold copyCtor
    refine Local.bind (by unfold ctor; loc) fun _ => Local.onThrow ?_ (dtor_loc _ _)
    exact Local.bind (getNext_loc _) fun b => copyLoop_loc _ _ _ _
  case assign x y =>
    refine Local.bind ?_ fun _ => Local.pure _
    unfold assign
    refine Local.bind (clear_loc _ _) fun _ => ?_
    exact Local.bind (getNext_loc _) fun b => copyLoop_loc _ _ _ _
  case destroy x => exact Local.bind (dtor_loc _ _) fun _ => Local.pure _
  case clear x => exact Local.bind (clear_loc _ _) fun _ => Local.pure _
  case pushBack x v => exact Local.bind (pushBack_loc _ _) fun _ => Local.pure _
  case pushFront x v =>
    refine Local.bind ?_ fun _ => Local.pure _
    exact Local.bind (getNext_loc _) fun b => Local.bind (insert_loc _ _ _) fun _ => Local.pure _
  case emplaceBack x v =>
    refine Local.bind ?_ fun _ => Local.pure _
    unfold emplaceBack back deref dec end_
    refine Local.bind (by loc) fun b => Local.bind (insert_loc _ _ _) fun _ => by loc
  case emplaceFront x v =>
    refine Local.bind ?_ fun _ => Local.pure _
    unfold emplaceFront front deref begin_
    refine Local.bind (by loc) fun b => Local.bind (insert_loc _ _ _) fun _ => by loc
  case popBack x =>
    refine Local.bind ?_ fun _ => Local.pure _
    exact Local.bind (getPrev_loc _) fun b => Local.bind (erase_loc _ _) fun _ => Local.pure _
  case popFront x =>
    refine Local.bind ?_ fun _ => Local.pure _
    exact Local.bind (getNext_loc _) fun b => Local.bind (erase_loc _ _) fun _ => Local.pure _
  case insert x k v j =>
    exact Local.bind (getIt_loc _ _) fun b => Local.bind (insert_loc _ _ _) fun _ => Local.pure _
  case emplace x k v j =>
    exact Local.bind (getIt_loc _ _) fun b => Local.bind (insert_loc _ _ _) fun _ => Local.pure _
  case erase x k j =>
    exact Local.bind (getIt_loc _ _) fun b => Local.bind (erase_loc _ _) fun _ => Local.pure _
  case toList x =>
    refine Local.bind ?_ fun _ => Local.pure _
    exact Local.bind (getNext_loc _) fun b => walk_loc _ _ _
  case toListRev x =>
    refine Local.bind ?_ fun _ => Local.pure _
    exact Local.bind (by unfold end_; loc) fun b => walkBack_loc _ _ _
  all_goals (try simp only [begin_, end_, inc, dec, deref, size, empty, front, back]); loc

/-! ### Functions that cannot throw -/

theorem getNext_q (p : Ptr) : Quiet (getNext p : LM V Ptr) := by
  cases p
  · exact Quiet.ub _
  · exact Quiet.bind (Quiet.getObj _) fun _ => Quiet.pure _
  · exact Quiet.bind (Quiet.getC _) fun _ => Quiet.pure _
theorem getPrev_q (p : Ptr) : Quiet (getPrev p : LM V Ptr) := by
  cases p
  · exact Quiet.ub _
  · exact Quiet.bind (Quiet.getObj _) fun _ => Quiet.pure _
  · exact Quiet.bind (Quiet.getC _) fun _ => Quiet.pure _
theorem setNext_q (p q : Ptr) : Quiet (setNext p q : LM V Unit) := by
  cases p
  · exact Quiet.ub _
  · exact Quiet.bind (Quiet.getObj _) fun _ => Quiet.setObj _ _
  · exact Quiet.bind (Quiet.getC _) fun _ => Quiet.setC _ _
theorem setPrev_q (p q : Ptr) : Quiet (setPrev p q : LM V Unit) := by
  cases p
  · exact Quiet.ub _
  · exact Quiet.bind (Quiet.getObj _) fun _ => Quiet.setObj _ _
  · exact Quiet.bind (Quiet.getC _) fun _ => Quiet.setC _ _
theorem getVal_q (p : Ptr) : Quiet (getVal p : LM V V) := by
  cases p
  · exact Quiet.ub _
  · exact Quiet.ub _
  · refine Quiet.bind (Quiet.getC _) fun c => ?_
    split
    · exact Quiet.pure _
    · exact Quiet.ub _
theorem destroyVal_q (p : Ptr) : Quiet (destroyVal p : LM V Unit) := by
  cases p
  · exact Quiet.ub _
  · exact Quiet.ub _
  · refine Quiet.bind (Quiet.getC _) fun c => ?_
    split
    · exact Quiet.setC _ _
    · exact Quiet.ub _
theorem freeNode_q (p : Ptr) : Quiet (freeNode p : LM V Unit) := by
  cases p
  · exact Quiet.ub _
  · exact Quiet.ub _
  · refine Quiet.bind (Quiet.getC _) fun c => ?_
    split
    · exact Quiet.ub _
    · exact Quiet.freeC _
theorem getIt_q (its : Its) (k : Nat) : Quiet (getIt its k : LM V Ptr) := by
  unfold getIt
  cases its k with
  | none => exact Quiet.ub _
  | some p => exact Quiet.pure p

/-- Code without loops. -/
macro "qui" : tactic => `(tactic| repeat (first
  | exact Quiet.pure _ | exact Quiet.ub _ | exact Quiet.timeout
  | exact Quiet.getObj _ | exact Quiet.setObj _ _ | exact Quiet.newObj _ _ | exact Quiet.delObj _
  | exact getNext_q _ | exact getPrev_q _ | exact setNext_q _ _ | exact setPrev_q _ _
  | exact getVal_q _ | exact destroyVal_q _ | exact freeNode_q _ | exact getIt_q _ _
  | assumption
  | refine Quiet.bind ?_ (fun _ => ?_)
  | refine Quiet.ite ?_ ?_
  | split))

theorem erase_q (x : Nat) (p : Ptr) : Quiet (erase x p : LM V Ptr) := by
  unfold erase unhook; qui
theorem clearLoop_q (x : Nat) : ∀ (f : Nat) (p : Ptr), Quiet (clearLoop x f p : LM V Unit)
  | 0, _ => Quiet.timeout
  | f+1, p => by
    unfold clearLoop
    refine Quiet.ite (Quiet.pure _) (Quiet.bind (getNext_q _) fun nx => ?_)
    have := clearLoop_q x f nx
    qui
theorem clear_q (f x : Nat) : Quiet (clear f x : LM V Unit) := by
  unfold clear
  refine Quiet.bind (getNext_q _) fun p => ?_
  have := clearLoop_q (V := V) x f p
  qui
theorem dtor_q (f x : Nat) : Quiet (dtor f x : LM V Unit) :=
  Quiet.bind (clear_q f x) fun _ => Quiet.delObj _
theorem walk_q (x : Nat) : ∀ (f : Nat) (p : Ptr), Quiet (walk x f p : LM V (List V))
  | 0, _ => Quiet.timeout
  | f+1, p => by
    unfold walk
    refine Quiet.bind (by unfold end_; qui) fun e => Quiet.ite (Quiet.pure _) ?_
    refine Quiet.bind (getVal_q _) fun v => Quiet.bind (getNext_q _) fun q => ?_
    exact Quiet.bind (walk_q x f q) fun _ => Quiet.pure _
theorem walkBack_q (x : Nat) : ∀ (f : Nat) (p : Ptr), Quiet (walkBack x f p : LM V (List V))
  | 0, _ => Quiet.timeout
  | f+1, p => by
    unfold walkBack
    refine Quiet.bind (getNext_q _) fun e => Quiet.ite (Quiet.pure _) ?_
    refine Quiet.bind (getPrev_q _) fun q => Quiet.bind (getVal_q _) fun v => ?_
    exact Quiet.bind (walkBack_q x f q) fun _ => Quiet.pure _

/-! ### Functions that create one element -/

/-- Storage for a node, without a value. -/
def raw : Cell V := ⟨.null, .null, none⟩
/-- One lost node. -/
def one (a : Nat) : Nat → Option (Cell V) := fun b => if b = a then some raw else none
/-- The state in which a new node was allocated and lost. -/
def lose (st : LSt V) : LSt V := { st with next := st.next + 1 }

/-- `m` allocates a node, copies the value into it, and after that cannot throw. -/
def Two (m : LM V α) : Prop := ∀ (st st' : LSt V) (a : α), st.thr = none → m st = .ok a st' →
  st'.thr = none ∧ m { st with thr := some 0 } = .throw .badAlloc st ∧
  m { st with thr := some 1 } = .throw .elem ((lose st).ext (one st.next)) ∧
  ∀ k, m { st with thr := some (k+2) } = .ok a { st' with thr := some k }

theorem thr_eq {st : LSt V} (h : st.thr = none) : { st with thr := none } = st := by cases st; simp_all

theorem Two.post {m : LM V α} {f : α → LM V β} (hm : Two m)
    (hf : ∀ a, Quiet (f a)) : Two (m >>= f) := by
  intro st st' b ht h
  simp only [M.bind_apply] at h
  cases hr : m st with
  | ok a s1 =>
    rw [hr] at h
    obtain ⟨hn, h0, h1, h2⟩ := hm st s1 a ht hr
    refine ⟨((hf a).ok hn h none).1, by simp only [M.bind_apply, h0], by simp only [M.bind_apply, h1], fun k => ?_⟩
    simp only [M.bind_apply, h2]
    exact ((hf a).ok hn h _).2
  | throw e s => rw [hr] at h; cases h
  | ub u => rw [hr] at h; cases h
  | timeout => rw [hr] at h; cases h

/-- `q` only reads. -/
def Reads (q : LM V α) : Prop := ∀ st : LSt V, (∃ u, q st = .ub u) ∨
  ∃ a, q st = .ok a st ∧ ∀ t, q { st with thr := t } = .ok a { st with thr := t }

theorem Two.pre {q : LM V β} {f : β → LM V α} (hq : Reads q) (hf : ∀ b, Two (f b)) : Two (q >>= f) := by
  intro st st' a ht h
  rcases hq st with ⟨u, hu⟩ | ⟨b, h0, h1⟩
  · simp [hu] at h
  · simp only [M.bind_apply, h0] at h
    simpa only [M.bind_apply, h1] using hf b st st' a ht h

theorem end_reads (x : Nat) : Reads (end_ x : LM V Ptr) := by
  intro st
  cases ho : st.objs x with
  | none => exact Or.inl ⟨.noObject, by simp [end_, getObj, ho]⟩
  | some o => exact Or.inr ⟨.head x, by simp [end_, getObj, ho]⟩
theorem begin_reads (x : Nat) : Reads (begin_ x : LM V Ptr) := by
  intro st
  cases ho : st.objs x with
  | none => exact Or.inl ⟨.noObject, by simp [begin_, getNext, getObj, ho]⟩
  | some o => exact Or.inr ⟨o.next, by simp [begin_, getNext, getObj, ho]⟩
theorem getIt_reads (its : Its) (k : Nat) : Reads (getIt its k : LM V Ptr) := by
  intro st
  cases ho : its k with
  | none => exact Or.inl ⟨.noObject, by simp [getIt, ho]⟩
  | some o => exact Or.inr ⟨o, by simp [getIt, ho]⟩

theorem lose_ext (st : LSt V) (ht : st.thr = none) : (lose st).ext (one st.next) =
    ⟨st.objs, upd st.mem st.next (some raw), st.next + 1, none⟩ := by
  simp only [lose, St.ext, ht]
  congr 1
  funext b
  simp only [one, upd_apply]
  split <;> simp_all

/-- What `insert` does with the new node. -/
def hook (x : Nat) (p : Ptr) (n : Nat) : LM V Ptr := do
  setNext (.node n) p
  let pp ← getPrev p
  setPrev (.node n) pp
  let pp ← getPrev p
  setNext pp (.node n)
  setPrev p (.node n)
  let o ← getObj x
  setObj x { o with size := o.size + 1 }
  pure (.node n)

theorem insert_eq (x : Nat) (p : Ptr) (v : V) : insert x p v = (do
    let n ← allocNode
    constructNode n v
    hook x p n) := rfl

theorem hook_q (x : Nat) (p : Ptr) (n : Nat) : Quiet (hook x p n : LM V Ptr) := by
  unfold hook; qui

theorem insert_thr (x : Nat) (p : Ptr) (v : V) (st st' : LSt V) (a : Ptr) (ht : st.thr = none)
    (h : insert x p v st = .ok a st') : st'.thr = none := by
  rw [insert_eq] at h
  simp only [M.bind_apply, allocNode, allocC_none ht, constructNode, getC] at h
  simp [tick, ht, setC, upd_upd] at h
  exact ((hook_q x p st.next).ok (by rfl) h none).1

theorem insert_two (x : Nat) (p : Ptr) (v : V) : Two (insert x p v) := by
  intro st st' q ht h
  have ha : ∀ k, (allocNode : LM V Nat) { st with thr := some (k+1) } =
      .ok st.next ⟨st.objs, upd st.mem st.next (some raw), st.next + 1, some k⟩ := by
    intro k; simp [allocNode, allocC, tick, raw]
  have ha' : (allocNode : LM V Nat) st =
      .ok st.next ⟨st.objs, upd st.mem st.next (some raw), st.next + 1, none⟩ := by
    simp [allocNode, allocC, tick, raw, ht]
  refine ⟨insert_thr x p v st st' q ht h, ?_, ?_, fun k => ?_⟩
  · simp [insert_eq, allocNode, allocC, tick, thr_eq ht]
  · simp only [insert_eq, M.bind_apply, ha, lose_ext st ht]
    simp [constructNode, getC, tick, raw]
  · simp only [insert_eq, M.bind_apply, ha, ha'] at h ⊢
    have hc : ∀ t t', (tick .elem : LM V Unit) ⟨st.objs, upd st.mem st.next (some raw), st.next + 1, t⟩ =
        .ok () ⟨st.objs, upd st.mem st.next (some raw), st.next + 1, t'⟩ →
        constructNode st.next v ⟨st.objs, upd st.mem st.next (some raw), st.next + 1, t⟩ =
        .ok () ⟨st.objs, upd st.mem st.next (some ⟨.node st.next, .node st.next, some v⟩), st.next + 1, t'⟩ := by
      intro t t' hk
      simp [constructNode, getC, raw] at hk ⊢
      simp [hk, setC, upd_upd]
    rw [hc none none (by simp [tick])] at h
    rw [hc _ (some k) (by simp [tick])]
    exact ((hook_q x p st.next).ok (by rfl) h (some k)).2

theorem emplace_two (x : Nat) (p : Ptr) (v : V) : Two (emplace x p v) := insert_two x p v
theorem pushBack_two (x : Nat) (v : V) : Two (pushBack x v) :=
  Two.pre (end_reads x) fun _ => Two.post (insert_two _ _ _) fun _ => Quiet.pure _
theorem pushFront_two (x : Nat) (v : V) : Two (pushFront x v) :=
  Two.pre (begin_reads x) fun _ => Two.post (insert_two _ _ _) fun _ => Quiet.pure _
theorem emplaceBack_two (x : Nat) (v : V) : Two (emplaceBack x v) :=
  Two.pre (end_reads x) fun _ => Two.post (emplace_two _ _ _) fun _ => by
    unfold back deref dec end_; qui
theorem emplaceFront_two (x : Nat) (v : V) : Two (emplaceFront x v) :=
  Two.pre (begin_reads x) fun _ => Two.post (emplace_two _ _ _) fun _ => by
    unfold front deref begin_; qui

/-! ### Worlds with lost nodes -/

theorem LW.lose {st : LSt V} {σ : Nat → Option (List (Nat × V))} (W : LW st σ) : LW (lose st) σ :=
  ⟨W.dom, W.rep, W.disj, W.own, fun a ha => W.fresh a (Nat.le_of_succ_le ha), W.thr⟩

theorem lost_one {st : LSt V} {σ : Nat → Option (List (Nat × V))} (W : LW st σ) :
    Lost (one st.next) (lose st) 1 := by
  refine ⟨fun a ha => ?_, [st.next], by simp, rfl, fun a => ?_⟩
  · have : a = st.next := by
      apply Classical.byContradiction
      intro hc
      exact ha (by simp [one, hc])
    subst this
    exact ⟨W.fresh _ (Nat.le_refl _), Nat.lt_succ_self _⟩
  · simp [one]

/-- Agreement with the specification apart from `n` lost nodes. -/
def AgreeT (st : LSt V) (its : Its) (e : Env V) (n : Nat) : Prop :=
  ∃ h s0, st = s0.ext h ∧ Agree s0 its e ∧ Lost h s0 n

/-! ### Copying -/

theorem copyLoop_step {st : LSt V} {σ : Nat → Option (List (Nat × V))} (W : LW st σ) {x y a : Nat} {v : V}
    {t1 t2 : List (Nat × V)} (hy : σ y = some (t1 ++ (a, v) :: t2)) (f : Nat) (t : Option Nat) :
    copyLoop x y (f+1) (.node a) { st with thr := t } = (do
      pushBack x v
      let it ← inc (.node a)
      copyLoop x y f it : LM V Unit) { st with thr := t } := by
  have he : end_ y { st with thr := t } = .ok (.head y) { st with thr := t } :=
    ((show Quiet (end_ y : LM V Ptr) by unfold end_; qui).ok W.thr (end_spec W hy) t).2
  have hd : deref (.node a) { st with thr := t } = .ok v { st with thr := t } :=
    ((getVal_q _).ok W.thr (deref_spec W hy) t).2
  conv => lhs; unfold copyLoop
  simp only [M.bind_apply, he]
  rw [if_neg (by simp)]
  simp only [M.bind_apply, hd]

theorem copyLoop_throw {y : Nat} {t1 t2 : List (Nat × V)} {x : Nat} (hxy : x ≠ y) :
    ∀ {st : LSt V} {σ : Nat → Option (List (Nat × V))} {s : List (Nat × V)} {k : Nat}, LW st σ →
    σ x = some s → σ y = some (t1 ++ t2) → k < 2 * t2.length →
    ∃ ex h s0, (∀ fuel, t2.length < fuel →
        copyLoop x y fuel (fstP y t2) { st with thr := some k } = .throw ex (s0.ext h)) ∧
      LW s0 (upd σ x (some (s ++ number st.next ((t2.map Prod.snd).take (k / 2))))) ∧
      s0.next = st.next + (k + 1) / 2 ∧ Lost h s0 (k % 2) := by
  induction t2 generalizing t1 with
  | nil => intro st σ s k W hx hy hk; simp at hk
  | cons e t2 ih =>
    obtain ⟨a, v⟩ := e
    intro st σ s k W hx hy hk
    obtain ⟨st1, h1, W1, hn1⟩ := pushBack_spec W hx v
    obtain ⟨_, g0, g1, g2⟩ := pushBack_two x v st st1 () W.thr h1
    have step := copyLoop_step (x := x) W hy
    match k, hk with
    | 0, _ =>
      refine ⟨.badAlloc, noGarbage, st, fun fuel hf => ?_, ?_, rfl, lost_none st⟩
      · obtain ⟨f, rfl⟩ : ∃ f, fuel = f + 1 := ⟨fuel - 1, by omega⟩
        rw [fstP_cons, step, M.bind_apply, g0]; rfl
      · simpa [number, upd_eq_self hx] using W
    | 1, _ =>
      refine ⟨.elem, one st.next, lose st, fun fuel hf => ?_, ?_, rfl, lost_one W⟩
      · obtain ⟨f, rfl⟩ : ∃ f, fuel = f + 1 := ⟨fuel - 1, by omega⟩
        rw [fstP_cons, step, M.bind_apply, g1]
      · simpa [number, upd_eq_self hx] using LW.lose W
    | k+2, hk =>
      have hy1 : (upd σ x (some (s ++ [(st.next, v)]))) y = some (t1 ++ (a, v) :: t2) := by
        simp [Ne.symm hxy, hy]
      obtain ⟨ex, h, s0, h2, W2, hn2, hl⟩ := ih (t1 := t1 ++ [(a, v)]) (k := k) W1 (upd_same _ _ _)
        (by rw [hy1]; simp) (by simp at hk; omega)
      refine ⟨ex, h, s0, fun fuel hf => ?_, ?_, by rw [hn2, hn1]; omega, by simpa using hl⟩
      · obtain ⟨f, rfl⟩ : ∃ f, fuel = f + 1 := ⟨fuel - 1, by omega⟩
        rw [fstP_cons, step, M.bind_apply, g2]
        simp only [M.bind_apply, ((getNext_q (.node a)).ok W1.thr (inc_spec W1 hy1) (some k)).2, inc]
        exact h2 f (by simp at hf; omega)
      · rw [upd_upd, hn1] at W2
        rw [show (k+2)/2 = k/2 + 1 by omega]
        simpa [number] using W2

theorem copyLoop_ok {y : Nat} {t1 t2 : List (Nat × V)} {x : Nat} (hxy : x ≠ y) :
    ∀ {st : LSt V} {σ : Nat → Option (List (Nat × V))} {s : List (Nat × V)} {k : Nat}, LW st σ →
    σ x = some s → σ y = some (t1 ++ t2) → 2 * t2.length ≤ k →
    ∃ st', (∀ fuel, t2.length < fuel →
        copyLoop x y fuel (fstP y t2) { st with thr := some k } = .ok () { st' with thr := some (k - 2 * t2.length) }) ∧
      LW st' (upd σ x (some (s ++ number st.next (t2.map Prod.snd)))) ∧
      st'.next = st.next + t2.length := by
  induction t2 generalizing t1 with
  | nil =>
    intro st σ s k W hx hy hk
    refine ⟨st, fun fuel hf => ?_, ?_, rfl⟩
    · obtain ⟨f, rfl⟩ : ∃ f, fuel = f + 1 := ⟨fuel - 1, by simp at hf; omega⟩
      unfold copyLoop
      have := ((show Quiet (end_ y : LM V Ptr) by unfold end_; qui).ok W.thr (end_spec W hy) (some k)).2
      simp [this, fstP]
    · simpa [number, upd_eq_self hx] using W
  | cons e t2 ih =>
    obtain ⟨a, v⟩ := e
    intro st σ s k W hx hy hk
    obtain ⟨st1, h1, W1, hn1⟩ := pushBack_spec W hx v
    obtain ⟨_, g0, g1, g2⟩ := pushBack_two x v st st1 () W.thr h1
    have step := copyLoop_step (x := x) W hy
    obtain ⟨k, rfl⟩ : ∃ k', k = k' + 2 := ⟨k - 2, by simp at hk; omega⟩
    have hy1 : (upd σ x (some (s ++ [(st.next, v)]))) y = some (t1 ++ (a, v) :: t2) := by
      simp [Ne.symm hxy, hy]
    obtain ⟨st2, h2, W2, hn2⟩ := ih (t1 := t1 ++ [(a, v)]) (k := k) W1 (upd_same _ _ _)
      (by rw [hy1]; simp) (by simp at hk; omega)
    refine ⟨st2, fun fuel hf => ?_, ?_, by rw [hn2, hn1, List.length_cons]; omega⟩
    · obtain ⟨f, rfl⟩ : ∃ f, fuel = f + 1 := ⟨fuel - 1, by omega⟩
      rw [fstP_cons, step]
      simp only [M.bind_apply, g2, inc, ((getNext_q (.node a)).ok W1.thr (inc_spec W1 hy1) (some k)).2]
      rw [h2 f (by simp at hf; omega)]
      congr 3
      simp; omega
    · rw [upd_upd, hn1] at W2
      simpa [number] using W2

/-! ### One operation -/

/-- An operation that cannot throw. -/
theorem quiet_step {st : LSt V} {its : Its} {e e' : Env V} {op : Op V} {o : Out V}
    (A : Agree st its e) (h : specStep e op = some (e', o)) (hq : ∀ fuel, Quiet (runOp fuel its op)) (k : Nat) :
    ∃ F st' its' t, (∀ fuel, F ≤ fuel → runOp fuel its op { st with thr := some k } = .ok (its', o) { st' with thr := t }) ∧
      Agree st' its' e' := by
  obtain ⟨F, st', its', h1, A'⟩ := step_refines A h
  exact ⟨F, st', its', some k, fun f hf => ((hq f).ok A.world.thr (h1 f hf) (some k)).2, A'⟩

/-- What a step with countdown `k` does, when it throws and when not. -/
def StepT (st : LSt V) (its : Its) (e e' : Env V) (op : Op V) (o : Out V) (k : Nat) : Prop :=
  match specThrow e op k with
  | none => ∃ F st' its' t,
      (∀ fuel, F ≤ fuel → runOp fuel its op { st with thr := some k } = .ok (its', o) { st' with thr := t }) ∧
      Agree st' its' e'
  | some (e'', n) => ∃ F ex h s0,
      (∀ fuel, F ≤ fuel → runOp fuel its op { st with thr := some k } = .throw ex (s0.ext h)) ∧
      Agree s0 its e'' ∧ Lost h s0 n

theorem Agree.lose {st : LSt V} {its : Its} {e : Env V} (A : Agree st its e) : Agree (lose st) its (e.bump 1) :=
  ⟨LW.lose A.world, A.its, by simp [Lst.lose, Env.bump, A.next]⟩

/-- An operation that creates one element. -/
theorem two_step {st : LSt V} {its : Its} {e e' : Env V} {op : Op V} {o : Out V}
    (A : Agree st its e) (h : specStep e op = some (e', o)) (hq : ∀ fuel, Two (runOp fuel its op)) (k : Nat)
    (hs : specThrow e op k = if k = 0 then some (e, 0) else if k = 1 then some (e.bump 1, 1) else none) :
    StepT st its e e' op o k := by
  obtain ⟨F, st', its', h1, A'⟩ := step_refines A h
  unfold StepT
  rw [hs]
  match k with
  | 0 => exact ⟨F, .badAlloc, noGarbage, st, fun f hf => (hq f _ _ _ A.world.thr (h1 f hf)).2.1, A, lost_none st⟩
  | 1 => exact ⟨F, .elem, one st.next, lose st, fun f hf => (hq f _ _ _ A.world.thr (h1 f hf)).2.2.1, A.lose,
      lost_one A.world⟩
  | k+2 => exact ⟨F, st', its', some k, fun f hf => (hq f _ _ _ A.world.thr (h1 f hf)).2.2.2 k, A'⟩

theorem setVal_arm {st st' : LSt V} {p : Ptr} {v : V} (ht : st.thr = none) (h : setVal p v st = .ok () st') :
    setVal p v { st with thr := some 0 } = .throw .elem st ∧
    ∀ k, setVal p v { st with thr := some (k+1) } = .ok () { st' with thr := some k } := by
  cases p with
  | null => simp [setVal] at h
  | head => simp [setVal] at h
  | node a =>
    simp only [setVal, M.bind_apply, getC] at h ⊢
    cases hm : st.mem a with
    | none => simp [hm] at h
    | some c =>
      cases hv : c.val with
      | none => simp [hm, hv] at h
      | some w =>
        simp [hm, hv, tick, ht, setC] at h
        subst h
        refine ⟨?_, fun k => ?_⟩
        · simp [hv, tick, thr_eq ht]
        · simp [hv, tick, setC, hm]

theorem number_length (i : Nat) (l : List V) : (number i l).length = l.length := by
  induction l generalizing i with
  | nil => rfl
  | cons v l ih => simp [number, ih]

theorem runOp_throws {st : LSt V} {its : Its} {e e' : Env V} {op : Op V} {o : Out V}
    (A : Agree st its e) (h : specStep e op = some (e', o)) (k : Nat) : StepT st its e e' op o k := by
  have W := A.world
  cases op with
  | pushBack x v => exact two_step A h (fun f => Two.post (pushBack_two x v) fun _ => Quiet.pure _) k rfl
  | pushFront x v => exact two_step A h (fun f => Two.post (pushFront_two x v) fun _ => Quiet.pure _) k rfl
  | emplaceBack x v => exact two_step A h (fun f => Two.post (emplaceBack_two x v) fun _ => Quiet.pure _) k rfl
  | emplaceFront x v => exact two_step A h (fun f => Two.post (emplaceFront_two x v) fun _ => Quiet.pure _) k rfl
  | insert x i v j =>
    exact two_step A h (fun f => Two.pre (getIt_reads its i) fun _ =>
      Two.post (insert_two _ _ _) fun _ => Quiet.pure _) k rfl
  | emplace x i v j =>
    exact two_step A h (fun f => Two.pre (getIt_reads its i) fun _ =>
      Two.post (emplace_two _ _ _) fun _ => Quiet.pure _) k rfl
  | set x i v =>
    obtain ⟨F, st', its', h1, A'⟩ := step_refines A h
    have h2 := h1 F (Nat.le_refl _)
    simp only [runOp, M.bind_apply] at h2
    rcases getIt_reads (V := V) its i st with ⟨u, hu⟩ | ⟨p, hp, hpt⟩
    · simp [hu] at h2
    · simp only [hp] at h2
      cases hs : setVal p v st with
      | ok a s1 =>
        rw [hs] at h2
        simp at h2
        obtain ⟨⟨rfl, rfl⟩, rfl⟩ := h2
        obtain ⟨g0, g1⟩ := setVal_arm W.thr hs
        unfold StepT
        match k with
        | 0 =>
          exact ⟨0, .elem, noGarbage, st, fun f _ => by simp only [runOp, M.bind_apply, hpt, g0]; rfl, A, lost_none st⟩
        | k+1 =>
          exact ⟨0, s1, its, some k, fun f _ => by simp only [runOp, M.bind_apply, hpt, g1]; rfl, A'⟩
      | throw ex s1 => rw [hs] at h2; cases h2
      | ub u => rw [hs] at h2; cases h2
      | timeout => rw [hs] at h2; cases h2
  | newCopy x y =>
    simp only [specStep] at h; split at h <;> simp at h
    rename_i t hx hy; obtain ⟨rfl, rfl⟩ := h
    have hxy : x ≠ y := by rintro rfl; rw [hx] at hy; cases hy
    obtain ⟨st1, h1, W1, hn1⟩ := ctor_spec W hx
    have hc := ((show Quiet (ctor x : LM V Unit) by unfold ctor; qui).ok W.thr h1 (some k)).2
    have hy1 : (upd e.lists x (some [])) y = some ([] ++ t) := by simp [Ne.symm hxy, hy]
    have hb := ((getNext_q (.head y)).ok W1.thr (begin_spec W1 hy1) (some k)).2
    unfold StepT
    simp only [specThrow, hy]
    by_cases hk : k < 2 * t.length
    · rw [if_pos hk]
      obtain ⟨ex, hp, s0, g1, W2, hn2, hl⟩ := copyLoop_throw hxy W1 (upd_same _ _ _) hy1 hk
      obtain ⟨s2, g2, W3, hn3⟩ := dtor_spec W2 (upd_same _ _ _)
      rw [upd_upd] at W3
      have hd : ∀ f, 2 * t.length + 2 ≤ f → dtor f x s0 = .ok () s2 := fun f hf => g2 f (by
        have : ((number st1.next ((t.map Prod.snd).take (k / 2)))).length ≤ t.length := by
          rw [number_length, List.length_take, List.length_map]; omega
        simp only [List.nil_append]
        omega)
      have hd' := fun f hf => (dtor_loc f x).ok hl.1 (hd f hf)
      refine ⟨2 * t.length + 2, ex, hp, s2, fun f hf => ?_, ⟨?_, A.its, ?_⟩, ⟨(hd' _ (Nat.le_refl _)).2, hl.2⟩⟩
      · have := g1 f (by omega)
        simp only [runOp, copyCtor, M.bind_apply, hc, M.onThrow, begin_, hb, List.nil_append, this, (hd' f hf).1]
      · rw [upd_upd, upd_eq_self hx] at W3; exact W3
      · rw [hn3, hn2, hn1, A.next]; rfl
    · rw [if_neg hk]
      obtain ⟨s2, g1, W2, hn2⟩ := copyLoop_ok hxy W1 (upd_same _ _ _) hy1 (by omega : 2 * t.length ≤ k)
      rw [upd_upd, hn1, A.next] at W2
      refine ⟨t.length + 1, s2, its, some (k - 2 * t.length), fun f hf => ?_, W2, A.its, ?_⟩
      · simp only [runOp, copyCtor, M.bind_apply, hc, M.onThrow, begin_, hb, List.nil_append, g1 f (by omega)]; rfl
      · rw [hn2, hn1, A.next]; rfl
  | assign x y =>
    simp only [specStep] at h; split at h <;> simp at h
    rename_i s t hx hy; obtain ⟨hxy, rfl, rfl⟩ := h
    obtain ⟨st1, h1, W1, hn1⟩ := clear_spec W hx
    have hc := fun f hf => ((clear_q f x).ok W.thr (h1 f hf) (some k)).2
    have hy1 : (upd e.lists x (some [])) y = some ([] ++ t) := by simp [Ne.symm hxy, hy]
    have hb := ((getNext_q (.head y)).ok W1.thr (begin_spec W1 hy1) (some k)).2
    unfold StepT
    simp only [specThrow, hy]
    by_cases hk : k < 2 * t.length
    · rw [if_pos hk]
      obtain ⟨ex, hp, s0, g1, W2, hn2, hl⟩ := copyLoop_throw hxy W1 (upd_same _ _ _) hy1 hk
      rw [upd_upd, hn1, A.next] at W2
      refine ⟨s.length + t.length + 1, ex, hp, s0, fun f hf => ?_, ⟨W2, A.its, ?_⟩, hl⟩
      · simp only [runOp, Lst.assign, M.bind_apply, hc f (by omega), begin_, hb, List.nil_append, g1 f (by omega)]
      · rw [hn2, hn1, A.next]; rfl
    · rw [if_neg hk]
      obtain ⟨s2, g1, W2, hn2⟩ := copyLoop_ok hxy W1 (upd_same _ _ _) hy1 (by omega : 2 * t.length ≤ k)
      rw [upd_upd, hn1, A.next] at W2
      refine ⟨s.length + t.length + 1, s2, its, some (k - 2 * t.length), fun f hf => ?_, W2, A.its, ?_⟩
      · simp only [runOp, Lst.assign, M.bind_apply, hc f (by omega), begin_, hb, List.nil_append, g1 f (by omega)]; rfl
      · rw [hn2, hn1, A.next]; rfl
  | new x => exact quiet_step A h (fun f => by simp only [runOp, ctor]; qui) k
  | destroy x => exact quiet_step A h (fun f => Quiet.bind (dtor_q _ _) fun _ => Quiet.pure _) k
  | clear x => exact quiet_step A h (fun f => Quiet.bind (clear_q _ _) fun _ => Quiet.pure _) k
  | popBack x =>
    exact quiet_step A h (fun f => Quiet.bind (Quiet.bind (getPrev_q _) fun b =>
      Quiet.bind (erase_q _ _) fun _ => Quiet.pure _) fun _ => Quiet.pure _) k
  | popFront x =>
    exact quiet_step A h (fun f => Quiet.bind (Quiet.bind (getNext_q _) fun b =>
      Quiet.bind (erase_q _ _) fun _ => Quiet.pure _) fun _ => Quiet.pure _) k
  | erase x i j =>
    exact quiet_step A h (fun f => Quiet.bind (getIt_q _ _) fun b =>
      Quiet.bind (erase_q _ _) fun _ => Quiet.pure _) k
  | toList x =>
    exact quiet_step A h (fun f => Quiet.bind (Quiet.bind (getNext_q _) fun b => walk_q _ _ _) fun _ => Quiet.pure _) k
  | toListRev x =>
    exact quiet_step A h (fun f => Quiet.bind (Quiet.bind (by unfold end_; qui) fun b => walkBack_q _ _ _)
      fun _ => Quiet.pure _) k
  | _ =>
    exact quiet_step A h (fun f => by
      simp only [runOp]
      try simp only [begin_, end_, inc, dec, deref, size, empty, front, back]
      qui) k

/-! ### Programs -/

theorem runT_refines {ops : List (Option Nat × Op V)} : ∀ {st : LSt V} {its : Its} {e e' : Env V}
    {os : List (Option (Out V))} {n m : Nat}, AgreeT st its e m → specRunT e ops = some (e', os, n) →
    ∃ F st' its', (∀ fuel, F ≤ fuel → runT fuel its ops st = .ok (its', os) st') ∧ AgreeT st' its' e' (n + m) := by
  induction ops with
  | nil =>
    intro st its e e' os n m A h
    simp only [specRunT, Option.some.injEq, Prod.mk.injEq] at h
    obtain ⟨rfl, rfl, rfl⟩ := h
    exact ⟨0, st, its, fun _ _ => rfl, by simpa using A⟩
  | cons a ops ih =>
    obtain ⟨t, op⟩ := a
    intro st its e e' os n m ⟨g, s0, hst, A, L⟩ h
    subst hst
    simp only [specRunT] at h
    cases hs : specStep e op with
    | none => rw [hs] at h; cases h
    | some r =>
      obtain ⟨e1, o⟩ := r
      rw [hs] at h
      simp only at h
      -- the operation succeeds
      have good : ∀ F s1 its1 t', (∀ fuel, F ≤ fuel → runOp fuel its op { s0 with thr := t } =
            .ok (its1, o) { s1 with thr := t' }) → Agree s1 its1 e1 →
          ((specRunT e1 ops).map fun r => (r.1, some o :: r.2.1, r.2.2)) = some (e', os, n) →
          ∃ F st' its', (∀ fuel, F ≤ fuel → runT fuel its ((t, op) :: ops) (s0.ext g) = .ok (its', os) st') ∧
            AgreeT st' its' e' (n + m) := by
        intro F s1 its1 t' h1 A1 h2
        obtain ⟨⟨e2, os2, n2⟩, h3, h4⟩ := Option.map_eq_some_iff.1 h2
        simp only [Prod.mk.injEq] at h4
        obtain ⟨rfl, rfl, rfl⟩ := h4
        have hl := fun f hf => (runOp_loc f its op).ok (L.thr t).1 (h1 f hf)
        have hthr : { ({ s1 with thr := t' }.ext g : LSt V) with thr := none } = s1.ext g := by
          simp only [St.ext, A1.world.thr]
        obtain ⟨F', st', its', h5, A5⟩ := ih (st := s1.ext g) (m := m)
          ⟨g, s1, rfl, A1, (hl F (Nat.le_refl _)).2, L.2⟩ h3
        refine ⟨F + F', st', its', fun f hf => ?_, A5⟩
        unfold runT
        have h6 := (hl f (by omega)).1
        simp only [St.ext] at h6 ⊢
        simp only [h6]
        simp only [St.ext] at hthr
        simp only [M.bind_apply]
        have h7 := h5 f (by omega)
        simp only [St.ext] at h7
        rw [A1.world.thr] at h7
        simp only [h7]
        rfl
      cases t with
      | none =>
        obtain ⟨F, s1, its1, h1, A1⟩ := step_refines A hs
        refine good F s1 its1 none (fun f hf => ?_) A1 h
        rw [thr_eq A.world.thr, thr_eq A1.world.thr]
        exact h1 f hf
      | some k =>
        have hk := runOp_throws A hs k
        unfold StepT at hk
        simp only [Option.bind_some] at h
        cases ht : specThrow e op k with
        | none =>
          rw [ht] at h hk
          obtain ⟨F, s1, its1, t', h1, A1⟩ := hk
          exact good F s1 its1 t' h1 A1 h
        | some r =>
          obtain ⟨e1', n1⟩ := r
          rw [ht] at h hk
          obtain ⟨F, ex, g1, s1, h1, A1, L1⟩ := hk
          simp only at h
          obtain ⟨⟨e2, os2, n2⟩, h3, h4⟩ := Option.map_eq_some_iff.1 h
          simp only [Prod.mk.injEq] at h4
          obtain ⟨rfl, rfl, rfl⟩ := h4
          have hl := fun f hf => (runOp_loc f its op).thrown (L.thr (some k)).1 (h1 f hf)
          have LL : Lost (plus g g1) s1 (m + n1) := Lost.plus ⟨(hl F (Nat.le_refl _)).2, L.2⟩ L1
          obtain ⟨F', st', its', h5, A5⟩ := ih (st := s1.ext (plus g g1)) (m := m + n1)
            ⟨_, s1, rfl, A1, LL⟩ h3
          refine ⟨F + F', st', its', fun f hf => ?_, by
            rw [show n1 + n2 + m = n2 + (m + n1) by omega]; exact A5⟩
          unfold runT
          have h6 := (hl f (by omega)).1
          rw [ext_ext] at h6
          have h7 := h5 f (by omega)
          simp only [St.ext] at h6 h7 ⊢
          simp only [h6, M.bind_apply]
          rw [A1.world.thr] at h7
          simp only [h7]
          rfl

end Cest.Lst
