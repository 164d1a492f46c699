import Verif.Core.NCost
import Verif.List.Refine
import Verif.List.CostSpec
/-
Lemmas for C128: what the functions of cest::list cost.
-/
namespace Cest.Lst
open Cest
variable {V : Type}

theorem getNext_cost (p : Ptr) : NCost 2 (getNext p : LM V Ptr) 0 := by
  cases p <;> unfold getNext <;> ncost0
theorem getPrev_cost (p : Ptr) : NCost 2 (getPrev p : LM V Ptr) 0 := by
  cases p <;> unfold getPrev <;> ncost0
theorem setNext_cost (p q : Ptr) : NCost 2 (setNext p q : LM V Unit) 0 := by
  cases p <;> unfold setNext <;> ncost0
theorem setPrev_cost (p q : Ptr) : NCost 2 (setPrev p q : LM V Unit) 0 := by
  cases p <;> unfold setPrev <;> ncost0
theorem getVal_cost (p : Ptr) : NCost 2 (getVal p : LM V V) 0 := by
  cases p <;> unfold getVal <;> ncost0
theorem destroyVal_cost (p : Ptr) : NCost 2 (destroyVal p : LM V Unit) 0 := by
  cases p <;> unfold destroyVal <;> ncost0
theorem freeNode_cost (p : Ptr) : NCost 2 (freeNode p : LM V Unit) 0 := by
  cases p <;> unfold freeNode <;> ncost0
theorem getIt_cost (its : Its) (k : Nat) : NCost 2 (getIt its k : LM V Ptr) 0 := by
  unfold getIt
  cases its k with
  | none => exact NCost.ub _
  | some p => exact NCost.pure p
theorem setVal_cost (p : Ptr) (v : V) : NCost 2 (setVal p v : LM V Unit) 1 := by
  cases p <;> unfold setVal
  · exact NCost.ub' _ _
  · exact NCost.ub' _ _
  · refine NCost.bind (b₁ := 0) (b₂ := 1) (NCost.getC _) (fun c => ?_)
    split
    · exact NCost.bind (b₁ := 1) (b₂ := 0) (NCost.tick _) (fun _ => NCost.setC _ _)
    · exact NCost.ub' _ _
theorem constructNode_cost (a : Nat) (v : V) : NCost 2 (constructNode a v : LM V Unit) 1 := by
  unfold constructNode
  refine NCost.bind (b₁ := 0) (b₂ := 1) (NCost.getC _) (fun c => ?_)
  split
  · exact NCost.ub' _ _
  · exact NCost.bind (b₁ := 1) (b₂ := 0) (NCost.tick _) (fun _ => NCost.setC _ _)

/-- Straight-line code of cest::list that creates no element. -/
macro "lcost" : tactic => `(tactic| repeat (first
  | exact NCost.pure _ | exact NCost.ub _ | exact NCost.timeout
  | exact NCost.getObj _ | exact NCost.setObj _ _ | exact NCost.newObj _ _ | exact NCost.delObj _
  | exact getNext_cost _ | exact getPrev_cost _ | exact setNext_cost _ _ | exact setPrev_cost _ _
  | exact getVal_cost _ | exact destroyVal_cost _ | exact freeNode_cost _ | exact getIt_cost _ _
  | assumption
  | (rename_i ih; exact ih _)
  | refine NCost.bind (b₁ := 0) (b₂ := 0) ?_ (fun _ => ?_)
  | refine NCost.ite (fun _ => ?_) (fun _ => ?_)
  | split))

theorem clearLoop_cost (x : Nat) : ∀ (f : Nat) (p : Ptr), NCost 2 (clearLoop x f p : LM V Unit) 0
  | 0, _ => NCost.timeout
  | f+1, p => by
    have ih := clearLoop_cost x f
    unfold clearLoop
    refine NCost.ite (fun _ => NCost.pure _) (fun _ => ?_)
    refine NCost.bind (b₁ := 0) (b₂ := 0) (getNext_cost _) (fun nx => ?_)
    have := ih nx
    lcost
theorem clear_cost (f x : Nat) : NCost 2 (clear f x : LM V Unit) 0 := by
  unfold clear
  refine NCost.bind (b₁ := 0) (b₂ := 0) (getNext_cost _) (fun p => ?_)
  have := clearLoop_cost (V := V) x f p
  lcost
theorem dtor_cost (f x : Nat) : NCost 2 (dtor f x : LM V Unit) 0 := by
  have := clear_cost (V := V) f x
  unfold dtor; lcost
/-- One allocation and one copy per element. -/
theorem insert_cost (x : Nat) (p : Ptr) (v : V) : NCost 2 (insert x p v) 0 := by
  unfold insert allocNode
  refine NCost.bind (b₁ := -1) (b₂ := 1) (NCost.allocC (w := 2) _) (fun n => ?_)
  refine NCost.bind (b₁ := 1) (b₂ := 0) (constructNode_cost _ _) (fun _ => ?_)
  lcost
@[inherit_doc insert_cost]
theorem emplace_cost (x : Nat) (p : Ptr) (v : V) : NCost 2 (emplace x p v) 0 := by
  unfold emplace allocNode
  refine NCost.bind (b₁ := -1) (b₂ := 1) (NCost.allocC (w := 2) _) (fun n => ?_)
  refine NCost.bind (b₁ := 1) (b₂ := 0) (constructNode_cost _ _) (fun _ => ?_)
  lcost
theorem erase_cost (x : Nat) (p : Ptr) : NCost 2 (erase x p : LM V Ptr) 0 := by
  unfold erase unhook; lcost
theorem front_cost (x : Nat) : NCost 2 (front x : LM V V) 0 := by
  unfold front begin_ deref; lcost
theorem back_cost (x : Nat) : NCost 2 (back x : LM V V) 0 := by
  unfold back end_ dec deref; lcost
theorem begin_cost (x : Nat) : NCost 2 (begin_ x : LM V Ptr) 0 := getNext_cost _
theorem end_cost (x : Nat) : NCost 2 (end_ x : LM V Ptr) 0 := by unfold end_; lcost
theorem pushBack_cost (x : Nat) (v : V) : NCost 2 (pushBack x v) 0 := by
  unfold pushBack
  exact NCost.bind (b₁ := 0) (b₂ := 0) (end_cost _) (fun _ =>
    NCost.bind (b₁ := 0) (b₂ := 0) (insert_cost _ _ _) (fun _ => NCost.pure _))
theorem pushFront_cost (x : Nat) (v : V) : NCost 2 (pushFront x v) 0 := by
  unfold pushFront
  exact NCost.bind (b₁ := 0) (b₂ := 0) (begin_cost _) (fun _ =>
    NCost.bind (b₁ := 0) (b₂ := 0) (insert_cost _ _ _) (fun _ => NCost.pure _))
theorem emplaceFront_cost (x : Nat) (v : V) : NCost 2 (emplaceFront x v) 0 := by
  unfold emplaceFront
  exact NCost.bind (b₁ := 0) (b₂ := 0) (begin_cost _) (fun _ =>
    NCost.bind (b₁ := 0) (b₂ := 0) (emplace_cost _ _ _) (fun _ => front_cost _))
theorem emplaceBack_cost (x : Nat) (v : V) : NCost 2 (emplaceBack x v) 0 := by
  unfold emplaceBack
  exact NCost.bind (b₁ := 0) (b₂ := 0) (end_cost _) (fun _ =>
    NCost.bind (b₁ := 0) (b₂ := 0) (emplace_cost _ _ _) (fun _ => back_cost _))
theorem popBack_cost (x : Nat) : NCost 2 (popBack x : LM V Unit) 0 := by
  unfold popBack
  exact NCost.bind (b₁ := 0) (b₂ := 0) (getPrev_cost _) (fun _ =>
    NCost.bind (b₁ := 0) (b₂ := 0) (erase_cost _ _) (fun _ => NCost.pure _))
theorem popFront_cost (x : Nat) : NCost 2 (popFront x : LM V Unit) 0 := by
  unfold popFront
  exact NCost.bind (b₁ := 0) (b₂ := 0) (begin_cost _) (fun _ =>
    NCost.bind (b₁ := 0) (b₂ := 0) (erase_cost _ _) (fun _ => NCost.pure _))

theorem copyLoop_cost (x y : Nat) : ∀ (f : Nat) (p : Ptr), NCost 2 (copyLoop x y f p : LM V Unit) 0
  | 0, _ => NCost.timeout
  | f+1, p => by
    unfold copyLoop
    refine NCost.bind (b₁ := 0) (b₂ := 0) (end_cost _) (fun e => ?_)
    refine NCost.ite (fun _ => NCost.pure _) (fun _ => ?_)
    refine NCost.bind (b₁ := 0) (b₂ := 0) (getVal_cost _) (fun v => ?_)
    refine NCost.bind (b₁ := 0) (b₂ := 0) (pushBack_cost _ _) (fun _ => ?_)
    exact NCost.bind (b₁ := 0) (b₂ := 0) (getNext_cost _) (fun q => copyLoop_cost x y f q)
theorem copyCtor_cost (f x y : Nat) : NCost 2 (copyCtor f x y : LM V Unit) 0 := by
  unfold copyCtor ctor
  refine NCost.bind (b₁ := 0) (b₂ := 0) (NCost.newObj _ _) (fun _ => ?_)
  refine NCost.onThrow ?_ (dtor_cost f x)
  exact NCost.bind (b₁ := 0) (b₂ := 0) (begin_cost _) (fun p => copyLoop_cost _ _ _ _)
theorem assign_cost (f x y : Nat) : NCost 2 (assign f x y : LM V Unit) 0 := by
  unfold assign
  refine NCost.bind (b₁ := 0) (b₂ := 0) (clear_cost _ _) (fun _ => ?_)
  exact NCost.bind (b₁ := 0) (b₂ := 0) (begin_cost _) (fun p => copyLoop_cost _ _ _ _)
theorem walk_cost (x : Nat) : ∀ (f : Nat) (p : Ptr), NCost 2 (walk x f p : LM V (List V)) 0
  | 0, _ => NCost.timeout
  | f+1, p => by
    have ih := walk_cost x f
    unfold walk end_ deref inc
    lcost
    · exact ih _
    · exact NCost.pure _
theorem walkBack_cost (x : Nat) : ∀ (f : Nat) (p : Ptr), NCost 2 (walkBack x f p : LM V (List V)) 0
  | 0, _ => NCost.timeout
  | f+1, p => by
    have ih := walkBack_cost x f
    unfold walkBack begin_ deref dec
    lcost
    · exact ih _
    · exact NCost.pure _

/-- Only assignments through iterators cost more than the elements they create. -/
theorem runOp_cost (f : Nat) (its : Its) (op : Op V) :
    NCost 2 (runOp f its op) (writes [op] : Nat) := by
  cases op <;> unfold runOp
  case new x => exact NCost.bind (b₁ := 0) (b₂ := 0) (NCost.newObj _ _) (fun _ => NCost.pure _)
  case newCopy x y => exact NCost.bind (b₁ := 0) (b₂ := 0) (copyCtor_cost _ _ _) (fun _ => NCost.pure _)
  case assign x y => exact NCost.bind (b₁ := 0) (b₂ := 0) (assign_cost _ _ _) (fun _ => NCost.pure _)
  case destroy x => exact NCost.bind (b₁ := 0) (b₂ := 0) (dtor_cost _ _) (fun _ => NCost.pure _)
  case clear x => exact NCost.bind (b₁ := 0) (b₂ := 0) (clear_cost _ _) (fun _ => NCost.pure _)
  case pushBack x v => exact NCost.bind (b₁ := 0) (b₂ := 0) (pushBack_cost _ _) (fun _ => NCost.pure _)
  case pushFront x v => exact NCost.bind (b₁ := 0) (b₂ := 0) (pushFront_cost _ _) (fun _ => NCost.pure _)
  case emplaceBack x v => exact NCost.bind (b₁ := 0) (b₂ := 0) (emplaceBack_cost _ _) (fun _ => NCost.pure _)
  case emplaceFront x v => exact NCost.bind (b₁ := 0) (b₂ := 0) (emplaceFront_cost _ _) (fun _ => NCost.pure _)
  case popBack x => exact NCost.bind (b₁ := 0) (b₂ := 0) (popBack_cost _) (fun _ => NCost.pure _)
  case popFront x => exact NCost.bind (b₁ := 0) (b₂ := 0) (popFront_cost _) (fun _ => NCost.pure _)
  case insert x k v j =>
    exact NCost.bind (b₁ := 0) (b₂ := 0) (getIt_cost _ _) (fun _ =>
      NCost.bind (b₁ := 0) (b₂ := 0) (insert_cost _ _ _) (fun _ => NCost.pure _))
  case emplace x k v j =>
    exact NCost.bind (b₁ := 0) (b₂ := 0) (getIt_cost _ _) (fun _ =>
      NCost.bind (b₁ := 0) (b₂ := 0) (emplace_cost _ _ _) (fun _ => NCost.pure _))
  case erase x k j =>
    exact NCost.bind (b₁ := 0) (b₂ := 0) (getIt_cost _ _) (fun _ =>
      NCost.bind (b₁ := 0) (b₂ := 0) (erase_cost _ _) (fun _ => NCost.pure _))
  case set x k v =>
    exact NCost.bind (b₁ := 0) (b₂ := 1) (getIt_cost _ _) (fun _ =>
      NCost.bind (b₁ := 1) (b₂ := 0) (setVal_cost _ _) (fun _ => NCost.pure _))
  case toList x =>
    refine NCost.bind (b₁ := 0) (b₂ := 0) ?_ (fun _ => NCost.pure _)
    exact NCost.bind (b₁ := 0) (b₂ := 0) (begin_cost _) (fun p => walk_cost _ _ _)
  case toListRev x =>
    refine NCost.bind (b₁ := 0) (b₂ := 0) ?_ (fun _ => NCost.pure _)
    exact NCost.bind (b₁ := 0) (b₂ := 0) (end_cost _) (fun p => walkBack_cost _ _ _)
  all_goals (try unfold begin_ end_ inc dec deref size empty front back begin_ end_ dec deref) <;>
    (try unfold inc) <;> (try unfold dec) <;> (try unfold deref) <;> (try unfold size) <;>
    (try unfold empty) <;> (try unfold front) <;> (try unfold back) <;> (try unfold begin_) <;>
    (try unfold end_) <;> (try unfold dec) <;> (try unfold deref) <;> (show NCost 2 _ 0) <;> lcost

theorem writes_cons (op : Op V) (ops : List (Op V)) : writes (op :: ops) = writes [op] + writes ops := by
  cases op <;> simp [writes]

theorem runOps_cost (f : Nat) : ∀ (ops : List (Op V)) (its : Its),
    NCost 2 (runOps f its ops) (writes ops : Nat)
  | [], its => NCost.pure _
  | op :: ops, its => by
    unfold runOps
    have e : ((writes (op :: ops) : Nat) : Int) = (writes [op] : Nat) + ((writes ops : Nat) + 0) := by
      rw [writes_cons]; omega
    rw [e]
    exact NCost.bind (runOp_cost f its op) (fun r =>
      NCost.bind (runOps_cost f ops r.1) (fun _ => NCost.pure _))

end Cest.Lst
