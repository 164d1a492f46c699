import Verif.Core.NCost
import Verif.FList.Refine
import Verif.FList.CostSpec
/-
Lemmas for C128: what the functions of cest::forward_list cost.
-/
namespace Cest.FL
open Cest
variable {V : Type}

theorem getNext_cost (p : Ptr) : NCost 2 (getNext p : FM V Ptr) 0 := by
  cases p <;> unfold getNext <;> ncost0
theorem setNext_cost (p q : Ptr) : NCost 2 (setNext p q : FM V Unit) 0 := by
  cases p <;> unfold setNext <;> ncost0
theorem getVal_cost (p : Ptr) : NCost 2 (getVal p : FM V V) 0 := by
  cases p <;> unfold getVal <;> ncost0
theorem destroyVal_cost (p : Ptr) : NCost 2 (destroyVal p : FM V Unit) 0 := by
  cases p <;> unfold destroyVal <;> ncost0
theorem freeNode_cost (p : Ptr) : NCost 2 (freeNode p : FM V Unit) 0 := by
  cases p <;> unfold freeNode <;> ncost0
theorem getIt_cost (its : Its) (k : Nat) : NCost 2 (getIt its k : FM V Ptr) 0 := by
  unfold getIt
  cases its k with
  | none => exact NCost.ub _
  | some p => exact NCost.pure p
theorem setVal_cost (p : Ptr) (v : V) : NCost 2 (setVal p v : FM V Unit) 1 := by
  cases p <;> unfold setVal
  · exact NCost.ub' _ _
  · exact NCost.ub' _ _
  · refine NCost.bind (b₁ := 0) (b₂ := 1) (NCost.getC _) (fun c => ?_)
    split
    · exact NCost.bind (b₁ := 1) (b₂ := 0) (NCost.tick _) (fun _ => NCost.setC _ _)
    · exact NCost.ub' _ _
theorem constructNode_cost (a : Nat) (v : V) (n : Ptr) : NCost 2 (constructNode a v n : FM V Unit) 1 := by
  unfold constructNode
  refine NCost.bind (b₁ := 0) (b₂ := 1) (NCost.getC _) (fun c => ?_)
  split
  · exact NCost.ub' _ _
  · exact NCost.bind (b₁ := 1) (b₂ := 0) (NCost.tick _) (fun _ => NCost.setC _ _)

/-- Straight-line code of cest::forward_list that creates no element. -/
macro "fcost" : tactic => `(tactic| repeat (first
  | exact NCost.pure _ | exact NCost.ub _ | exact NCost.timeout
  | exact NCost.getObj _ | exact NCost.setObj _ _ | exact NCost.newObj _ _ | exact NCost.delObj _
  | exact getNext_cost _ | exact setNext_cost _ _
  | exact getVal_cost _ | exact destroyVal_cost _ | exact freeNode_cost _ | exact getIt_cost _ _
  | assumption
  | refine NCost.bind (b₁ := 0) (b₂ := 0) ?_ (fun _ => ?_)
  | refine NCost.ite (fun _ => ?_) (fun _ => ?_)
  | split))

theorem before_cost (x : Nat) : NCost 2 (before x : FM V Ptr) 0 := by unfold before; fcost
/-- One allocation and one copy per element. -/
theorem insertAfter_cost (p : Ptr) (v : V) : NCost 2 (insertAfter p v) 0 := by
  unfold insertAfter allocNode
  refine NCost.bind (b₁ := -1) (b₂ := 1) (NCost.allocC (w := 2) _) (fun n => ?_)
  refine NCost.bind (b₁ := 0) (b₂ := 1) (getNext_cost _) (fun _ => ?_)
  refine NCost.bind (b₁ := 1) (b₂ := 0) (constructNode_cost _ _ _) (fun _ => ?_)
  fcost
theorem eraseLoop_cost (l : Ptr) : ∀ (f : Nat) (p : Ptr), NCost 2 (eraseLoop l f p : FM V Unit) 0
  | 0, _ => NCost.timeout
  | f+1, p => by
    have ih := eraseLoop_cost l f
    unfold eraseLoop
    refine NCost.ite (fun _ => NCost.pure _) (fun _ => ?_)
    refine NCost.bind (b₁ := 0) (b₂ := 0) (getNext_cost _) (fun nx => ?_)
    have := ih nx
    fcost
theorem eraseRange_cost (f : Nat) (p l : Ptr) : NCost 2 (eraseRange f p l : FM V Ptr) 0 := by
  unfold eraseRange
  refine NCost.bind (b₁ := 0) (b₂ := 0) (getNext_cost _) (fun q => ?_)
  have := eraseLoop_cost (V := V) l f q
  fcost
theorem eraseAfter_cost (p : Ptr) : NCost 2 (eraseAfter p : FM V Ptr) 0 := by
  unfold eraseAfter; fcost
theorem clear_cost (f x : Nat) : NCost 2 (clear f x : FM V Unit) 0 := by
  unfold clear
  exact NCost.bind (b₁ := 0) (b₂ := 0) (before_cost _) (fun _ =>
    NCost.bind (b₁ := 0) (b₂ := 0) (eraseRange_cost _ _ _) (fun _ => NCost.pure _))
theorem dtor_cost (f x : Nat) : NCost 2 (dtor f x : FM V Unit) 0 := by
  unfold dtor
  exact NCost.bind (b₁ := 0) (b₂ := 0) (before_cost _) (fun _ =>
    NCost.bind (b₁ := 0) (b₂ := 0) (eraseRange_cost _ _ _) (fun _ => NCost.delObj _))
theorem popFront_cost (x : Nat) : NCost 2 (popFront x : FM V Unit) 0 := by
  unfold popFront
  exact NCost.bind (b₁ := 0) (b₂ := 0) (before_cost _) (fun _ =>
    NCost.bind (b₁ := 0) (b₂ := 0) (eraseAfter_cost _) (fun _ => NCost.pure _))
theorem pushFront_cost (x : Nat) (v : V) : NCost 2 (pushFront x v) 0 := by
  unfold pushFront
  exact NCost.bind (b₁ := 0) (b₂ := 0) (before_cost _) (fun _ =>
    NCost.bind (b₁ := 0) (b₂ := 0) (insertAfter_cost _ _) (fun _ => NCost.pure _))
theorem copyLoop_cost : ∀ (f : Nat) (p q : Ptr), NCost 2 (copyLoop f p q : FM V Unit) 0
  | 0, _, _ => NCost.timeout
  | f+1, p, q => by
    unfold copyLoop allocNode
    refine NCost.bind (b₁ := 0) (b₂ := 0) (getNext_cost _) (fun nf => ?_)
    refine NCost.ite (fun _ => NCost.pure _) (fun _ => ?_)
    refine NCost.bind (b₁ := -1) (b₂ := 1) (NCost.allocC (w := 2) _) (fun n => ?_)
    refine NCost.bind (b₁ := 0) (b₂ := 1) (getVal_cost _) (fun _ => ?_)
    refine NCost.bind (b₁ := 1) (b₂ := 0) (constructNode_cost _ _ _) (fun _ => ?_)
    refine NCost.bind (b₁ := 0) (b₂ := 0) (setNext_cost _ _) (fun _ => ?_)
    refine NCost.bind (b₁ := 0) (b₂ := 0) (getNext_cost _) (fun src => ?_)
    exact NCost.bind (b₁ := 0) (b₂ := 0) (getNext_cost _) (fun dst => copyLoop_cost f src dst)
theorem copyCtor_cost (f x y : Nat) : NCost 2 (copyCtor f x y : FM V Unit) 0 := by
  unfold copyCtor ctor
  refine NCost.bind (b₁ := 0) (b₂ := 0) (NCost.newObj _ _) (fun _ => ?_)
  exact NCost.onThrow (copyLoop_cost _ _ _) (NCost.delObj x)
theorem swap_cost (x y : Nat) : NCost 2 (swap x y : FM V Unit) 0 := by
  unfold swap; fcost
theorem assign_cost (f x y t : Nat) : NCost 2 (assign f x y t : FM V Unit) 0 := by
  unfold assign
  refine NCost.bind (b₁ := 0) (b₂ := 0) (copyCtor_cost _ _ _) (fun _ => ?_)
  exact NCost.bind (b₁ := 0) (b₂ := 0) (swap_cost _ _) (fun p => dtor_cost _ _)
theorem walk_cost : ∀ (f : Nat) (p : Ptr), NCost 2 (walk f p : FM V (List V)) 0
  | 0, _ => NCost.timeout
  | f+1, p => by
    have ih := walk_cost f
    unfold walk deref inc
    fcost
    · exact ih _
    · exact NCost.pure _

/-- Only assignments through iterators cost more than the elements they create. -/
theorem runOp_cost (f : Nat) (its : Its) (op : Op V) :
    NCost 2 (runOp f its op) (writes [op] : Nat) := by
  cases op <;> unfold runOp
  case newCopy x y => exact NCost.bind (b₁ := 0) (b₂ := 0) (copyCtor_cost _ _ _) (fun _ => NCost.pure _)
  case assign x y => exact NCost.bind (b₁ := 0) (b₂ := 0) (assign_cost _ _ _ _) (fun _ => NCost.pure _)
  case swap x y => exact NCost.bind (b₁ := 0) (b₂ := 0) (swap_cost _ _) (fun _ => NCost.pure _)
  case destroy x => exact NCost.bind (b₁ := 0) (b₂ := 0) (dtor_cost _ _) (fun _ => NCost.pure _)
  case clear x => exact NCost.bind (b₁ := 0) (b₂ := 0) (clear_cost _ _) (fun _ => NCost.pure _)
  case pushFront x v => exact NCost.bind (b₁ := 0) (b₂ := 0) (pushFront_cost _ _) (fun _ => NCost.pure _)
  case popFront x => exact NCost.bind (b₁ := 0) (b₂ := 0) (popFront_cost _) (fun _ => NCost.pure _)
  case insertAfter x k v j =>
    exact NCost.bind (b₁ := 0) (b₂ := 0) (getIt_cost _ _) (fun _ =>
      NCost.bind (b₁ := 0) (b₂ := 0) (insertAfter_cost _ _) (fun _ => NCost.pure _))
  case eraseAfter x k j =>
    exact NCost.bind (b₁ := 0) (b₂ := 0) (getIt_cost _ _) (fun _ =>
      NCost.bind (b₁ := 0) (b₂ := 0) (eraseAfter_cost _) (fun _ => NCost.pure _))
  case eraseRange x k m j =>
    exact NCost.bind (b₁ := 0) (b₂ := 0) (getIt_cost _ _) (fun _ =>
      NCost.bind (b₁ := 0) (b₂ := 0) (getIt_cost _ _) (fun _ =>
      NCost.bind (b₁ := 0) (b₂ := 0) (eraseRange_cost _ _ _) (fun _ => NCost.pure _)))
  case set x k v =>
    exact NCost.bind (b₁ := 0) (b₂ := 1) (getIt_cost _ _) (fun _ =>
      NCost.bind (b₁ := 1) (b₂ := 0) (setVal_cost _ _) (fun _ => NCost.pure _))
  case toList x =>
    refine NCost.bind (b₁ := 0) (b₂ := 0) ?_ (fun _ => NCost.pure _)
    exact NCost.bind (b₁ := 0) (b₂ := 0) (getNext_cost _) (fun p => walk_cost _ _)
  all_goals
    (try unfold ctor) <;> (try unfold before) <;> (try unfold inc) <;> (try unfold deref) <;>
    (try unfold empty) <;> (try unfold front) <;> (try unfold begin_) <;>
    (show NCost 2 _ 0) <;> fcost

theorem writes_cons (op : Op V) (ops : List (Op V)) : writes (op :: ops) = writes [op] + writes ops := by
  cases op <;> simp [writes]

theorem runOps_cost (f : Nat) : ∀ (ops : List (Op V)) (its : Its),
    NCost 2 (runOps f its ops) (writes ops : Nat)
  | [], its => NCost.pure _
  | op :: ops, its => by
    unfold runOps
    have e : ((writes (op :: ops) : Nat) : Int) = (writes [op] : Nat) + ((writes ops : Nat) + 0) := by
      rw [writes_cons]; omega
    rw [e]
    exact NCost.bind (runOp_cost f its op) (fun r =>
      NCost.bind (runOps_cost f ops r.1) (fun _ => NCost.pure _))

end Cest.FL
