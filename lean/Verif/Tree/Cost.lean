import Verif.Core.NCost
import Verif.Tree.Refine
import Verif.Tree.CostSpec
/-
Lemmas for C128: what the functions of cest::set and cest::map cost.
-/
namespace Cest.Tree
open Cest
variable {V K : Type} {w : Nat}

theorem getN_cost (a : Nat) : NCost w (getN a : TM V (Node V)) 0 := by
  unfold getN; ncost0
theorem getRef_cost (r : Ref) : NCost w (getRef r : TM V (Option Nat)) 0 := by
  cases r <;> unfold getRef <;>
    exact NCost.bind (b₁ := 0) (b₂ := 0) (by first | exact getN_cost _ | exact NCost.getObj _) (fun _ => NCost.pure _)
theorem setRef_cost (r : Ref) (q : Option Nat) : NCost w (setRef r q : TM V Unit) 0 := by
  cases r <;> unfold setRef <;>
    exact NCost.bind (b₁ := 0) (b₂ := 0) (by first | exact getN_cost _ | exact NCost.getObj _)
      (fun _ => by first | exact NCost.setC _ _ | exact NCost.setObj _ _)

/-- Straight-line code of cest::set and cest::map that creates no element. -/
macro "tcost" : tactic => `(tactic| repeat (first
  | exact NCost.pure _ | exact NCost.ub _ | exact NCost.timeout
  | exact NCost.getObj _ | exact NCost.setObj _ _ | exact NCost.newObj _ _ | exact NCost.delObj _
  | exact NCost.getC _ | exact NCost.setC _ _ | exact NCost.freeC _ | exact NCost.deref _
  | exact getN_cost _ | exact getRef_cost _ | exact setRef_cost _ _
  | assumption
  | refine NCost.bind (b₁ := 0) (b₂ := 0) ?_ (fun _ => ?_)
  | refine NCost.ite (fun _ => ?_) (fun _ => ?_)
  | split))

theorem getX_cost (p : Option Nat) : NCost w (getX p : TM V V) 0 := by unfold getX; tcost
theorem setBlack_cost (p : Option Nat) : NCost w (setBlack p : TM V Unit) 0 := by unfold setBlack; tcost
theorem destroyNode_cost (a : Nat) : NCost w (destroyNode a : TM V Unit) 0 := by unfold destroyNode; tcost
theorem freeNode_cost (a : Nat) : NCost w (freeNode a : TM V Unit) 0 := by unfold freeNode; tcost
theorem setX_cost (p : Option Nat) (v : V) : NCost 3 (setX p v : TM V Unit) 1 := by
  unfold setX
  refine NCost.bind (b₁ := 0) (b₂ := 1) (NCost.deref _) (fun c => ?_)
  refine NCost.bind (b₁ := 0) (b₂ := 1) (getN_cost _) (fun c => ?_)
  exact NCost.bind (b₁ := 1) (b₂ := 0) (NCost.tick _) (fun _ => NCost.setC _ _)
theorem constructNode_cost (a : Nat) (v : V) (p : Option Nat) :
    NCost 3 (constructNode a v p : TM V Unit) 2 := by
  unfold constructNode
  refine NCost.bind (b₁ := 0) (b₂ := 2) (NCost.getC _) (fun c => ?_)
  split
  · exact NCost.ub' _ _
  · exact NCost.bind (b₁ := 1) (b₂ := 1) (NCost.tick _) (fun _ =>
      NCost.bind (b₁ := 1) (b₂ := 0) (NCost.tick _) (fun _ => NCost.setC _ _))
theorem getIt_cost (its : Its) (k : Nat) : NCost 3 (getIt its k : TM V (Option Nat)) 0 := by
  unfold getIt
  cases its k with
  | none => exact NCost.ub _
  | some p => exact NCost.pure p

theorem dd_cost : ∀ (f : Nat) (p : Option Nat), NCost 3 (dd f p : TM V Unit) 0
  | 0, _ => NCost.timeout
  | f+1, none => NCost.pure _
  | f+1, some a => by
    unfold dd
    refine NCost.bind (b₁ := 0) (b₂ := 0) (getN_cost _) (fun n => ?_)
    refine NCost.bind (b₁ := 0) (b₂ := 0) (dd_cost f _) (fun _ => ?_)
    refine NCost.bind (b₁ := 0) (b₂ := 0) (getN_cost _) (fun n => ?_)
    refine NCost.bind (b₁ := 0) (b₂ := 0) (dd_cost f _) (fun _ => ?_)
    exact NCost.bind (b₁ := 0) (b₂ := 0) (destroyNode_cost _) (fun _ => freeNode_cost _)
theorem clear_cost (f x : Nat) : NCost 3 (clear f x : TM V Unit) 0 := by
  unfold clear
  refine NCost.bind (b₁ := 0) (b₂ := 0) (NCost.getObj _) (fun o => ?_)
  refine NCost.bind (b₁ := 0) (b₂ := 0) (dd_cost _ _) (fun _ => ?_)
  tcost
theorem dtor_cost (f x : Nat) : NCost 3 (dtor f x : TM V Unit) 0 := by
  unfold dtor
  exact NCost.bind (b₁ := 0) (b₂ := 0) (clear_cost _ _) (fun _ => NCost.delObj _)
theorem findLoop_cost (g : Cfg V K) (k : K) : ∀ (f : Nat) (p : Option Nat),
    NCost 3 (findLoop g k f p : TM V (Option Nat)) 0
  | 0, _ => NCost.timeout
  | f+1, none => NCost.pure _
  | f+1, some a => by
    unfold findLoop
    refine NCost.bind (b₁ := 0) (b₂ := 0) (getN_cost _) (fun n => ?_)
    exact NCost.ite (fun _ => findLoop_cost g k f _) (fun _ =>
      NCost.ite (fun _ => findLoop_cost g k f _) (fun _ => NCost.pure _))
theorem find_cost (g : Cfg V K) (f x : Nat) (k : K) : NCost 3 (find g f x k : TM V (Option Nat)) 0 := by
  unfold find empty end_
  have := findLoop_cost g k f
  tcost
  exact this _

theorem getRefL_cost (l : Option Nat) (r : Option Ref) : NCost w (getRefL l r : TM V (Option Nat)) 0 := by
  unfold getRefL; tcost
theorem setRefL_cost (r : Option Ref) (q : Option Nat) : NCost w (setRefL r q : TM V Unit) 0 := by
  unfold setRefL; tcost
theorem foldL_cost (l : Option Nat) (t : Option Nat) : ∀ (rs : List (Option Ref)) (r : Option Ref),
    NCost w (Nary.foldL (getRefL l) setRefL t r rs : TM V Unit) 0
  | [], _ => setRefL_cost _ _
  | r' :: rs, _ => NCost.bind (b₁ := 0) (b₂ := 0) (getRefL_cost _ _) (fun _ =>
      NCost.bind (b₁ := 0) (b₂ := 0) (setRefL_cost _ _) (fun _ => foldL_cost l t rs r'))
theorem swap_cost (l : Option Nat) (rs : List (Option Ref)) :
    NCost w (Nary.swap (getRefL l) setRefL rs : TM V Unit) 0 := by
  cases rs with
  | nil => exact NCost.pure _
  | cons r rs => exact NCost.bind (b₁ := 0) (b₂ := 0) (getRefL_cost _ _) (fun _ => foldL_cost _ _ _ _)
theorem rotateLeft_cost (n : Ref) : NCost w (rotateLeft n : TM V Unit) 0 := by
  unfold rotateLeft
  refine NCost.bind (b₁ := 0) (b₂ := 0) (getRef_cost _) (fun _ => ?_)
  refine NCost.bind (b₁ := 0) (b₂ := 0) (NCost.deref _) (fun _ => ?_)
  refine NCost.bind (b₁ := 0) (b₂ := 0) (getRef_cost _) (fun _ => ?_)
  refine NCost.bind (b₁ := 0) (b₂ := 0) (NCost.deref _) (fun _ => ?_)
  exact NCost.bind (b₁ := 0) (b₂ := 0) (getRef_cost _) (fun _ => swap_cost _ _)
theorem rotateRight_cost (n : Ref) : NCost w (rotateRight n : TM V Unit) 0 := by
  unfold rotateRight
  refine NCost.bind (b₁ := 0) (b₂ := 0) (getRef_cost _) (fun _ => ?_)
  refine NCost.bind (b₁ := 0) (b₂ := 0) (NCost.deref _) (fun _ => ?_)
  refine NCost.bind (b₁ := 0) (b₂ := 0) (getRef_cost _) (fun _ => ?_)
  refine NCost.bind (b₁ := 0) (b₂ := 0) (NCost.deref _) (fun _ => ?_)
  exact NCost.bind (b₁ := 0) (b₂ := 0) (getRef_cost _) (fun _ => swap_cost _ _)
theorem isRed_cost (p : Option Nat) : NCost w (isRed p : TM V Bool) 0 := by
  unfold isRed; tcost
theorem getL_cost (p : Option Nat) : NCost w (getL p : TM V (Option Nat)) 0 := by unfold getL; tcost
theorem getR_cost (p : Option Nat) : NCost w (getR p : TM V (Option Nat)) 0 := by unfold getR; tcost
theorem redRed_cost (p : Option Nat) {q : Option Nat → TM V (Option Nat)} (hq : ∀ p, NCost w (q p) 0) :
    NCost w (redRed p q) 0 := by
  unfold redRed
  refine NCost.bind (b₁ := 0) (b₂ := 0) (isRed_cost _) (fun b => ?_)
  refine NCost.ite (fun _ => ?_) (fun _ => NCost.pure _)
  exact NCost.bind (b₁ := 0) (b₂ := 0) (hq _) (fun _ => isRed_cost _)
theorem rebalance_cost (n : Ref) : NCost w (rebalance n : TM V Unit) 0 := by
  unfold rebalance
  refine NCost.bind (b₁ := 0) (b₂ := 0) (getRef_cost _) (fun p => ?_)
  refine NCost.bind (b₁ := 0) (b₂ := 0) (NCost.deref _) (fun a => ?_)
  refine NCost.bind (b₁ := 0) (b₂ := 0) (getN_cost _) (fun nd => ?_)
  repeat (first
    | exact NCost.pure _ | exact getL_cost _ | exact getR_cost _ | exact setBlack_cost _
    | exact rotateLeft_cost _ | exact rotateRight_cost _
    | exact redRed_cost _ getL_cost | exact redRed_cost _ getR_cost
    | refine NCost.bind (b₁ := 0) (b₂ := 0) ?_ (fun _ => ?_)
    | refine NCost.ite (fun _ => ?_) (fun _ => ?_))

/-- One allocation and two copies per element. -/
theorem ins_cost (g : Cfg V K) (x : Nat) (v : V) : ∀ (f : Nat) (n : Ref) (p : Option Nat),
    NCost 3 (ins g x v f n p) 0
  | 0, _, _ => NCost.timeout
  | f+1, n, p => by
    unfold ins
    refine NCost.bind (b₁ := 0) (b₂ := 0) (getRef_cost _) (fun q => ?_)
    cases q with
    | none =>
      refine NCost.bind (b₁ := -2) (b₂ := 2) (NCost.allocC (w := 3) _) (fun a => ?_)
      refine NCost.bind (b₁ := 0) (b₂ := 2) (setRef_cost _ _) (fun _ => ?_)
      refine NCost.bind (b₁ := 2) (b₂ := 0) (constructNode_cost _ _ _) (fun _ => ?_)
      unfold getX
      tcost
    | some a =>
      refine NCost.bind (b₁ := 0) (b₂ := 0) (getX_cost _) (fun w => ?_)
      refine NCost.ite (fun _ => ?_) (fun _ => NCost.ite (fun _ => ?_) (fun _ => NCost.pure _))
      · exact NCost.bind (b₁ := 0) (b₂ := 0) (ins_cost g x v f _ _) (fun _ =>
          NCost.bind (b₁ := 0) (b₂ := 0) (rebalance_cost _) (fun _ => NCost.pure _))
      · exact NCost.bind (b₁ := 0) (b₂ := 0) (ins_cost g x v f _ _) (fun _ =>
          NCost.bind (b₁ := 0) (b₂ := 0) (rebalance_cost _) (fun _ => NCost.pure _))
theorem insert_cost (g : Cfg V K) (f x : Nat) (v : V) : NCost 3 (insert g f x v) 0 := by
  unfold insert
  exact NCost.bind (b₁ := 0) (b₂ := 0) (ins_cost _ _ _ _ _ _) (fun _ =>
    NCost.bind (b₁ := 0) (b₂ := 0) (getRef_cost _) (fun _ =>
    NCost.bind (b₁ := 0) (b₂ := 0) (setBlack_cost _) (fun _ => NCost.pure _)))
theorem leftmost_cost : ∀ (f a : Nat), NCost 3 (leftmost f a : TM V Nat) 0
  | 0, _ => NCost.timeout
  | f+1, a => by
    unfold leftmost
    refine NCost.bind (b₁ := 0) (b₂ := 0) (getN_cost _) (fun n => ?_)
    split
    · exact NCost.pure _
    · exact leftmost_cost f _
theorem sameChild_cost (g : Cfg V K) (a b : Nat) : NCost 3 (sameChild g a b) 0 := by
  unfold sameChild getX; tcost
theorem climb_cost (g : Cfg V K) : ∀ (f a : Nat) (p : Option Nat), NCost 3 (climb g f a p) 0
  | 0, _, _ => NCost.timeout
  | f+1, _, none => NCost.pure _
  | f+1, a, some q => by
    unfold climb
    refine NCost.bind (b₁ := 0) (b₂ := 0) (getN_cost _) (fun n => ?_)
    split
    · exact NCost.pure _
    · refine NCost.bind (b₁ := 0) (b₂ := 0) (sameChild_cost _ _ _) (fun n => ?_)
      refine NCost.ite (fun _ => ?_) (fun _ => NCost.pure _)
      exact NCost.bind (b₁ := 0) (b₂ := 0) (getN_cost _) (fun n => climb_cost g f _ _)
theorem inc_cost (g : Cfg V K) (f : Nat) (p : Option Nat) : NCost 3 (inc g f p) 0 := by
  unfold inc
  refine NCost.bind (b₁ := 0) (b₂ := 0) (NCost.deref _) (fun a => ?_)
  refine NCost.bind (b₁ := 0) (b₂ := 0) (getN_cost _) (fun n => ?_)
  split
  · exact NCost.bind (b₁ := 0) (b₂ := 0) (leftmost_cost _ _) (fun _ => NCost.pure _)
  · exact NCost.bind (b₁ := 0) (b₂ := 0) (getN_cost _) (fun _ => climb_cost _ _ _ _)
theorem copyLoop_cost (g : Cfg V K) (f x : Nat) : ∀ (f' : Nat) (p : Option Nat),
    NCost 3 (copyLoop g f x f' p) 0
  | 0, _ => NCost.timeout
  | f'+1, none => NCost.pure _
  | f'+1, some a => by
    unfold copyLoop
    exact NCost.bind (b₁ := 0) (b₂ := 0) (getX_cost _) (fun _ =>
      NCost.bind (b₁ := 0) (b₂ := 0) (insert_cost _ _ _ _) (fun _ =>
      NCost.bind (b₁ := 0) (b₂ := 0) (inc_cost _ _ _) (fun q => copyLoop_cost g f x f' q)))
theorem begin_cost (x : Nat) : NCost 3 (begin_ x : TM V (Option Nat)) 0 := by unfold begin_; tcost
theorem copyCtor_cost (g : Cfg V K) (f x y : Nat) : NCost 3 (copyCtor g f x y) 0 := by
  unfold copyCtor ctor
  refine NCost.bind (b₁ := 0) (b₂ := 0) (NCost.newObj _ _) (fun _ => ?_)
  refine NCost.onThrow ?_ (dtor_cost f x)
  exact NCost.bind (b₁ := 0) (b₂ := 0) (begin_cost _) (fun p => copyLoop_cost _ _ _ _ _)
theorem assign_cost (g : Cfg V K) (f x y : Nat) : NCost 3 (assign g f x y) 0 := by
  unfold assign
  refine NCost.bind (b₁ := 0) (b₂ := 0) (clear_cost _ _) (fun _ => ?_)
  exact NCost.bind (b₁ := 0) (b₂ := 0) (begin_cost _) (fun p => copyLoop_cost _ _ _ _ _)
theorem toListLoop_cost (g : Cfg V K) (f : Nat) : ∀ (f' : Nat) (p : Option Nat),
    NCost 3 (toListLoop g f f' p) 0
  | 0, _ => NCost.timeout
  | f'+1, none => NCost.pure _
  | f'+1, some a => by
    unfold toListLoop
    exact NCost.bind (b₁ := 0) (b₂ := 0) (getX_cost _) (fun _ =>
      NCost.bind (b₁ := 0) (b₂ := 0) (inc_cost _ _ _) (fun q =>
      NCost.bind (b₁ := 0) (b₂ := 0) (toListLoop_cost g f f' q) (fun _ => NCost.pure _)))

/-- Only assignments through iterators cost more than the elements they create. -/
theorem runOp_cost (g : Cfg V K) (f : Nat) (its : Its) (op : Op V K) :
    NCost 3 (runOp g f its op) (writes [op] : Nat) := by
  cases op <;> unfold runOp
  case newCopy x y => exact NCost.bind (b₁ := 0) (b₂ := 0) (copyCtor_cost _ _ _ _) (fun _ => NCost.pure _)
  case assign x y => exact NCost.bind (b₁ := 0) (b₂ := 0) (assign_cost _ _ _ _) (fun _ => NCost.pure _)
  case destroy x => exact NCost.bind (b₁ := 0) (b₂ := 0) (dtor_cost _ _) (fun _ => NCost.pure _)
  case clear x => exact NCost.bind (b₁ := 0) (b₂ := 0) (clear_cost _ _) (fun _ => NCost.pure _)
  case insert x v j => exact NCost.bind (b₁ := 0) (b₂ := 0) (insert_cost _ _ _ _) (fun _ => NCost.pure _)
  case insertHint x h v j =>
    refine NCost.bind (b₁ := 0) (b₂ := 0) (getIt_cost _ _) (fun _ => ?_)
    refine NCost.bind (b₁ := 0) (b₂ := 0) ?_ (fun _ => NCost.pure _)
    exact NCost.bind (b₁ := 0) (b₂ := 0) (insert_cost _ _ _ _) (fun _ => NCost.pure _)
  case find x k j => exact NCost.bind (b₁ := 0) (b₂ := 0) (find_cost _ _ _ _) (fun _ => NCost.pure _)
  case inc x k =>
    exact NCost.bind (b₁ := 0) (b₂ := 0) (getIt_cost _ _) (fun _ =>
      NCost.bind (b₁ := 0) (b₂ := 0) (inc_cost _ _ _) (fun _ => NCost.pure _))
  case deref x k =>
    exact NCost.bind (b₁ := 0) (b₂ := 0) (getIt_cost _ _) (fun _ =>
      NCost.bind (b₁ := 0) (b₂ := 0) (getX_cost _) (fun _ => NCost.pure _))
  case write x k v =>
    exact NCost.bind (b₁ := 0) (b₂ := 1) (getIt_cost _ _) (fun _ =>
      NCost.bind (b₁ := 1) (b₂ := 0) (setX_cost _ _) (fun _ => NCost.pure _))
  case itEq k j =>
    exact NCost.bind (b₁ := 0) (b₂ := 0) (getIt_cost _ _) (fun _ =>
      NCost.bind (b₁ := 0) (b₂ := 0) (getIt_cost _ _) (fun _ => NCost.pure _))
  case toList x =>
    refine NCost.bind (b₁ := 0) (b₂ := 0) ?_ (fun _ => NCost.pure _)
    exact NCost.bind (b₁ := 0) (b₂ := 0) (begin_cost _) (fun p => toListLoop_cost _ _ _ _)
  all_goals
    (try unfold ctor) <;> (try unfold begin_) <;> (try unfold end_) <;> (try unfold size) <;>
    (try unfold empty) <;> (show NCost 3 _ 0) <;> tcost

theorem writes_cons (op : Op V K) (ops : List (Op V K)) : writes (op :: ops) = writes [op] + writes ops := by
  cases op <;> simp [writes]

theorem runOps_cost (g : Cfg V K) (f : Nat) : ∀ (ops : List (Op V K)) (its : Its),
    NCost 3 (runOps g f its ops) (writes ops : Nat)
  | [], its => NCost.pure _
  | op :: ops, its => by
    unfold runOps
    have e : ((writes (op :: ops) : Nat) : Int) = (writes [op] : Nat) + ((writes ops : Nat) + 0) := by
      rw [writes_cons]; omega
    rw [e]
    exact NCost.bind (runOp_cost g f its op) (fun r =>
      NCost.bind (runOps_cost g f ops r.1) (fun _ => NCost.pure _))

end Cest.Tree
