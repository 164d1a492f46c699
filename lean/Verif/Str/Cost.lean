import Verif.Core.NCost
import Verif.Str.Growth
/-
Lemmas for C140: the only operations of cest::basic_string that may throw are its allocations.
-/
namespace Cest.Str
open Cest
set_option linter.unusedSectionVars false
variable {V : Type} [DecidableEq V] {t : Traits V}

theorem Quiet.cost {α : Type} {m : SM V α} (h : Quiet m) (hc : CostLe m 0) : NCost 1 m 0 :=
  NCost.of_cost hc fun s a s' hm => (h s a s' hm).2

theorem putc_cost (p : Option Nat) (i : Nat) (c : V) : NCost 1 (putc p i c : SM V Unit) 0 :=
  (putc_quiet p i c).cost (CostLe.withSlot fun a b => by
    cases b.slot i
    · exact CostLe.ub _
    · exact CostLe.setC _ _)

theorem newc_cost (p : Option Nat) (i : Nat) : NCost 1 (newc t p i) 0 :=
  (newc_quiet p i).cost (CostLe.withSlot fun _ _ => CostLe.setC _ _)

theorem load_cost (p : Option Nat) (i : Nat) : NCost 1 (load p i : SM V V) 0 :=
  (load_quiet p i).cost (CostLe.load p i)

theorem rd_cost (p : Ptr V) (k : Nat) : NCost 1 (p.rd k) 0 := by
  cases p with
  | ext a off =>
    simp only [Ptr.rd]
    cases a[off + k]?
    · exact NCost.ub _
    · exact NCost.pure _
  | cell q off => exact load_cost _ _

theorem forN_cost {f : Nat → SM V Unit} (h : ∀ i, NCost 1 (f i) 0) (i n : Nat) : NCost 1 (forN f i n) 0 := by
  induction n generalizing i with
  | zero => exact NCost.pure ()
  | succ n ih => exact NCost.bind (b₁ := 0) (b₂ := 0) (h i) fun _ => ih (i+1)

theorem freeChars_cost (p : Option Nat) (n : Nat) : NCost 1 (freeChars p n : SM V Unit) 0 := by
  refine (freeChars_quiet p n).cost fun s hs => ?_
  cases p with
  | none => exact ⟨hs, 0, Nat.le_refl _, fun _ => rfl⟩
  | some a =>
    refine ⟨?_, 0, Nat.le_refl _, fun k => ?_⟩
    · simp only [freeChars]
      cases s.mem a with
      | none => simp [Res.Calm]
      | some b => simp only; split <;> simp [Res.Calm, hs]
    · simp only [freeChars]
      cases s.mem a with
      | none => simp [Res.arm]
      | some b => simp only; split <;> simp [Res.arm]

theorem allocInit_cost (n : Nat) : NCost 1 (allocInit t n) 0 := by
  unfold allocInit
  refine NCost.bind (b₁ := 0) (b₂ := 0) ?_ fun a => NCost.bind (b₁ := 0) (b₂ := 0) (forN_cost (newc_cost _) _ _)
    fun _ => NCost.pure _
  exact NCost.allocC (w := 1) _

theorem avail_cost (p : Ptr V) : NCost 1 p.avail 0 := by
  cases p <;> simp only [Ptr.avail] <;> ncost0

theorem scan_cost (p : Ptr V) (k n : Nat) : NCost 1 (scan t p k n) 0 := by
  induction n generalizing k with
  | zero => exact NCost.ub _
  | succ n ih =>
    unfold scan
    exact NCost.bind (b₁ := 0) (b₂ := 0) (rd_cost _ _) fun c => NCost.ite (fun _ => NCost.pure _) (fun _ => ih _)

theorem length_cost (p : Ptr V) : NCost 1 (length t p) 0 :=
  NCost.bind (b₁ := 0) (b₂ := 0) (avail_cost p) fun _ => scan_cost _ _ _

theorem copyChars_cost (d : Option Nat) (i : Nat) (s : Ptr V) (n : Nat) : NCost 1 (copyChars t d i s n) 0 := by
  unfold copyChars
  exact NCost.ite (fun _ => NCost.ub _) fun _ =>
    forN_cost (fun k => NCost.bind (b₁ := 0) (b₂ := 0) (rd_cost _ _) fun _ => putc_cost _ _ _) _ _

theorem cmpChars_cost (p q : Ptr V) (k n : Nat) : NCost 1 (cmpChars t p q k n) 0 := by
  induction n generalizing k with
  | zero => exact NCost.pure _
  | succ n ih =>
    unfold cmpChars
    exact NCost.bind (b₁ := 0) (b₂ := 0) (rd_cost _ _) fun a => NCost.bind (b₁ := 0) (b₂ := 0) (rd_cost _ _) fun b =>
      NCost.ite (fun _ => NCost.pure _) fun _ => NCost.ite (fun _ => NCost.pure _) fun _ => ih _

theorem findChar_cost (p : Ptr V) (c : V) (k n : Nat) : NCost 1 (findChar p c k n) 0 := by
  induction n generalizing k with
  | zero => exact NCost.pure _
  | succ n ih =>
    unfold findChar
    exact NCost.bind (b₁ := 0) (b₂ := 0) (rd_cost _ _) fun a => NCost.ite (fun _ => NCost.pure _) fun _ => ih _

theorem noexcept_cost {α : Type} {m : SM V α} {b : Int} (h : NCost 1 m b) : NCost 1 (M.noexcept m) b := by
  intro s hs
  obtain ⟨h1, c, h2, h3⟩ := h s hs
  cases hm : m s with
  | ok a s' =>
    rw [hm] at h1 h3
    refine ⟨by simpa only [M.noexcept, hm] using h1, c, fun b t hb => ?_, fun k => ?_⟩
    · simp only [M.noexcept, hm] at hb; cases hb; exact h2 _ _ hm
    · simp only [M.noexcept, hm, h3 k, Res.arm]
  | throw e s' =>
    rw [hm] at h1 h3
    refine ⟨by simp only [M.noexcept, hm, Res.Calm], c, fun b t hb => ?_, fun k => ?_⟩
    · simp only [M.noexcept, hm] at hb; cases hb
    · simp only [M.noexcept, hm, h3 k, Res.arm]
  | ub u =>
    rw [hm] at h3
    refine ⟨by simp only [M.noexcept, hm, Res.Calm], c, fun b t hb => ?_, fun k => ?_⟩
    · simp only [M.noexcept, hm] at hb; cases hb
    · simp only [M.noexcept, hm, h3 k, Res.arm]
  | timeout =>
    rw [hm] at h3
    refine ⟨by simp only [M.noexcept, hm, Res.Calm], c, fun b t hb => ?_, fun k => ?_⟩
    · simp only [M.noexcept, hm] at hb; cases hb
    · simp only [M.noexcept, hm, h3 k, Res.arm]

/-- Code made of the functions above. -/
macro "scost" : tactic => `(tactic| repeat (first
  | exact NCost.pure _ | exact NCost.ub _ | exact NCost.timeout
  | exact NCost.getObj _ | exact NCost.setObj _ _ | exact NCost.newObj _ _ | exact NCost.delObj _
  | exact putc_cost _ _ _ | exact load_cost _ _ | exact rd_cost _ _ | exact freeChars_cost _ _
  | exact allocInit_cost _ | exact length_cost _ | exact copyChars_cost _ _ _ _ | exact cmpChars_cost _ _ _ _
  | exact findChar_cost _ _ _ _ | assumption
  | refine NCost.bind (b₁ := 0) (b₂ := 0) ?_ (fun _ => ?_)
  | refine NCost.ite (fun _ => ?_) (fun _ => ?_)))

theorem ctor_cost (x : Nat) : NCost 1 (ctor t x) 0 := noexcept_cost (by scost)

theorem ctorPC_cost (x : Nat) (p : Ptr V) (n : Nat) : NCost 1 (ctorPC t x p n) 0 := by
  unfold ctorPC
  refine NCost.bind (b₁ := 0) (b₂ := 0) (NCost.newObj _ _) fun _ => NCost.onThrow (b' := 0) ?_ (NCost.delObj _)
  scost

theorem ctorC_cost (x : Nat) (p : Ptr V) : NCost 1 (ctorC t x p) 0 :=
  NCost.bind (b₁ := 0) (b₂ := 0) (length_cost p) fun _ => ctorPC_cost _ _ _

theorem data_cost (y : Nat) : NCost 1 (data y : SM V (Ptr V)) 0 := by unfold data; scost

theorem inputLoop1_cost (p : Option Nat) (cap : Nat) (cs : List V) (len : Nat) :
    NCost 1 (inputLoop1 p cap cs len) 0 := by
  induction cs generalizing len with
  | nil => exact NCost.pure _
  | cons c cs ih =>
    have := ih (len + 1)
    unfold inputLoop1
    scost

theorem inputLoop2_cost (x : Nat) (cs : List V) (len cap : Nat) : NCost 1 (inputLoop2 t x cs len cap) 0 := by
  induction cs generalizing len cap with
  | nil => exact NCost.pure _
  | cons c cs ih =>
    simp only [inputLoop2]
    scost
    · exact ih _ _
    · scost
      exact ih _ _

theorem ctorInput_cost (x : Nat) (cs : List V) : NCost 1 (ctorInput t x cs) 0 := by
  unfold ctorInput
  refine NCost.bind (b₁ := 0) (b₂ := 0) (NCost.newObj _ _) fun _ => NCost.onThrow (b' := 0) ?_ (NCost.delObj _)
  refine NCost.bind (b₁ := 0) (b₂ := 0) (NCost.getObj _) fun o =>
    NCost.bind (b₁ := 0) (b₂ := 0) (inputLoop1_cost _ _ _ _) fun r =>
    NCost.bind (b₁ := 0) (b₂ := 0) (inputLoop2_cost _ _ _ _) fun n => ?_
  scost

theorem reserve_cost (x n : Nat) : NCost 1 (reserve t x n) 0 := by unfold reserve; scost
theorem pushBack_cost (x : Nat) (r : Ptr V) : NCost 1 (pushBack t x r) 0 := by
  have := fun n => reserve_cost (t := t) x n
  unfold pushBack
  refine NCost.bind (b₁ := 0) (b₂ := 0) (NCost.getObj _) fun o => ?_
  have := this (o.cap * 2)
  scost
theorem append_cost (x : Nat) (p : Ptr V) (n : Nat) : NCost 1 (append t x p n) 0 := by unfold append; scost
theorem appendStr_cost (x y : Nat) : NCost 1 (appendStr t x y) 0 :=
  NCost.bind (b₁ := 0) (b₂ := 0) (NCost.getObj _) fun _ => append_cost _ _ _
theorem assignC_cost (x : Nat) (p : Ptr V) : NCost 1 (assignC t x p) 0 := by unfold assignC; scost

theorem collect_cost (p : Option Nat) (i n : Nat) : NCost 1 (collect p i n : SM V _) 0 := by
  induction n generalizing i with
  | zero => exact NCost.pure _
  | succ n ih => have := ih (i + 1); unfold collect; scost

theorem findLoop_cost (p s : Ptr V) (c0 : V) (size count fuel first len : Nat) :
    NCost 1 (findLoop t p s c0 size count fuel first len) 0 := by
  induction fuel generalizing first len with
  | zero => exact NCost.timeout
  | succ fuel ih =>
    unfold findLoop
    refine NCost.ite (fun _ => NCost.bind (b₁ := 0) (b₂ := 0) (findChar_cost _ _ _ _) fun r => ?_)
      fun _ => NCost.pure _
    cases r with
    | none => exact NCost.pure _
    | some f =>
      have := ih (f + 1) (size - (f + 1))
      scost

theorem findPC_cost (x : Nat) (s : Ptr V) (pos n : Nat) : NCost 1 (findPC t x s pos n) 0 := by
  have := fun o c => findLoop_cost (t := t) (.cell o 0) s c
  unfold findPC
  refine NCost.bind (b₁ := 0) (b₂ := 0) (NCost.getObj _) fun o => ?_
  refine NCost.ite (fun _ => NCost.pure _) fun _ => ?_
  refine NCost.ite (fun _ => NCost.pure _) fun _ => ?_
  exact NCost.bind (b₁ := 0) (b₂ := 0) (rd_cost _ _) fun c => this _ _ _ _ _ _ _

theorem compareC_cost (x : Nat) (s : Ptr V) : NCost 1 (compareC t x s) 0 := by unfold compareC; scost
theorem compare_cost (x y : Nat) : NCost 1 (compare t x y) 0 := by unfold compare; scost
theorem eq_cost (x y : Nat) : NCost 1 (eq t x y) 0 := by unfold eq; scost
theorem eval_cost (a : Arg V) : NCost 1 a.eval 0 := by cases a <;> simp only [Arg.eval] <;> scost

theorem bind0 {α β : Type} {m : SM V α} {f : α → SM V β} (h : NCost 1 m 0) (hf : ∀ a, NCost 1 (f a) 0) :
    NCost 1 (m >>= f) 0 := NCost.bind (b₁ := 0) (b₂ := 0) h hf

/-- Each statement makes no more operations that may throw than allocations. -/
theorem runOp_cost (op : Op V) : NCost 1 (runOp t op) 0 := by
  have ret : ∀ {α β : Type} {m : SM V α} {f : α → β}, NCost 1 m 0 → NCost 1 (do let a ← m; return f a) 0 :=
    fun h => bind0 h fun _ => NCost.pure _
  cases op with
  | new x => exact ret (ctor_cost x)
  | newPC x s n => exact bind0 (eval_cost s) fun _ => ret (ctorPC_cost _ _ _)
  | newC x s => exact bind0 (eval_cost s) fun _ => ret (ctorC_cost _ _)
  | newCopy x y => exact ret (bind0 (data_cost y) fun _ => ctorC_cost _ _)
  | newInput x cs => exact ret (ctorInput_cost x cs)
  | assignC x s => exact bind0 (eval_cost s) fun _ => ret (assignC_cost _ _)
  | assign x y => exact ret (bind0 (data_cost y) fun _ => assignC_cost _ _)
  | append x s n => exact bind0 (eval_cost s) fun _ => ret (append_cost _ _ _)
  | appendStr x y => exact ret (appendStr_cost x y)
  | pushBack x c => exact ret (pushBack_cost _ _)
  | pushBackFrom x y i => exact bind0 (NCost.getObj _) fun _ => ret (pushBack_cost _ _)
  | plusEqCh x c => exact ret (pushBack_cost _ _)
  | popBack x => exact ret (by unfold popBack; scost)
  | reserve x n => exact ret (reserve_cost x n)
  | clear x => exact ret (by unfold clear; scost)
  | set x i c => exact ret (by unfold set; scost)
  | destroy x => exact ret (by unfold dtor; scost)
  | size x => exact ret (by unfold size; scost)
  | empty x => exact ret (by unfold empty; scost)
  | get x i => exact ret (by unfold get; scost)
  | front x => exact ret (by unfold front; scost)
  | back x => exact ret (by unfold back; scost)
  | toList x => exact ret (bind0 (NCost.getObj _) fun _ => collect_cost _ _ _)
  | findPC x s pos n => exact bind0 (eval_cost s) fun _ => ret (findPC_cost _ _ _ _)
  | findC x s pos => exact bind0 (eval_cost s) fun _ => ret (bind0 (length_cost _) fun _ => findPC_cost _ _ _ _)
  | findStr x y pos =>
    exact ret (bind0 (data_cost y) fun _ => bind0 (length_cost _) fun _ => findPC_cost _ _ _ _)
  | findCh x c => exact ret (bind0 (NCost.getObj _) fun _ => findChar_cost _ _ _ _)
  | compare x y => exact ret (compare_cost x y)
  | compareC x s => exact bind0 (eval_cost s) fun _ => ret (compareC_cost _ _)
  | eq x y => exact ret (eq_cost x y)
  | eqGen x y => exact ret (ret (compare_cost x y))
  | eqC x s => exact bind0 (eval_cost s) fun _ => ret (ret (compareC_cost _ _))
  | neC x s => exact bind0 (eval_cost s) fun _ => ret (ret (ret (compareC_cost _ _)))
  | ne x y => exact ret (ret (eq_cost x y))
  | lt x y => exact ret (ret (compare_cost x y))
  | ltC x s => exact bind0 (eval_cost s) fun _ => ret (ret (compareC_cost _ _))
  | cLt s x => exact bind0 (eval_cost s) fun _ => ret (ret (compareC_cost _ _))

end Cest.Str
