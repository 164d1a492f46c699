import Verif.Stream.Wide
import Verif.Stream.OomRun
import Verif.Str.Caps
/-
Lemmas for C147: streams in programs that run out of storage.
-/
namespace Cest.Stream
open Cest
set_option linter.unusedSectionVars false
variable {V : Type} [DecidableEq V] {t : Traits V} {α β : Type}

/-- Set the countdown in the final state. -/
def armR (k : Option Nat) : Res (SSt V) α → Res (SSt V) α
  | .ok a s => .ok a (s.arm k)
  | .throw e s => .throw e (s.arm k)
  | .ub u => .ub u
  | .timeout => .timeout

/-- No capacity has changed. -/
def Caps (s s' : Str.SSt V) : Prop := ∀ x o', s'.objs x = some o' → ∃ o, s.objs x = some o ∧ o.cap = o'.cap

theorem Caps.refl (s : Str.SSt V) : Caps s s := fun _ o h => ⟨o, h, rfl⟩
theorem Caps.trans {s1 s2 s3 : Str.SSt V} (h : Caps s1 s2) (g : Caps s2 s3) : Caps s1 s3 := by
  intro x o' ho
  obtain ⟨o2, h2, e2⟩ := g x o' ho
  obtain ⟨o1, h1, e1⟩ := h x o2 h2
  exact ⟨o1, h1, by rw [e1, e2]⟩

/-- A statement about the state in which a computation ends. -/
def Ends (P : SSt V → Prop) : Res (SSt V) α → Prop
  | .ok _ s => P s
  | .throw _ s => P s
  | .ub _ => True
  | .timeout => True

/-- A computation that neither looks at the countdown nor changes it, nor a capacity. -/
structure Blind (m : SM V α) : Prop where
  arm : ∀ s k, m (s.arm k) = armR k (m s)
  caps : ∀ s, Ends (fun s' => Caps s.strs s'.strs) (m s)

theorem Blind.pure (a : α) : Blind (Pure.pure a : SM V α) := ⟨fun _ _ => rfl, fun _ => Caps.refl _⟩
theorem Blind.ub (u : UB) : Blind (M.ub u : SM V α) := ⟨fun _ _ => rfl, fun _ => trivial⟩
theorem Blind.timeout : Blind (M.timeout : SM V α) := ⟨fun _ _ => rfl, fun _ => trivial⟩
theorem Blind.throw (e : Exc) : Blind (M.throw e : SM V α) := ⟨fun _ _ => rfl, fun _ => Caps.refl _⟩

theorem Blind.bind {m : SM V α} {f : α → SM V β} (h : Blind m) (hf : ∀ a, Blind (f a)) : Blind (m >>= f) := by
  refine ⟨fun s k => ?_, fun s => ?_⟩
  · simp only [M.bind_apply, h.arm]
    cases m s <;> simp only [armR]
    exact (hf _).arm _ _
  · have h1 := h.caps s
    simp only [M.bind_apply]
    cases hm : m s <;> rw [hm] at h1 <;> simp only [Ends] at h1 ⊢
    · rename_i a s1
      have h2 := (hf a).caps s1
      cases hn : f a s1 <;> rw [hn] at h2 <;> simp only [Ends] at h2 ⊢
      · exact h1.trans h2
      · exact h1.trans h2
    · exact h1

theorem Blind.ite {p : Prop} [Decidable p] {m n : SM V α} (h1 : Blind m) (h2 : Blind n) :
    Blind (if p then m else n) := by
  by_cases h : p
  · simpa [h] using h1
  · simpa [h] using h2

theorem Blind.guarded {m : SM V (Out V)} (h : Blind m) : Blind (guarded m) := by
  refine ⟨fun s k => ?_, fun s => ?_⟩
  · simp only [Stream.guarded, M.tryCatch, h.arm]
    cases m s <;> simp only [armR]
    split <;> rfl
  · have h1 := h.caps s
    simp only [Stream.guarded, M.tryCatch]
    cases hm : m s with
    | ok a s' => rw [hm] at h1; exact h1
    | throw e s' => rw [hm] at h1; simp only []; split <;> exact h1
    | ub u => trivial
    | timeout => trivial

theorem Blind.ofLift {m : Str.SM V α} (h1 : ∀ s k, m { s with thr := k } = (m s).arm k)
    (h2 : ∀ s a s', m s = .ok a s' → Caps s s') (h3 : ∀ s e s', m s ≠ .throw e s') : Blind (Stream.lift m) := by
  refine ⟨fun s k => ?_, fun s => ?_⟩
  · have := h1 s.strs k
    simp only [Stream.lift, SSt.arm] at this ⊢
    rw [this]
    cases m s.strs <;> rfl
  · simp only [Stream.lift]
    cases hm : m s.strs with
    | ok a s' => exact h2 _ _ _ hm
    | throw e s' => exact absurd hm (h3 _ _ _)
    | ub u => trivial
    | timeout => trivial

theorem Blind.getIos (x : Nat) : Blind (getIos x : SM V Obj) :=
  ⟨fun s k => by simp only [Stream.getIos, SSt.arm]; cases s.ios x <;> rfl,
   fun s => by simp only [Stream.getIos]; cases s.ios x <;> simp only [Ends]; exact Caps.refl _⟩
theorem Blind.setIos (x : Nat) (o : Obj) : Blind (setIos x o : SM V Unit) :=
  ⟨fun s k => by simp only [Stream.setIos, SSt.arm]; cases s.ios x <;> rfl,
   fun s => by simp only [Stream.setIos]; cases s.ios x <;> simp only [Ends]; exact Caps.refl _⟩
theorem Blind.newIos (x : Nat) (o : Obj) : Blind (newIos x o : SM V Unit) :=
  ⟨fun s k => by simp only [Stream.newIos, SSt.arm]; cases s.ios x <;> rfl,
   fun s => by simp only [Stream.newIos]; cases s.ios x <;> simp only [Ends]; exact Caps.refl _⟩
theorem Blind.delIos (x : Nat) : Blind (delIos x : SM V Unit) :=
  ⟨fun s k => by simp only [Stream.delIos, SSt.arm]; cases s.ios x <;> rfl,
   fun s => by simp only [Stream.delIos]; cases s.ios x <;> simp only [Ends]; exact Caps.refl _⟩
theorem Blind.newArr (a : Nat) (l : List V) : Blind (newArr a l : SM V Unit) :=
  ⟨fun s k => by simp only [Stream.newArr, SSt.arm]; cases s.arr a <;> rfl,
   fun s => by simp only [Stream.newArr]; cases s.arr a <;> simp only [Ends]; exact Caps.refl _⟩
theorem Blind.getArr (a : Nat) : Blind (getArr a : SM V (List V)) :=
  ⟨fun s k => by simp only [Stream.getArr, SSt.arm]; cases s.arr a <;> rfl,
   fun s => by simp only [Stream.getArr]; cases s.arr a <;> simp only [Ends]; exact Caps.refl _⟩
theorem Blind.putArr (a i : Nat) (c : V) : Blind (putArr a i c : SM V Unit) :=
  ⟨fun s k => by simp only [Stream.putArr, SSt.arm]; cases s.arr a <;> simp only [] <;> first | rfl | (split <;> rfl),
   fun s => by
    simp only [Stream.putArr]; cases s.arr a <;> simp only []
    · trivial
    · split
      · exact Caps.refl _
      · trivial⟩
theorem Blind.padd (p : CP) (d : Int) : Blind (padd p d : SM V CP) := by
  refine ⟨fun s k => ?_, fun s => ?_⟩
  · simp only [Stream.padd, SSt.arm]
    cases p with
    | none => simp only []; split <;> rfl
    | some q => simp only []; split <;> first | rfl | (split <;> rfl)
  · simp only [Stream.padd]
    cases p with
    | none => simp only []; split <;> first | trivial | exact Caps.refl _
    | some q =>
      simp only []
      split
      · trivial
      · split <;> first | trivial | exact Caps.refl _

theorem Blind.plt (p q : CP) : Blind (plt p q : SM V Bool) := by
  unfold Stream.plt
  split
  · exact .pure _
  · exact .ite (.pure _) (.ub _)
  · exact .ub _
theorem Blind.pdiff (p q : CP) : Blind (pdiff p q : SM V Int) := by
  unfold Stream.pdiff
  split
  · exact .pure _
  · exact .ite (.pure _) (.ub _)
  · exact .ub _

theorem Blind.liftGet (x : Nat) : Blind (Stream.lift (getObj x) : SM V Str.Obj) := by
  refine .ofLift (fun s k => ?_) (fun s a s' h => ?_) fun s e s' h => ?_
  · simp only [getObj]; cases s.objs x <;> rfl
  · obtain ⟨rfl, -⟩ := Cest.getObj_inv h; exact Caps.refl _
  · simp only [getObj] at h; split at h <;> cases h

theorem Blind.liftSize (x : Nat) : Blind (Stream.lift (Str.size x) : SM V Nat) := by
  refine .ofLift (fun s k => ?_) (fun s a s' h => ?_) fun s e s' h => ?_
  · simp only [Str.size, M.bind_apply, getObj]; cases s.objs x <;> rfl
  · simp only [Str.size, M.bind_apply, getObj] at h; cases ho : s.objs x <;> rw [ho] at h <;> cases h; exact Caps.refl _
  · simp only [Str.size, M.bind_apply, getObj] at h; cases ho : s.objs x <;> rw [ho] at h <;> cases h

theorem Blind.liftCapacity (x : Nat) : Blind (Stream.lift (Str.capacity x) : SM V Nat) := by
  refine .ofLift (fun s k => ?_) (fun s a s' h => ?_) fun s e s' h => ?_
  · simp only [Str.capacity, M.bind_apply, getObj]; cases s.objs x <;> rfl
  · simp only [Str.capacity, M.bind_apply, getObj] at h; cases ho : s.objs x <;> rw [ho] at h <;> cases h; exact Caps.refl _
  · simp only [Str.capacity, M.bind_apply, getObj] at h; cases ho : s.objs x <;> rw [ho] at h <;> cases h

theorem Blind.liftData (x : Nat) : Blind (Stream.lift (Str.data x) : SM V (Str.Ptr V)) := by
  refine .ofLift (fun s k => ?_) (fun s a s' h => ?_) fun s e s' h => ?_
  · simp only [Str.data, M.bind_apply, getObj]; cases s.objs x <;> rfl
  · simp only [Str.data, M.bind_apply, getObj] at h; cases ho : s.objs x <;> rw [ho] at h <;> cases h; exact Caps.refl _
  · simp only [Str.data, M.bind_apply, getObj] at h; cases ho : s.objs x <;> rw [ho] at h <;> cases h

theorem Blind.liftLoad (b : Option Nat) (i : Nat) : Blind (Stream.lift (load b i) : SM V V) := by
  have h0 : ∀ s : Str.SSt V, load b i s = (match b with
      | none => .ub .null
      | some a => match s.mem a with
        | none => .ub .dangling
        | some bl => if i < bl.len then (match bl.slot i with
          | none => .ub .deadRead
          | some v => .ok v s) else .ub .oob) := by
    intro s
    simp only [load, withSlot, M.bind_apply, deref]
    cases b with
    | none => rfl
    | some a =>
      simp only [getC]
      cases s.mem a with
      | none => rfl
      | some bl =>
        simp only []
        split
        · cases bl.slot i <;> rfl
        · rfl
  refine .ofLift (fun s k => ?_) (fun s a s' h => ?_) fun s e s' h => ?_
  · rw [h0, h0]
    cases b with
    | none => rfl
    | some a =>
      simp only []
      cases s.mem a with
      | none => rfl
      | some bl =>
        simp only []
        split
        · cases bl.slot i <;> rfl
        · rfl
  · obtain ⟨h1, -⟩ := Str.load_quiet _ _ _ _ _ h
    intro x o ho; exact ⟨o, by rw [← h1]; exact ho, rfl⟩
  · rw [h0] at h
    repeat' (split at h)
    all_goals cases h

theorem Blind.liftDtor (x : Nat) : Blind (Stream.lift (Str.dtor x) : SM V Unit) := by
  have h0 : ∀ s : Str.SSt V, Str.dtor x s = (match s.objs x with
      | none => .ub .noObject
      | some o => match o.p with
        | none => .ok () { s with objs := upd s.objs x none }
        | some a => match s.mem a with
          | none => .ub .badFree
          | some bl => if bl.len ≠ o.cap + 1 then .ub .badFree
            else .ok () { s with objs := upd s.objs x none, mem := upd s.mem a none }) := by
    intro s
    simp only [Str.dtor, M.bind_apply, getObj]
    cases ho : s.objs x with
    | none => rfl
    | some o =>
      simp only [Str.freeChars]
      cases o.p with
      | none => simp [delObj, ho]
      | some a =>
        simp only []
        cases s.mem a with
        | none => rfl
        | some bl =>
          simp only []
          by_cases hl : bl.len = o.cap + 1
          · simp [hl, delObj, ho]
          · simp [hl]
  refine .ofLift (fun s k => ?_) (fun s a s' h => ?_) fun s e s' h => ?_
  · rw [h0, h0]
    cases s.objs x with
    | none => rfl
    | some o =>
      simp only []
      cases o.p with
      | none => rfl
      | some a =>
        simp only []
        cases s.mem a with
        | none => rfl
        | some bl =>
          simp only []
          by_cases hl : bl.len = o.cap + 1
          · simp [hl, Res.arm]
          · simp [hl, Res.arm]
  · rw [h0] at h
    have : s'.objs = upd s.objs x none := by
      repeat' (split at h)
      all_goals (cases h <;> rfl)
    intro z o' ho
    rw [this] at ho
    by_cases hz : z = x
    · subst hz; simp at ho
    · simp [hz] at ho; exact ⟨o', ho, rfl⟩
  · rw [h0] at h
    repeat' (split at h)
    all_goals cases h

theorem Blind.pread (p : CP) : Blind (pread p : SM V V) := by
  unfold Stream.pread
  split
  · exact .ub _
  · exact .liftLoad _ _

theorem Blind.forN {f : Nat → SM V Unit} (h : ∀ i, Blind (f i)) (i n : Nat) : Blind (forN f i n) := by
  induction n generalizing i with
  | zero => exact .pure ()
  | succ n ih => exact .bind (h i) fun _ => ih (i + 1)

/-- Compose the lemmas along the program text. -/
macro "blind" : tactic => `(tactic| repeat' (first
  | assumption
  | exact Blind.pure _ | exact Blind.ub _ | exact Blind.timeout | exact Blind.throw _
  | exact Blind.getIos _ | exact Blind.setIos _ _ | exact Blind.newIos _ _ | exact Blind.delIos _
  | exact Blind.newArr _ _ | exact Blind.getArr _ | exact Blind.putArr _ _ _
  | exact Blind.padd _ _ | exact Blind.plt _ _ | exact Blind.pdiff _ _ | exact Blind.pread _
  | exact Blind.liftGet _ | exact Blind.liftSize _ | exact Blind.liftCapacity _ | exact Blind.liftData _
  | exact Blind.liftLoad _ _ | exact Blind.liftDtor _
  | refine Blind.bind ?_ fun _ => ?_
  | refine Blind.ite ?_ ?_
  | split))

theorem clear_blind (x : Nat) (b : Bits) : Blind (clear x b : SM V Unit) := by unfold clear; blind
theorem rdstate_blind (x : Nat) : Blind (rdstate x : SM V Bits) := by unfold rdstate; blind
theorem setstate_blind (x : Nat) (b : Bits) : Blind (setstate x b : SM V Unit) := by
  unfold setstate; exact .bind (rdstate_blind x) fun _ => clear_blind _ _
theorem good_blind (x : Nat) : Blind (good x : SM V Bool) := by
  unfold good; exact .bind (rdstate_blind x) fun _ => .pure _
theorem eof_blind (x : Nat) : Blind (eof x : SM V Bool) := by
  unfold eof; exact .bind (rdstate_blind x) fun _ => .pure _
theorem fail_blind (x : Nat) : Blind (fail x : SM V Bool) := by
  unfold fail; exact .bind (rdstate_blind x) fun _ => .pure _
theorem toBool_blind (x : Nat) : Blind (toBool x : SM V Bool) := by
  unfold toBool; exact .bind (fail_blind x) fun _ => .pure _
theorem mask_blind (x : Nat) : Blind (mask x : SM V Bits) := by unfold mask; blind
theorem setMask_blind (x : Nat) (b : Bits) : Blind (setMask x b : SM V Unit) := by
  have := fun c => clear_blind (V := V) x c
  unfold setMask; blind
theorem init_blind (x : Nat) (b : Bool) : Blind (init x b : SM V Unit) := by
  have := fun c => clear_blind (V := V) x c
  unfold init; blind
theorem gbump_blind (x : Nat) (d : Int) : Blind (gbump x d : SM V Unit) := by unfold gbump; blind
theorem pbump_blind (x : Nat) (d : Int) : Blind (pbump x d : SM V Unit) := by unfold pbump; blind
theorem setg_blind (x : Nat) (b c e : CP) : Blind (setg x b c e : SM V Unit) := by unfold setg; blind
theorem setp_blind (x : Nat) (b e : CP) : Blind (setp x b e : SM V Unit) := by
  unfold setp; blind
theorem uflow_blind (x : Nat) : Blind (uflow t x) := by
  have := fun d => gbump_blind (V := V) x d
  unfold uflow underflow; blind
theorem sbumpc_blind (x : Nat) : Blind (sbumpc t x) := by
  have := gbump_blind (V := V) x 1
  have := uflow_blind (t := t) x
  unfold sbumpc; blind
theorem sungetc_blind (x : Nat) : Blind (sungetc t x) := by
  have := gbump_blind (V := V) x (-1)
  unfold sungetc pbackfail; blind
theorem copyOut_blind (a i : Nat) (p : CP) (n : Nat) : Blind (copyOut a i p n : SM V Unit) := by
  unfold copyOut; refine .forN (fun k => ?_) _ _; blind
theorem xsgetn_blind (x a i n fuel ret : Nat) : Blind (xsgetn t x a i n fuel ret) := by
  induction fuel generalizing ret with
  | zero => exact .timeout
  | succ fuel ih =>
    have h1 := fun d => gbump_blind (V := V) x d
    have h2 := uflow_blind (t := t) x
    have h3 := fun j p m => copyOut_blind (V := V) a j p m
    unfold xsgetn
    blind
    all_goals first | apply ih | apply h1 | apply h3
theorem setGcount_blind (x n : Nat) : Blind (setGcount x n : SM V Unit) := by unfold setGcount; blind
theorem gcount_blind (x : Nat) : Blind (gcount x : SM V Nat) := by unfold gcount; blind
theorem sentry_blind (x : Nat) : Blind (sentry x : SM V Bool) := by
  have := good_blind (V := V) x
  have := setstate_blind (V := V) x Bits.failbit
  unfold sentry; blind
theorem get_blind (x a i : Nat) : Blind (get t x a i) := by
  have := fun n => setGcount_blind (V := V) x n
  have h1 := this 0
  have h2 := this 1
  have := gcount_blind (V := V) x
  have := sentry_blind (V := V) x
  have := sbumpc_blind (t := t) x
  have h3 := fun b => setstate_blind (V := V) x b
  unfold get; blind; all_goals apply h3
theorem unget_blind (x : Nat) : Blind (unget t x) := by
  have h1 := setGcount_blind (V := V) x 0
  have := rdstate_blind (V := V) x
  have := sentry_blind (V := V) x
  have := sungetc_blind (t := t) x
  have h2 := fun b => clear_blind (V := V) x b
  have h3 := setstate_blind (V := V) x Bits.badbit
  unfold unget; blind; all_goals apply h2
theorem read_blind (x a i n : Nat) : Blind (read t x a i n) := by
  have h1 := fun n => setGcount_blind (V := V) x n
  have := sentry_blind (V := V) x
  have h4 : Blind (sgetn t x a i n) := xsgetn_blind _ _ _ _ _ _
  have h3 := setstate_blind (V := V) x (Bits.eofbit.or Bits.failbit)
  unfold read; blind; all_goals apply h1
theorem sync_blind (x : Nat) (b : CP) (i o : Nat) : Blind (sync x b i o : SM V Unit) := by
  have h1 := fun b c e => setg_blind (V := V) x b c e
  have h2 := fun b e => setp_blind (V := V) x b e
  have h3 := fun d => pbump_blind (V := V) x d
  unfold sync; blind
  all_goals first | apply h1 | apply h2 | apply h3
theorem stringbufInit_blind (x : Nat) (m : Mode) : Blind (stringbufInit x m : SM V Unit) := by
  have h1 := fun b i o => sync_blind (V := V) x b i o
  unfold stringbufInit bufData; blind; all_goals apply h1
theorem newNull_blind (x : Nat) : Blind (newNull x : SM V Unit) := by
  have := init_blind (V := V) x false
  unfold newNull; blind
theorem dtor_blind (x : Nat) : Blind (dtor x : SM V Unit) := by unfold dtor; blind
theorem destroy_blind (x : Nat) : Blind (destroy x : SM V Unit) := by
  have := dtor_blind (V := V) x
  unfold destroy; blind
theorem fclose_blind (x : Nat) : Blind (fclose x : SM V Nat) := by
  have := dtor_blind (V := V) x
  unfold fclose; blind
theorem fread_blind (x a i n c : Nat) : Blind (fread t x a i n c) := by
  have := read_blind (t := t) x a i (n * c)
  have := gcount_blind (V := V) x
  unfold fread; blind

/-- The statements that allocate nothing. -/
def Free : Op V → Prop
  | .newStr .. | .newIS _ | .newISs .. | .newSS _ | .newSSs .. | .setStr .. | .fmemopen .. => False
  | _ => True

theorem runOp_blind {op : Op V} (h : Free op) : Blind (runOp t op) := by
  have ret : ∀ {α β : Type} {m : SM V α} {f : α → β}, Blind m → Blind (do let a ← m; return f a) :=
    fun h => .bind h fun _ => .pure _
  cases op <;> first | exact absurd h id | skip
  all_goals simp only [runOp]
  case newArr => exact ret (.newArr _ _)
  case vals => exact ret (.getArr _)
  case delStr => exact ret (.liftDtor _)
  case newNull => exact ret (newNull_blind _)
  case get => exact .guarded (ret (get_blind _ _ _))
  case read => exact .guarded (ret (read_blind _ _ _ _))
  case unget => exact .guarded (ret (unget_blind _))
  case gcount => exact ret (gcount_blind _)
  case clear => exact .guarded (ret (clear_blind _ _))
  case setstate => exact .guarded (ret (setstate_blind _ _))
  case rdstate => exact ret (rdstate_blind _)
  case good => exact ret (good_blind _)
  case eof => exact ret (eof_blind _)
  case fail => exact ret (fail_blind _)
  case bool => exact ret (toBool_blind _)
  case not => exact ret (fail_blind _)
  case mask => exact ret (mask_blind _)
  case setMask => exact .guarded (ret (setMask_blind _ _))
  case destroy => exact ret (destroy_blind _)
  case fread => exact .guarded (ret (fread_blind _ _ _ _ _))
  case fclose => exact ret (fclose_blind _)

end Cest.Stream
