import Verif.Sptr.Proofs
/-
Properties of shared_ptr (C54, C55, C56, C85).
-/
namespace Cest.Sptr
open Cest
variable {V : Type}

/-- What a machine state must look like for a specification state: the same variables, the same living
objects with the same values, and one control block per living group whose count is the number of owners. -/
structure Shows (st : SSt V) (s : State V) : Prop where
  vars : ∀ x, st.objs x = (s.vars.look x).map (fun h => ⟨h.obj, h.grp⟩)
  objs : ∀ o v, st.mem o = some (.val v) ↔ s.objs o = some v
  grps : ∀ g n m, st.mem g = some (.ctrl n m) ↔ (s.grps g = some m ∧ n = s.vars.owners g)

theorem Inv.shows {st : SSt V} {s : State V} (hI : Inv st s) : Shows st s := by
  refine ⟨hI.ob, ?_, ?_⟩
  · intro o v
    rw [hI.mem]
    simp only [memOf]
    split
    · next w hw => simp [hw]
    · next hw =>
      split <;> simp [hw]
  · intro g n m
    rw [hI.mem]
    simp only [memOf]
    split
    · next w hw =>
      have := hI.S.disj g (by simp [hw])
      simp [this]
    · split
      · next m' hm => simp [hm]; constructor <;> (rintro ⟨rfl, rfl⟩; exact ⟨rfl, rfl⟩)
      · next hm => simp [hm]

/-! ## C54 -/

/-- C54 Histories of supported operations run without undefined behaviour, answer (`use_count` included)
what the specification says, and end in the state it describes. -/
theorem C54_sptr_history_supported (ops : List (Op V)) (s : State V) (os : List (Out V))
    (h : specRun State.empty ops = some (s, os)) (hg : SupportedRun State.empty ops) :
    ∃ st, runOps ops St.init = .ok os st ∧ Shows st s := by
  obtain ⟨st, h1, h2⟩ := run_refines Inv.init h hg
  exact ⟨st, h1, h2.shows⟩

/-- The operations listed in C54: everything but default construction and assignment. -/
def Listed : Op V → Prop
  | .new _ => False
  | .assign _ _ => False
  | _ => True

/-- Every variable belongs to some group. -/
def AllOwned (s : State V) : Prop := ∀ x h, s.vars.look x = some h → h.grp ≠ none

theorem collect_vars (s : State V) (g : Option Nat) : (s.collect g).vars = s.vars := by
  cases g with
  | none => rfl
  | some g => simp only [State.collect]; split <;> rfl

theorem allOwned_cons {s : State V} (hA : AllOwned s) {x : Nat} {k : Handle} (hk : k.grp ≠ none)
    {f g n} : AllOwned ({ vars := (x, k) :: s.vars, objs := f, grps := g, next := n } : State V) := by
  intro y h hy
  simp only [Vars.look] at hy
  split at hy
  · cases hy; exact hk
  · exact hA y h hy

theorem allOwned_step {st : SSt V} {s s' : State V} {op : Op V} {o : Out V} (hI : Inv st s)
    (hA : AllOwned s) (hl : Listed op) (hs : specStep s op = some (s', o)) : AllOwned s' := by
  cases op <;> simp only [specStep] at hs
  case new => exact hl.elim
  case assign => exact hl.elim
  case make =>
    split at hs <;> simp at hs
    obtain ⟨rfl, rfl⟩ := hs
    exact allOwned_cons hA (by simp)
  case makeNull =>
    split at hs <;> simp at hs
    obtain ⟨rfl, rfl⟩ := hs
    exact allOwned_cons hA (by simp)
  case copy =>
    split at hs <;> simp at hs
    obtain ⟨rfl, rfl⟩ := hs
    next hy => exact allOwned_cons hA (hA _ _ hy)
  case alias =>
    split at hs <;> simp at hs
    obtain ⟨rfl, rfl⟩ := hs
    next h k _ hy _ => exact allOwned_cons hA (k := ⟨k.obj, h.grp⟩) (hA _ h hy)
  case destroy =>
    split at hs <;> simp at hs
    obtain ⟨rfl, rfl⟩ := hs
    intro y h hy
    rw [collect_vars] at hy
    simp only [look_drop hI.S.nd] at hy
    split at hy
    · cases hy
    · exact hA y h hy
  case useCount =>
    split at hs <;> simp at hs <;> (obtain ⟨rfl, rfl⟩ := hs; exact hA)
  case get =>
    split at hs
    · split at hs <;> simp at hs
      obtain ⟨rfl, rfl⟩ := hs
      exact hA
    · cases hs
  case set =>
    split at hs
    · split at hs <;> simp at hs
      obtain ⟨rfl, rfl⟩ := hs
      exact hA
    · cases hs
  case toBool =>
    split at hs <;> simp at hs
    obtain ⟨rfl, rfl⟩ := hs
    exact hA
  case same =>
    split at hs <;> simp at hs
    obtain ⟨rfl, rfl⟩ := hs
    exact hA

theorem run_listed {st : SSt V} {s s' : State V} {ops : List (Op V)} {os : List (Out V)}
    (hI : Inv st s) (hA : AllOwned s) (hl : ∀ op ∈ ops, Listed op)
    (hs : specRun s ops = some (s', os)) : ∃ st', runOps ops st = .ok os st' ∧ Inv st' s' := by
  induction ops generalizing st s os with
  | nil => simp [specRun] at hs; obtain ⟨rfl, rfl⟩ := hs; exact ⟨st, rfl, hI⟩
  | cons op ops ih =>
    simp only [specRun] at hs
    split at hs
    · cases hs
    · next e1 o h1 =>
      split at hs
      · cases hs
      · next e2 os' h2 =>
        simp at hs
        obtain ⟨rfl, rfl⟩ := hs
        have hop := hl op (by simp)
        have hg : Supported s op := by
          cases op <;> simp only [Supported]
          case copy => exact fun h hy => hA _ h hy
          case alias => exact fun h hy => hA _ h hy
          case assign => exact hop.elim
        obtain ⟨st1, r1, g1⟩ := step_refines hI h1 hg
        obtain ⟨st2, r2, g2⟩ := ih g1 (allOwned_step hI hA hop h1)
          (fun op h => hl op (List.mem_cons_of_mem _ h)) h2
        exact ⟨st2, by simp [runOps, r1, r2], g2⟩

/-- C54 Every history of construction from new objects, copy construction, aliasing construction, use and
destruction, in any order, runs without undefined behaviour, answers what the specification says, and
ends in the state it describes. -/
theorem C54_sptr_history (ops : List (Op V)) (s : State V) (os : List (Out V))
    (hl : ∀ op ∈ ops, Listed op) (h : specRun State.empty ops = some (s, os)) :
    ∃ st, runOps ops St.init = .ok os st ∧ Shows st s := by
  obtain ⟨st, h1, h2⟩ := run_listed Inv.init (by intro x h hx; simp [State.empty, Vars.look] at hx) hl h
  exact ⟨st, h1, h2.shows⟩

/-- Machine states reached by histories of supported operations. -/
def Reach (st : SSt V) : Prop :=
  ∃ ops s os, specRun State.empty ops = some (s, os) ∧ SupportedRun State.empty ops ∧
    runOps ops St.init = .ok os st

theorem Reach.inv {st : SSt V} (h : Reach st) : ∃ s, Inv st s := by
  obtain ⟨ops, s, os, h1, h2, h3⟩ := h
  obtain ⟨st', h4, h5⟩ := run_refines Inv.init h1 h2
  rw [h3] at h4
  cases h4
  exact ⟨s, h5⟩

/-- Does variable `y` own group `g`? -/
def owns (st : SSt V) (g y : Nat) : Bool :=
  match st.objs y with
  | some o => o.ctrl == some g
  | none => false

theorem owners_eq_countP {l : Vars} (hn : l.keys.Nodup) (g : Nat) :
    l.owners g = l.keys.countP (fun y => match l.look y with
      | some h => h.grp == some g
      | none => false) := by
  induction l with
  | nil => rfl
  | cons a l ih =>
    obtain ⟨y, k⟩ := a
    simp only [Vars.keys, List.map_cons, List.nodup_cons] at hn
    have ih' := ih hn.2
    simp only [Vars.owners, Vars.keys, List.map_cons, List.countP_cons, Vars.look, if_true]
    rw [ih']
    simp only [Vars.keys]
    have e1 : List.countP (fun y => match Vars.look l y with
        | some (h : Handle) => h.grp == some g
        | none => false) (l.map (·.1)) =
      List.countP (fun z => match (if z = y then some k else Vars.look l z) with
        | some (h : Handle) => h.grp == some g
        | none => false) (l.map (·.1)) := by
      apply List.countP_congr
      intro z hz
      have : z ≠ y := by intro e; subst e; exact hn.1 hz
      simp [this]
    rw [e1]
    simp

/-- C54 `use_count()` is the number of living shared_ptrs that share the control block, however the
living variables are enumerated. -/
theorem C54_sptr_use_count (st : SSt V) (hr : Reach st) (x g : Nat) (p : Option Nat)
    (hx : st.objs x = some ⟨p, some g⟩) (L : List Nat) (hL : L.Nodup)
    (hLm : ∀ y, y ∈ L ↔ st.objs y ≠ none) :
    useCount x st = .ok (L.countP (owns st g) : Nat) st := by
  obtain ⟨s, hI⟩ := hr.inv
  have hlx : s.vars.look x = some ⟨p, some g⟩ := by
    have := hI.ob x
    rw [hx] at this
    cases hl : s.vars.look x with
    | none => simp [hl] at this
    | some h =>
      obtain ⟨a, b⟩ := h
      simp [hl, conc] at this
      obtain ⟨rfl, rfl⟩ := this
      rfl
  obtain ⟨m, hm⟩ := grp_alive hI hlx rfl
  have hc : st.mem g = some (.ctrl (s.vars.owners g) m) := by rw [hI.mem, memOf_ctrl hI.S hm]
  have hP : L.Perm s.vars.keys := by
    rw [List.perm_ext_iff_of_nodup hL hI.S.nd]
    intro y
    rw [hLm, hI.ob]
    have := look_none_iff s.vars y
    cases e : s.vars.look y with
    | none => simp [e] at this ⊢; exact this
    | some h => simp [e] at this ⊢; exact this
  have hcnt : s.vars.owners g = L.countP (owns st g) := by
    rw [hP.countP_eq, owners_eq_countP hI.S.nd]
    congr 1
    funext y
    simp only [owns, hI.ob]
    cases s.vars.look y with
    | none => rfl
    | some h => rfl
  rw [← hcnt]
  simp only [useCount, M.bind_apply]
  rw [getObj_some hx]
  simp only [M.bind_apply]
  rw [getCtrl_ok hc]
  rfl

/-- C54 An object managed by a control block is alive exactly as long as some living shared_ptr owns that
control block; in particular the deleter runs exactly when the last owner goes. -/
theorem C54_sptr_alive_iff_owned (st : SSt V) (hr : Reach st) (o : Nat) :
    (∃ v, st.mem o = some (.val v)) ↔
      ∃ x p g n, st.objs x = some ⟨p, some g⟩ ∧ st.mem g = some (.ctrl n (some o)) := by
  obtain ⟨s, hI⟩ := hr.inv
  have sh := hI.shows
  have find : ∀ (l : Vars) g, 0 < l.owners g → l.keys.Nodup → ∃ x h, l.look x = some h ∧ h.grp = some g := by
    intro l g
    induction l with
    | nil => intro h; simp [Vars.owners] at h
    | cons a l ih =>
      obtain ⟨y, k⟩ := a
      intro h hn
      simp only [Vars.keys, List.map_cons, List.nodup_cons] at hn
      simp only [Vars.owners] at h
      by_cases e : k.grp = some g
      · exact ⟨y, k, by simp [Vars.look], e⟩
      · simp [e] at h
        obtain ⟨x, h', h1, h2⟩ := ih h hn.2
        refine ⟨x, h', ?_, h2⟩
        have : x ≠ y := by
          intro e'; subst e'
          have hc := (look_none_iff l x).2 hn.1
          rw [hc] at h1; cases h1
        simp [Vars.look, this, h1]
  constructor
  · rintro ⟨v, hv⟩
    have hov := (sh.objs o v).1 hv
    obtain ⟨g, hg⟩ := hI.S.held o (by simp [hov])
    obtain ⟨x, h, h1, h2⟩ := find s.vars g ((hI.S.own g).1 (by simp [hg])) hI.S.nd
    refine ⟨x, h.obj, g, s.vars.owners g, ?_, (sh.grps _ _ _).2 ⟨hg, rfl⟩⟩
    rw [sh.vars, h1]
    simp [h2]
  · rintro ⟨x, p, g, n, _, h2⟩
    have hg := ((sh.grps _ _ _).1 h2).1
    cases hv : s.objs o with
    | none => exact absurd hv (hI.S.man _ _ hg)
    | some v => exact ⟨v, (sh.objs o v).2 hv⟩

/-- C54 When all shared_ptrs are gone, every object and every control block has been freed. -/
theorem C54_sptr_no_leak (st : SSt V) (hr : Reach st) (h : ∀ x, st.objs x = none) :
    ∀ a, st.mem a = none := by
  obtain ⟨s, hI⟩ := hr.inv
  have hk : s.vars = [] := by
    cases e : s.vars with
    | nil => rfl
    | cons a l =>
      have := hI.ob a.1
      rw [h, e] at this
      simp [Vars.look] at this
  have hg : ∀ g, s.grps g = none := by
    intro g
    apply Classical.byContradiction
    intro hc
    have := (hI.S.own g).1 hc
    simp [hk, Vars.owners] at this
  intro a
  rw [hI.mem, memOf]
  cases e : s.objs a with
  | none => simp [hg]
  | some v =>
    obtain ⟨g, hg'⟩ := hI.S.held a (by simp [e])
    rw [hg g] at hg'
    cases hg'

/-- Witness history for C54. -/
def demo : List (Op Nat) :=
  [.make 0 5, .copy 1 0, .make 2 6, .alias 3 0 2, .useCount 0, .useCount 2, .same 2 3, .destroy 0, .get 1,
   .set 3 9, .get 2, .destroy 1, .useCount 3, .toBool 3, .makeNull 4, .toBool 4, .useCount 4, .destroy 4,
   .destroy 3, .destroy 2]

example : (∀ op ∈ demo, Listed op) := by simp [demo, Listed]
example : ∃ s, specRun State.empty demo = some (s,
    [.unit, .unit, .unit, .unit, .count 3, .count 1, .bool true, .unit, .val 5, .unit, .val 9, .unit,
     .count 1, .bool true, .unit, .bool false, .count 1, .unit, .unit, .unit]) ∧ s.vars = [] :=
  ⟨_, rfl, rfl⟩
/-- A reachable state with a shared object, as the C54 theorems require. -/
example : ∃ (st : SSt Nat), Reach st ∧ (∃ p g, st.objs 0 = some ⟨p, some g⟩) ∧
    (∀ y, y ∈ [1, 0] ↔ st.objs y ≠ none) := by
  obtain ⟨st, h1, h2⟩ := C54_sptr_history (V := Nat) [.make 0 5, .copy 1 0] _ _ (by simp [Listed]) rfl
  refine ⟨st, ⟨_, _, _, rfl, ?_, h1⟩, ⟨_, _, h2.vars 0⟩, ?_⟩
  · simp [SupportedRun, Supported, specStep, State.empty, Vars.look]
  · intro y
    rw [h2.vars]
    simp only [Vars.look]
    by_cases e1 : y = 1
    · simp [e1]
    · by_cases e0 : y = 0 <;> simp [e0, e1, State.empty, Vars.look]

/-! ## C55 -/

/-- C55 (violated) Copying an empty shared_ptr dereferences its null control pointer, in every state. -/
theorem C55_sptr_copy_empty_ub (st : SSt V) (x y : Nat) (p : Option Nat)
    (hx : st.objs x = none) (hy : st.objs y = some ⟨p, none⟩) (q : Option Nat) :
    ctorCopy x y st = .ub .null ∧ ctorAlias x y q st = .ub .null := by
  constructor
  · simp only [ctorCopy, M.bind_apply]
    rw [getObj_some hy]
    simp only []
    rw [newObj_none hx]
    rfl
  · simp only [ctorAlias, M.bind_apply]
    rw [getObj_some hy]
    simp only []
    rw [newObj_none hx]
    rfl

/-- C55 as stated fails: the specification allows copying a default-constructed shared_ptr and says the
copy has use_count 0; the code has undefined behaviour. -/
theorem C55_sptr_copy_empty_refuted :
    ¬ ∀ (ops : List (Op Nat)) (s : State Nat) (os : List (Out Nat)),
      specRun State.empty ops = some (s, os) → ∃ st, runOps ops St.init = .ok os st := by
  intro h
  obtain ⟨st, hst⟩ := h [.new 0, .copy 1 0, .useCount 1] _ [.unit, .unit, .count 0] rfl
  have : runOps (V := Nat) [.new 0, .copy 1 0, .useCount 1] St.init = .ub .null := by rfl
  rw [this] at hst
  cases hst

/-- C55 (part that holds) An empty shared_ptr itself is harmless: `use_count()` is 0, it converts to
false, and it can be destroyed; nothing else changes.  Missing: copying it. -/
theorem C55_sptr_empty_partial (st : SSt V) (x : Nat) (hx : st.objs x = none) :
    ∃ st1, ctor x st = .ok () st1 ∧ useCount x st1 = .ok 0 st1 ∧ toBool x st1 = .ok false st1 ∧
      dtor x st1 = .ok () st := by
  refine ⟨{ st with objs := upd st.objs x (some ⟨none, none⟩) }, ?_, ?_, ?_, ?_⟩
  · rw [ctor, newObj_none hx]
  · simp [useCount, getObj]
  · simp [toBool, getObj]
  · simp [dtor, getObj, delObj, upd_upd]
    rw [← hx, upd_self]

/-! ## C56 -/

/-- C56 (violated) Copy assignment between different groups does not touch the counts: in every reachable
state, after `x = y` the control block of `y` has one owner more but still the old count. -/
theorem C56_sptr_assign_count_wrong (st : SSt V) (hr : Reach st) (x y g : Nat) (p : Option Nat)
    (c : Option Nat) (q : Option Nat) (hx : st.objs x = some ⟨p, c⟩) (hy : st.objs y = some ⟨q, some g⟩)
    (hne : c ≠ some g) (L : List Nat) (hL : L.Nodup) (hLm : ∀ z, z ∈ L ↔ st.objs z ≠ none) :
    ∃ st', assign x y st = .ok () st' ∧
      useCount y st' = .ok ((L.countP (owns st' g) : Nat) - 1 : Int) st' := by
  have hxy : x ≠ y := by intro e; subst e; rw [hx] at hy; cases hy; exact hne rfl
  have hu := C54_sptr_use_count st hr y g q hy L hL hLm
  refine ⟨{ st with objs := upd st.objs x (some ⟨q, some g⟩) }, ?_, ?_⟩
  · simp [assign, getObj, setObj, hx, hy]
  · have hcnt : L.countP (owns { st with objs := upd st.objs x (some ⟨q, some g⟩) } g) =
        L.countP (owns st g) + 1 := by
      have hxL : x ∈ L := (hLm x).2 (by simp [hx])
      clear hu hLm
      induction L with
      | nil => simp at hxL
      | cons a L ih =>
        simp only [List.nodup_cons] at hL
        by_cases e : a = x
        · subst e
          have h1 : L.countP (owns { st with objs := upd st.objs a (some ⟨q, some g⟩) } g) =
              L.countP (owns st g) := by
            apply List.countP_congr
            intro z hz
            have : z ≠ a := by intro e; subst e; exact hL.1 hz
            simp [owns, this]
          have h2 : owns st g a = false := by simp [owns, hx, hne]
          have h3 : owns { st with objs := upd st.objs a (some ⟨q, some g⟩) } g a = true := by simp [owns]
          rw [List.countP_cons, List.countP_cons, h1, h2, h3]
          simp
        · have hxL' : x ∈ L := by simpa [Ne.symm e] using hxL
          have := ih hL.2 hxL'
          have h2 : owns { st with objs := upd st.objs x (some ⟨q, some g⟩) } g a = owns st g a := by
            simp [owns, e]
          rw [List.countP_cons, List.countP_cons, this, h2]
          omega
    rw [hcnt]
    have e1 : ((L.countP (owns st g) + 1 : Nat) - 1 : Int) = (L.countP (owns st g) : Nat) := by omega
    rw [e1]
    obtain ⟨s, hI⟩ := hr.inv
    -- the control block is untouched
    simp only [useCount, M.bind_apply, getObj_some hy] at hu
    simp only [useCount, M.bind_apply]
    rw [getObj_some (o := ⟨q, some g⟩) (by simp [Ne.symm hxy, hy])]
    simp only [getCtrl, M.bind_apply, deref_some] at hu ⊢
    cases hm : st.mem g with
    | none => simp [getC, hm] at hu
    | some cc =>
      cases cc with
      | val v => simp [getC, hm] at hu
      | ctrl n m =>
        simp only [getC, hm, M.pure_apply] at hu ⊢
        cases hu
        rfl

/-- C56 as stated fails: after `a = b` the last destructor uses a freed control block. -/
theorem C56_sptr_assign_refuted :
    ¬ ∀ (ops : List (Op Nat)) (s : State Nat) (os : List (Out Nat)),
      (∀ op ∈ ops, ∀ x, op ≠ .new x) →
      specRun State.empty ops = some (s, os) → ∃ st, runOps ops St.init = .ok os st := by
  intro h
  obtain ⟨st, hst⟩ := h [.make 0 5, .make 1 6, .assign 0 1, .destroy 0, .destroy 1] _ _ (by simp) rfl
  have : runOps (V := Nat) [.make 0 5, .make 1 6, .assign 0 1, .destroy 0, .destroy 1] St.init
      = .ub .dangling := by
    simp [runOps, runOp, ctorPtr, allocC, tick, St.init, newObj, assign, getObj, setObj, dtor, getCtrl, getC,
      setC, destroy, del, freeC, delObj]
  rw [this] at hst
  cases hst

/-- C56 (violated) The old object of the assigned-to pointer is never deleted: a leak. -/
theorem C56_sptr_assign_leaks :
    ∃ st, runOps (V := Nat) [.make 0 5, .new 1, .assign 0 1, .destroy 0, .destroy 1] St.init =
        .ok [.unit, .unit, .unit, .unit, .unit] st ∧
      (∀ x, st.objs x = none) ∧ st.mem 0 = some (.val 5) := by
  refine ⟨{ objs := fun _ => none, mem := fun a => if a = 1 then some (.ctrl 1 (some 0)) else
      if a = 0 then some (.val 5) else none, next := 2, thr := none }, ?_, fun _ => rfl, rfl⟩
  simp [runOps, runOp, ctorPtr, ctor, allocC, tick, St.init, newObj, assign, getObj, setObj, dtor, delObj]
  constructor
  · funext x
    by_cases h0 : x = 0
    · simp [h0]
    · by_cases h1 : x = 1 <;> simp [h0, h1]
  · funext a; simp

/-- C56 (part that holds) Assignment between shared_ptrs of the same group (self-assignment included) or
between two empty ones is right.  Missing: assignment between different groups, for which the statement
is false (`C56_sptr_assign_refuted`). -/
theorem C56_sptr_assign_same_group_partial (st : SSt V) (hr : Reach st) (x y : Nat) (p q c : Option Nat)
    (hx : st.objs x = some ⟨p, c⟩) (hy : st.objs y = some ⟨q, c⟩) :
    ∃ st', assign x y st = .ok () st' ∧ st'.mem = st.mem ∧ Reach st' ∧
      ∀ z, st'.objs z = if z = x then some ⟨q, c⟩ else st.objs z := by
  obtain ⟨ops, s, os, h1, h2, h3⟩ := hr
  obtain ⟨st0, h4, hI⟩ := run_refines Inv.init h1 h2
  rw [h3] at h4
  cases h4
  have lk : ∀ {x p c}, st.objs x = some ⟨p, c⟩ → s.vars.look x = some ⟨p, c⟩ := by
    intro x p c hx
    have := hI.ob x
    rw [hx] at this
    cases hl : s.vars.look x with
    | none => simp [hl] at this
    | some h =>
      obtain ⟨a, b⟩ := h
      simp [hl, conc] at this
      obtain ⟨rfl, rfl⟩ := this
      rfl
  have e : assign x y st = .ok () { st with objs := upd st.objs x (some ⟨q, c⟩) } := by
    simp [assign, getObj, setObj, hx, hy]
  refine ⟨_, e, rfl, ?_, fun z => rfl⟩
  have hs : specStep s (.assign x y) = some ((({ s with vars := s.vars.put x ⟨q, c⟩ } : State V).collect c),
      .unit) := by simp [specStep, lk hx, lk hy]
  have app : ∀ (l : List (Op V)) (a b : State V) (os : List (Out V)) (op : Op V) (a' : State V) (o : Out V),
      specRun a l = some (b, os) → SupportedRun a l → specStep b op = some (a', o) → Supported b op →
      specRun a (l ++ [op]) = some (a', os ++ [o]) ∧ SupportedRun a (l ++ [op]) := by
    intro l
    induction l with
    | nil =>
      intro a b os op a' o r1 _ r3 r4
      simp [specRun] at r1
      obtain ⟨rfl, rfl⟩ := r1
      simp [specRun, SupportedRun, r3, r4]
    | cons op1 l ih =>
      intro a b os op a' o r1 r2 r3 r4
      simp only [specRun] at r1
      simp only [SupportedRun] at r2
      split at r1
      · cases r1
      · next e1 o1 hh =>
        rw [hh] at r2
        split at r1
        · cases r1
        · next e2 os2 hh2 =>
          simp at r1
          obtain ⟨rfl, rfl⟩ := r1
          obtain ⟨i1, i2⟩ := ih e1 e2 os2 op a' o hh2 r2.2 r3 r4
          constructor
          · simp [specRun, hh, i1]
          · simp only [List.cons_append, SupportedRun, hh]; exact ⟨r2.1, i2⟩
  have apprun : ∀ (l : List (Op V)) (st0 st1 st2 : SSt V) (os : List (Out V)) (op : Op V) (o : Out V),
      runOps l st0 = .ok os st1 → runOp op st1 = .ok o st2 →
      runOps (l ++ [op]) st0 = .ok (os ++ [o]) st2 := by
    intro l
    induction l with
    | nil =>
      intro st0 st1 st2 os op o r1 r2
      simp [runOps] at r1
      obtain ⟨rfl, rfl⟩ := r1
      simp [runOps, r2]
    | cons op1 l ih =>
      intro st0 st1 st2 os op o r1 r2
      simp only [runOps, M.bind_apply] at r1
      cases hh : runOp op1 st0 with
      | ok o1 sa =>
        simp only [hh] at r1
        cases hh2 : runOps l sa with
        | ok os2 sb =>
          simp [hh2] at r1
          obtain ⟨rfl, rfl⟩ := r1
          simp [runOps, hh, ih sa sb st2 os2 op o hh2 r2]
        | throw e s => simp [hh2] at r1
        | ub u => simp [hh2] at r1
        | timeout => simp [hh2] at r1
      | throw e s => simp [hh] at r1
      | ub u => simp [hh] at r1
      | timeout => simp [hh] at r1
  obtain ⟨a1, a2⟩ := app ops _ _ _ _ _ _ h1 h2 hs (by
    intro h k hh hk
    rw [lk hx] at hh; rw [lk hy] at hk
    cases hh; cases hk; rfl)
  exact ⟨_, _, _, a1, a2, apprun _ _ _ _ _ _ _ h3 (by simp [runOp, e])⟩

/-- Hypotheses of the C56 theorems. -/
example : ∃ (st : SSt Nat) (p q g p' g' : Option Nat), Reach st ∧ st.objs 0 = some ⟨p, g⟩ ∧
    st.objs 1 = some ⟨q, g⟩ ∧ st.objs 2 = some ⟨p', g'⟩ ∧ g ≠ g' ∧
    (∀ z, z ∈ [2, 1, 0] ↔ st.objs z ≠ none) := by
  obtain ⟨st, h1, h2⟩ := C54_sptr_history (V := Nat) [.make 0 5, .copy 1 0, .make 2 7] _ _
    (by simp [Listed]) rfl
  refine ⟨st, _, _, _, _, _, ⟨_, _, _, rfl, ?_, h1⟩, h2.vars 0, h2.vars 1, h2.vars 2, by decide, ?_⟩
  · simp [SupportedRun, Supported, specStep, State.empty, Vars.look]
  · intro y
    rw [h2.vars]
    simp only [Vars.look]
    by_cases e2 : y = 2
    · simp [e2]
    · by_cases e1 : y = 1
      · simp [e1]
      · by_cases e0 : y = 0 <;> simp [e0, e1, e2, State.empty, Vars.look]

/-! ## C85 -/

/-- C85 (violated) If allocating the control block throws, the object handed to the constructor is
neither owned nor deleted: the memory is exactly as before and no variable has come to life. -/
theorem C85_sptr_ctor_bad_alloc_leaks (st : SSt V) (x a : Nat) (v : V) (ht : st.thr = some 0)
    (ha : st.mem a = some (.val v)) :
    ∃ st', ctorPtr x (some a) st = .throw .badAlloc st' ∧ st'.mem a = some (.val v) ∧
      st'.objs = st.objs ∧ st'.mem = st.mem := by
  refine ⟨{ st with thr := none }, ?_, ha, rfl, rfl⟩
  simp [ctorPtr, allocC, tick, ht]

/-- C85 as stated fails. -/
theorem C85_sptr_ctor_bad_alloc_refuted :
    ¬ ∀ (st : SSt Nat) (x a : Nat) (st' : SSt Nat), ctorPtr x (some a) st = .throw .badAlloc st' →
      st'.mem a = none := by
  intro h
  let st : SSt Nat := ⟨fun _ => none, fun a => if a = 0 then some (.val 5) else none, 1, some 0⟩
  obtain ⟨st', h1, h2, _, _⟩ := C85_sptr_ctor_bad_alloc_leaks st 0 0 5 rfl rfl
  rw [h st 0 0 st' h1] at h2
  cases h2

/-- C85 (part that holds) When the allocation succeeds the new pointer owns the object with count 1. -/
theorem C85_sptr_ctor_partial (st : SSt V) (x a : Nat) (ht : st.thr = none) (hx : st.objs x = none)
    (hf : st.mem st.next = none) :
    ∃ st' c, ctorPtr x (some a) st = .ok () st' ∧ st'.objs x = some ⟨some a, some c⟩ ∧
      st.mem c = none ∧ st'.mem c = some (.ctrl 1 (some a)) ∧ (∀ b, b ≠ c → st'.mem b = st.mem b) := by
  refine ⟨{ st with objs := upd st.objs x (some ⟨some a, some st.next⟩), mem := upd st.mem st.next (some (.ctrl 1 (some a))), next := st.next + 1 }, st.next, ?_, ?_, hf, ?_, ?_⟩
  · simp only [ctorPtr, M.bind_apply]
    rw [allocC_none ht]
    simp only []
    rw [newObj_none (by exact hx)]
  · simp
  · simp
  · intro b hb; simp [hb]

example : ∃ st : SSt Nat, st.thr = none ∧ st.objs 0 = none ∧ st.mem st.next = none := ⟨St.init, rfl, rfl, rfl⟩

end Cest.Sptr
