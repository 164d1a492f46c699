import Verif.Core.FrameArr
import Verif.Deque.Cost
import Verif.Deque.Throw
import Verif.Deque.HistSpec
import Verif.Deque.HistRun
/-
Lemmas for C142: deque operations in a state with leaked storage; storage of deques.
-/
namespace Cest.Deq
open Cest
variable {V : Type}

/-! ### The functions do not notice leaked storage -/

/-- Code without loops. -/
macro "dloc" : tactic => `(tactic| repeat (first
  | exact Local.pure _ | exact Local.ub _ | exact Local.timeout
  | exact Local.getObj _ | exact Local.setObj _ _ | exact Local.newObj _ _ | exact Local.delObj _
  | exact Local.allocArr _ | exact Local.freeArr _ _ | exact Local.load _ _ | exact Local.store _ _ _
  | exact Local.constructAt _ _ _ | exact Local.destroyAt _ _ | exact Local.tick _
  | assumption
  | refine Local.bind ?_ (fun _ => ?_)
  | refine Local.onThrow ?_ ?_
  | refine Local.forN (fun _ => ?_) _ _
  | refine Local.ite ?_ ?_
  | split))

theorem chunkAt_loc (o : Obj) (i : Int) : Local (chunkAt o i : DM V Nat) := by unfold chunkAt; dloc
theorem read_loc (r : Ref V) : Local r.read := by
  cases r with
  | ext v => exact Local.pure _
  | cell a i => exact Local.load _ _
theorem chunksPush_loc (x a : Nat) : Local (chunksPush x a : DM V Unit) := by unfold chunksPush; dloc
theorem locate_loc (K x i : Nat) : Local (locate K x i : DM V (Nat × Nat)) := by
  unfold locate
  exact Local.bind (Local.getObj _) fun o => Local.bind (chunkAt_loc _ _) fun _ => Local.pure _
theorem ctor_loc (K x : Nat) : Local (ctor K x : DM V Unit) := by
  have h := fun a => chunksPush_loc (V := V) x a
  unfold ctor
  refine Local.bind (Local.newObj _ _) fun _ => Local.onThrow ?_ (Local.delObj _)
  refine Local.bind (Local.allocArr _) fun a => ?_
  have h := h a
  dloc
theorem size_loc (x : Nat) : Local (size x : DM V Nat) := by unfold size; dloc
theorem empty_loc (x : Nat) : Local (empty x : DM V Bool) := by unfold empty; dloc
theorem clear_loc (K x : Nat) : Local (clear K x : DM V Unit) := by
  unfold clear
  refine Local.bind (size_loc x) fun n => Local.bind (Local.forN (fun i => ?_) _ _) fun _ => by dloc
  exact Local.bind (locate_loc _ _ _) fun p => Local.destroyAt _ _
theorem freeChunks_loc (K : Nat) : ∀ as : List Nat, Local (freeChunks K as : DM V Unit)
  | [] => Local.pure _
  | _ :: as => Local.bind (Local.freeArr _ _) fun _ => freeChunks_loc K as
theorem dtor_loc (K x : Nat) : Local (dtor K x : DM V Unit) := by
  unfold dtor
  exact Local.bind (clear_loc _ _) fun _ => Local.bind (Local.getObj _) fun o =>
    Local.bind (freeChunks_loc _ _) fun _ => Local.delObj _
theorem pushFrontHelper_loc (K x : Nat) : Local (pushFrontHelper K x : DM V Unit) := by
  unfold pushFrontHelper
  refine Local.bind (Local.getObj _) fun o => ?_
  have tl : ∀ f : Obj → Obj, Local (do
      let o ← getObj x
      setObj x (f o) : DM V Unit) := fun f => by dloc
  have tl2 : ∀ f g : Obj → Obj, Local (do
      let o ← getObj x
      setObj x (f o)
      let o ← getObj x
      setObj x (g o) : DM V Unit) := fun f g => by dloc
  refine Local.ite (Local.ite ?_ ?_) ?_
  · refine Local.bind (Local.allocArr _) fun a => Local.bind (chunksPush_loc _ _) fun _ =>
      Local.bind (Local.getObj _) fun o => ?_
    split
    · exact Local.bind (Local.ub _) fun _ => tl2 _ _
    · exact Local.bind (Local.setObj _ _) fun _ => tl2 _ _
  · exact Local.bind (Local.setObj _ _) fun _ => tl2 _ _
  · exact Local.bind (Local.setObj _ _) fun _ => tl _
theorem pushBackHelper_loc (K x : Nat) : Local (pushBackHelper K x : DM V Unit) := by
  unfold pushBackHelper
  refine Local.bind (Local.getObj _) fun o => ?_
  have tl : ∀ f : Obj → Obj, Local (do
      let o ← getObj x
      setObj x (f o) : DM V Unit) := fun f => by dloc
  have tl2 : ∀ f g : Obj → Obj, Local (do
      let o ← getObj x
      setObj x (f o)
      let o ← getObj x
      setObj x (g o) : DM V Unit) := fun f g => by dloc
  refine Local.ite (Local.ite ?_ (tl2 _ _)) ?_
  · exact Local.bind (Local.allocArr _) fun a => Local.bind (chunksPush_loc _ _) fun _ =>
      Local.bind (Local.getObj _) fun o => Local.bind (Local.setObj _ _) fun _ => tl2 _ _
  · exact Local.bind (Local.setObj _ _) fun _ => tl _
theorem pushFront_loc (K x : Nat) (r : Ref V) : Local (pushFront K x r) := by
  unfold pushFront
  exact Local.bind (pushFrontHelper_loc _ _) fun _ => Local.bind (Local.getObj _) fun o =>
    Local.bind (chunkAt_loc _ _) fun a => Local.bind (read_loc _) fun v => Local.constructAt _ _ _
theorem pushBack_loc (K x : Nat) (r : Ref V) : Local (pushBack K x r) := by
  unfold pushBack
  exact Local.bind (pushBackHelper_loc _ _) fun _ => Local.bind (Local.getObj _) fun o =>
    Local.bind (chunkAt_loc _ _) fun a => Local.bind (read_loc _) fun v => Local.constructAt _ _ _
theorem pushFrom_loc (K x y : Nat) : ∀ n i : Nat, Local (pushFrom K x y i n : DM V Unit)
  | 0, _ => Local.pure _
  | n+1, i => by
    unfold pushFrom
    exact Local.bind (locate_loc _ _ _) fun p => Local.bind (pushBack_loc _ _ _) fun _ => pushFrom_loc K x y n (i+1)
theorem pushAll_loc (K x : Nat) : ∀ vs : List V, Local (pushAll K x vs)
  | [] => Local.pure _
  | _ :: vs => Local.bind (pushBack_loc _ _ _) fun _ => pushAll_loc K x vs
theorem popBack_loc (K x : Nat) : Local (popBack K x : DM V Unit) := by
  have h := fun o i => chunkAt_loc (V := V) o i
  unfold popBack
  refine Local.bind (empty_loc _) fun e => Local.ite ?_ (Local.pure _)
  exact Local.bind (Local.getObj _) fun o => Local.bind (h _ _) fun a => by dloc
theorem popFront_loc (K x : Nat) : Local (popFront K x : DM V Unit) := by
  have h := fun o i => chunkAt_loc (V := V) o i
  unfold popFront
  refine Local.bind (empty_loc _) fun e => Local.ite ?_ (Local.pure _)
  exact Local.bind (Local.getObj _) fun o => Local.bind (h _ _) fun a => by dloc
theorem inc_loc (K x : Nat) (it : It) : Local (it.inc K x : DM V It) := by
  have h := fun o i => chunkAt_loc (V := V) o i
  unfold It.inc
  refine Local.bind (Local.getObj _) fun o => Local.bind (h _ _) fun a => Local.ite ?_ (by dloc)
  exact Local.bind (h _ _) fun b => Local.pure _
theorem collect_loc (K x : Nat) (e : It) : ∀ (f : Nat) (it : It), Local (collect K x e f it : DM V (List V))
  | 0, _ => Local.timeout
  | f+1, it => by
    unfold collect
    refine Local.ite (Local.pure _) ?_
    exact Local.bind (Local.load _ _) fun v => Local.bind (inc_loc _ _ _) fun it' =>
      Local.bind (collect_loc K x e f it') fun _ => Local.pure _
theorem toList_loc (K x f : Nat) : Local (toList K x f : DM V (List V)) := by
  have h := fun o i => chunkAt_loc (V := V) o i
  unfold toList begin_ end_
  refine Local.bind ?_ fun b => Local.bind ?_ fun e => collect_loc _ _ _ _ _
  · exact Local.bind (Local.getObj _) fun o => Local.bind (h _ _) fun a => Local.pure _
  · exact Local.bind (Local.getObj _) fun o => Local.bind (h _ _) fun a => Local.pure _

theorem runOp_loc (K : Nat) (op : Op V) : Local (runOp K op) := by
  cases op with
  | new x => exact Local.bind (ctor_loc _ _) fun _ => Local.pure _
  | newList x vs =>
    exact Local.bind (Local.bind (ctor_loc _ _) fun _ => Local.onThrow (pushAll_loc _ _ _) (dtor_loc _ _))
      fun _ => Local.pure _
  | newCopy x y =>
    exact Local.bind (Local.bind (ctor_loc _ _) fun _ =>
      Local.onThrow (Local.bind (size_loc _) fun n => pushFrom_loc _ _ _ _ _) (dtor_loc _ _)) fun _ => Local.pure _
  | assign x y =>
    exact Local.bind (Local.bind (clear_loc _ _) fun _ => Local.bind (size_loc _) fun n => pushFrom_loc _ _ _ _ _)
      fun _ => Local.pure _
  | pushBack x v => exact Local.bind (pushBack_loc _ _ _) fun _ => Local.pure _
  | pushFront x v => exact Local.bind (pushFront_loc _ _ _) fun _ => Local.pure _
  | pushBackFrom x y i =>
    exact Local.bind (locate_loc _ _ _) fun p => Local.bind (pushBack_loc _ _ _) fun _ => Local.pure _
  | pushFrontFrom x y i =>
    exact Local.bind (locate_loc _ _ _) fun p => Local.bind (pushFront_loc _ _ _) fun _ => Local.pure _
  | popBack x => exact Local.bind (popBack_loc _ _) fun _ => Local.pure _
  | popFront x => exact Local.bind (popFront_loc _ _) fun _ => Local.pure _
  | clear x => exact Local.bind (clear_loc _ _) fun _ => Local.pure _
  | set x i v =>
    exact Local.bind (Local.bind (locate_loc _ _ _) fun p => Local.store _ _ _) fun _ => Local.pure _
  | destroy x => exact Local.bind (dtor_loc _ _) fun _ => Local.pure _
  | size x => exact Local.bind (size_loc _) fun _ => Local.pure _
  | empty x => exact Local.bind (empty_loc _) fun _ => Local.pure _
  | get x i =>
    exact Local.bind (Local.bind (locate_loc _ _ _) fun p => Local.load _ _) fun _ => Local.pure _
  | front x =>
    exact Local.bind (Local.bind (Local.getObj _) fun o => Local.bind (chunkAt_loc _ _) fun a => Local.load _ _)
      fun _ => Local.pure _
  | back x =>
    exact Local.bind (Local.bind (Local.getObj _) fun o => Local.bind (chunkAt_loc _ _) fun a => Local.load _ _)
      fun _ => Local.pure _
  | toList x =>
    exact Local.bind (size_loc _) fun n => Local.bind (toList_loc _ _ _) fun _ => Local.pure _

/-! ### Storage -/

variable {K : Nat} {st : DSt V} {σ : Nat → Option (DV V)} {x y : Nat} {s sy : DV V} {v : V}

def layOf (s : DV V) : Lay := ⟨s.pos, s.chunks.length, s.ccap⟩

/-- The deques use the storage `l`. -/
def LaysOf (σ : Nat → Option (DV V)) (l : Lays) : Prop := ∀ x s, σ x = some s → layOf s = l x

theorem LaysOf.upd {l : Lays} (h : LaysOf σ l) (x : Nat) {a : Lay} (hn : layOf s = a) :
    LaysOf (Cest.upd σ x (some s)) (l.set x a) := by
  intro y t hy
  simp only [Cest.upd, Lays.set] at hy ⊢
  split at hy
  · rw [if_pos ‹_›]; simp only [Option.some.injEq] at hy; rw [← hy]; exact hn
  · rw [if_neg ‹_›]; exact h y t hy
theorem LaysOf.keep {l : Lays} (h : LaysOf σ l) {t : DV V} (hx : σ x = some s) (ht : layOf t = layOf s) :
    LaysOf (Cest.upd σ x (some t)) l := by
  intro y u hy
  simp only [Cest.upd] at hy
  split at hy
  · rename_i hyx
    subst hyx
    simp only [Option.some.injEq] at hy; rw [← hy, ht]; exact h _ _ hx
  · exact h y u hy
theorem LaysOf.del {l : Lays} (h : LaysOf σ l) (x : Nat) : LaysOf (Cest.upd σ x none) l := by
  intro y t hy
  simp only [Cest.upd] at hy
  split at hy
  · cases hy
  · exact h y t hy

theorem backFull_iff (s : DV V) : (layOf s).backFull K s.xs.length = true ↔ s.stop = s.chunks.length * K := by
  simp [Lay.backFull, layOf, DV.stop]

theorem growCap_eq {c n : Nat} (h : n ≠ 0) : growCap c n = if c = n then c * 2 else c := by
  unfold growCap
  split
  · rw [if_neg (by omega)]
  · rfl

theorem pushB_lay (hne : s.chunks ≠ []) {l : Lay} (h : (layOf s).pushB K s.xs.length = some l) :
    ¬ s.fault K ∧ ∀ v a, layOf (s.pushB K v a) = l := by
  have h0 : s.chunks.length ≠ 0 := by simpa using hne
  unfold Lay.pushB at h
  by_cases hf : s.stop = s.chunks.length * K
  · rw [if_pos ((backFull_iff s).2 hf)] at h
    cases h
    refine ⟨fun hc => hc.2 hf, fun v a => ?_⟩
    simp only [DV.pushB, if_pos hf, layOf, Lay.more, growCap_eq h0, List.length_append, List.length_singleton]
    rfl
  · rw [if_neg (fun hc => hf ((backFull_iff s).1 hc))] at h
    split at h
    · cases h
    · rename_i hz
      cases h
      refine ⟨fun hc => hz hc.1, fun v a => ?_⟩
      simp only [DV.pushB, if_neg hf, layOf]

theorem pushB_ne (hne : s.chunks ≠ []) (v : V) (a : Nat) : (s.pushB K v a).chunks ≠ [] := by
  unfold DV.pushB; split
  · simp
  · exact hne

theorem pushF_lay (hne : s.chunks ≠ []) (v : V) (a : Nat) : layOf (s.pushF K v a) = (layOf s).pushF K := by
  have h0 : s.chunks.length ≠ 0 := by simpa using hne
  unfold DV.pushF Lay.pushF
  by_cases h : s.pos = 0
  · rw [if_pos h, if_pos (by exact h)]
    simp only [layOf, Lay.more, growCap_eq h0, List.length_cons]
    rfl
  · rw [if_neg h, if_neg (by exact h)]
    rfl

/-- Enough room, or room that can be made, for `k` elements more; the storage is then `L`. -/
def Fits (K : Nat) (L : Lay) (k : Nat) (s : DV V) : Prop :=
  s.chunks ≠ [] ∧ (layOf s).pushBs K s.xs.length k = some L

theorem fits_step (L : Lay) : ∀ (k : Nat) (s : DV V) (v : V) (a : Nat), s.stop ≤ s.chunks.length * K →
    Fits K L (k+1) s → ¬ s.fault K ∧ Fits K L k (s.pushB K v a) := by
  rintro k s v a _ ⟨hne, h⟩
  unfold Lay.pushBs at h
  split at h
  · rename_i l hl
    obtain ⟨h1, h2⟩ := pushB_lay hne hl
    refine ⟨h1, pushB_ne hne v a, ?_⟩
    rw [h2 v a, pushB_xs]
    simpa using h
  · cases h

theorem fits_zero {L : Lay} (h : Fits K L 0 s) : layOf s = L := Option.some.inj h.2

theorem init_lay (a : Nat) : layOf (⟨[a], 1, K / 2, []⟩ : DV V) = Lay.init K := rfl
theorem clear_lay (s : DV V) : layOf (s.cleared K) = (layOf s).clear K := rfl

theorem step_ok (hK : 2 ≤ K) {e e' : Env V} {l l' : Lays} {op : Op V} {o : Out V}
    (W : DW K st σ) (he : envOf σ = e) (hl : LaysOf σ l) (hs : specStep e op = some (e', o))
    (hla : layAfter K e l op = some l') :
    ∃ st' σ', runOp K op st = .ok o st' ∧ DW K st' σ' ∧ envOf σ' = e' ∧ LaysOf σ' l' := by
  have hK0 : 0 < K := by omega
  have hs0 := hs
  cases op with
  | new x =>
    simp only [specStep] at hs
    split at hs <;> simp at hs
    rename_i hx; obtain ⟨rfl, rfl⟩ := hs
    simp only [layAfter, Option.some.injEq] at hla
    subst hla
    obtain ⟨st', h1, W'⟩ := ctor_spec hK W (envOf_none he hx)
    exact ⟨st', _, by simp [runOp, h1], W', by rw [envOf_upd, he]; rfl, hl.upd x (init_lay _)⟩
  | newList x vs =>
    simp only [specStep] at hs
    split at hs <;> simp at hs
    rename_i hx; obtain ⟨rfl, rfl⟩ := hs
    obtain ⟨L, hL, rfl⟩ := Option.map_eq_some_iff.1 hla
    obtain ⟨st1, h1, W1⟩ := ctor_spec hK W (envOf_none he hx)
    obtain ⟨st2, s2, h2, W2, h3, h4⟩ := pushAll_spec hK (Fits K L) (fits_step L) (vs := vs) W1 (upd_same _ _ _)
      ⟨by simp, hL⟩
    rw [upd_upd] at W2
    refine ⟨st2, _, ?_, W2, by rw [envOf_upd, he]; simp [h3], hl.upd x (fits_zero h4)⟩
    simp only [runOp, ctorList, M.bind_apply, h1]
    rw [M.onThrow_of_ok h2]
    rfl
  | newCopy x y =>
    simp only [specStep] at hs
    split at hs <;> simp at hs
    rename_i ys hx hy; obtain ⟨rfl, rfl⟩ := hs
    obtain ⟨sy, hy', rfl⟩ := envOf_some he hy
    have hx' := envOf_none he hx
    have hxy : x ≠ y := by rintro rfl; rw [hx'] at hy'; cases hy'
    obtain ⟨L, hL, rfl⟩ := Option.map_eq_some_iff.1 hla
    rw [hy, Option.getD_some] at hL
    obtain ⟨st1, h1, W1⟩ := ctor_spec hK W hx'
    have hy1 : (upd σ x (some (⟨[st.next], 1, K / 2, []⟩ : DV V))) y = some sy := by simp [Ne.symm hxy, hy']
    obtain ⟨st2, s2, h2, W2, h3, h4⟩ := pushFrom_spec hK (Fits K L) (fits_step L)
      (n := sy.xs.length) (i := 0) W1 (upd_same _ _ _) hy1 hxy (by omega) ⟨by simp, hL⟩
    rw [upd_upd] at W2
    refine ⟨st2, _, ?_, W2, by rw [envOf_upd, he]; simp [h3], hl.upd x (fits_zero h4)⟩
    simp only [runOp, copyCtor, M.bind_apply, h1]
    rw [M.onThrow_of_ok (a := ()) (s' := st2)]
    · rfl
    · simp only [M.bind_apply, size_spec W1 hy1, h2]
  | assign x y =>
    simp only [specStep] at hs
    split at hs <;> simp at hs
    rename_i xs ys hx hy; obtain ⟨rfl, rfl⟩ := hs
    obtain ⟨s, hx', rfl⟩ := envOf_some he hx
    obtain ⟨sy, hy', rfl⟩ := envOf_some he hy
    simp only [layAfter] at hla
    split at hla
    · cases hla
    rename_i hxy
    obtain ⟨L, hL, rfl⟩ := Option.map_eq_some_iff.1 hla
    rw [hy, Option.getD_some, ← hl x s hx', ← clear_lay] at hL
    obtain ⟨st1, h1, W1⟩ := clear_spec hK W hx'
    have hy1 : (upd σ x (some (s.cleared K))) y = some sy := by simp [Ne.symm hxy, hy']
    obtain ⟨st2, s2, h2, W2, h3, h4⟩ := pushFrom_spec hK (Fits K L) (fits_step L)
      (n := sy.xs.length) (i := 0) W1 (upd_same _ _ _) hy1 hxy (by omega) ⟨show s.chunks ≠ [] from W_ne W hx', hL⟩
    rw [upd_upd] at W2
    refine ⟨st2, _, ?_, W2, by rw [envOf_upd, he]; simp [h3, DV.cleared], hl.upd x (fits_zero h4)⟩
    simp only [runOp, assign, M.bind_apply, h1, size_spec W1 hy1, h2, M.pure_apply]
  | pushBack x v =>
    simp only [specStep] at hs
    split at hs <;> simp at hs
    rename_i xs hx; obtain ⟨rfl, rfl⟩ := hs
    obtain ⟨s, hx', rfl⟩ := envOf_some he hx
    obtain ⟨L, hL, rfl⟩ := Option.map_eq_some_iff.1 hla
    rw [hx, Option.getD_some, ← hl x s hx'] at hL
    obtain ⟨hf, hlay⟩ := pushB_lay (W_ne W hx') hL
    obtain ⟨st', h1, W'⟩ := pushBack_spec (v := v) (r := .ext v) hK W hx' hf (fun _ _ => rfl)
    exact ⟨st', _, by simp [runOp, h1], W', by rw [envOf_upd, he]; simp [pushB_xs], hl.upd x (hlay _ _)⟩
  | pushFront x v =>
    simp only [specStep] at hs
    split at hs <;> simp at hs
    rename_i xs hx; obtain ⟨rfl, rfl⟩ := hs
    obtain ⟨s, hx', rfl⟩ := envOf_some he hx
    simp only [layAfter, Option.some.injEq] at hla
    subst hla
    obtain ⟨st', h1, W'⟩ := pushFront_spec (v := v) (r := .ext v) hK W hx' (fun _ _ => rfl)
    exact ⟨st', _, by simp [runOp, h1], W', by rw [envOf_upd, he]; simp [pushF_xs],
      hl.upd x (by rw [pushF_lay (W_ne W hx'), hl x s hx'])⟩
  | pushBackFrom x y i =>
    simp only [specStep] at hs
    split at hs <;> try simp at hs
    rename_i xs ys hx hy
    split at hs <;> simp at hs
    rename_i v hv
    obtain ⟨rfl, rfl⟩ := hs
    obtain ⟨s, hx', rfl⟩ := envOf_some he hx
    obtain ⟨sy, hy', rfl⟩ := envOf_some he hy
    obtain ⟨L, hL, rfl⟩ := Option.map_eq_some_iff.1 hla
    rw [hx, Option.getD_some, ← hl x s hx'] at hL
    obtain ⟨hf, hlay⟩ := pushB_lay (W_ne W hx') hL
    obtain ⟨a, hlo, hr⟩ := cell_read hK0 W hy' hv
    obtain ⟨st', h1, W'⟩ := pushBack_spec hK W hx' hf hr
    exact ⟨st', _, by simp only [runOp, M.bind_apply, hlo, h1, M.pure_apply], W',
      by rw [envOf_upd, he]; simp [pushB_xs], hl.upd x (hlay _ _)⟩
  | pushFrontFrom x y i =>
    simp only [specStep] at hs
    split at hs <;> try simp at hs
    rename_i xs ys hx hy
    split at hs <;> simp at hs
    rename_i v hv
    obtain ⟨rfl, rfl⟩ := hs
    obtain ⟨s, hx', rfl⟩ := envOf_some he hx
    obtain ⟨sy, hy', rfl⟩ := envOf_some he hy
    simp only [layAfter, Option.some.injEq] at hla
    subst hla
    obtain ⟨a, hlo, hr⟩ := cell_read hK0 W hy' hv
    obtain ⟨st', h1, W'⟩ := pushFront_spec hK W hx' hr
    exact ⟨st', _, by simp only [runOp, M.bind_apply, hlo, h1, M.pure_apply], W',
      by rw [envOf_upd, he]; simp [pushF_xs], hl.upd x (by rw [pushF_lay (W_ne W hx'), hl x s hx'])⟩
  | popFront x =>
    simp only [specStep] at hs
    split at hs <;> simp at hs
    rename_i xs hx; obtain ⟨rfl, rfl⟩ := hs
    obtain ⟨s, hx', rfl⟩ := envOf_some he hx
    simp only [layAfter, Option.some.injEq, hx, Option.getD_some] at hla
    subst hla
    by_cases hne : s.xs = []
    · refine ⟨st, σ, by simp [runOp, popFront_empty W hx' hne], W, ?_, ?_⟩
      · rw [he, hne]; simp only [List.tail_nil]; rw [set_self]; rw [hx, hne]
      · rw [if_pos (by simp [hne])]; exact hl
    · obtain ⟨st', h1, W'⟩ := popFront_spec hK W hx' hne
      refine ⟨st', _, by simp [runOp, h1], W', by rw [envOf_upd, he]; simp, ?_⟩
      rw [if_neg (by simpa using hne)]
      exact hl.upd x (by rw [← hl x s hx']; rfl)
  | popBack x =>
    simp only [layAfter, Option.some.injEq] at hla
    subst hla
    simp only [specStep] at hs
    split at hs <;> simp at hs
    rename_i xs hx; obtain ⟨rfl, rfl⟩ := hs
    obtain ⟨s, hx', rfl⟩ := envOf_some he hx
    by_cases hne : s.xs = []
    · refine ⟨st, σ, by simp [runOp, popBack_empty W hx' hne], W, ?_, hl⟩
      rw [he, hne]; simp only [List.dropLast_nil]; rw [set_self]; rw [hx, hne]
    · obtain ⟨st', h1, W'⟩ := popBack_spec hK W hx' hne
      exact ⟨st', _, by simp [runOp, h1], W', by rw [envOf_upd, he]; simp, hl.keep hx' rfl⟩
  | clear x =>
    simp only [layAfter, Option.some.injEq] at hla
    subst hla
    simp only [specStep] at hs
    split at hs <;> simp at hs
    rename_i xs hx; obtain ⟨rfl, rfl⟩ := hs
    obtain ⟨s, hx', rfl⟩ := envOf_some he hx
    obtain ⟨st', h1, W'⟩ := clear_spec hK W hx'
    exact ⟨st', _, by simp [runOp, h1], W', by rw [envOf_upd, he]; simp [DV.cleared],
      hl.upd x (by rw [clear_lay, hl x s hx'])⟩
  | set x i v =>
    simp only [layAfter, Option.some.injEq] at hla
    subst hla
    simp only [specStep] at hs
    split at hs <;> simp at hs
    rename_i xs hx; obtain ⟨hi, rfl, rfl⟩ := hs
    obtain ⟨s, hx', rfl⟩ := envOf_some he hx
    obtain ⟨st', h1, W'⟩ := set_spec (v := v) hK0 W hx' hi
    exact ⟨st', _, by simp [runOp, h1], W', by rw [envOf_upd, he]; simp, hl.keep hx' rfl⟩
  | destroy x =>
    simp only [layAfter, Option.some.injEq] at hla
    subst hla
    simp only [specStep] at hs
    split at hs <;> simp at hs
    rename_i xs hx; obtain ⟨rfl, rfl⟩ := hs
    obtain ⟨s, hx', rfl⟩ := envOf_some he hx
    obtain ⟨st', h1, W'⟩ := dtor_spec hK W hx'
    exact ⟨st', _, by simp [runOp, h1], W', by rw [envOf_upd, he]; simp, hl.del x⟩
  | toList x =>
    simp only [specStep] at hs
    split at hs <;> simp at hs
    rename_i xs hx; obtain ⟨rfl, rfl⟩ := hs
    obtain ⟨s, hx', rfl⟩ := envOf_some he hx
    simp only [layAfter, hx, Option.getD_some, ← hl x s hx'] at hla
    split at hla
    · cases hla
    rename_i hz
    cases hla
    refine ⟨st, σ, ?_, W, he, hl⟩
    simp [runOp, size_spec W hx', toList_spec hK0 W hx' hz (Nat.lt_succ_self _)]
  | size x =>
    simp only [layAfter, Option.some.injEq] at hla
    subst hla
    simp only [specStep] at hs
    split at hs <;> simp at hs
    rename_i xs hx; obtain ⟨rfl, rfl⟩ := hs
    obtain ⟨s, hx', rfl⟩ := envOf_some he hx
    exact ⟨st, σ, by simp [runOp, size_spec W hx'], W, he, hl⟩
  | empty x =>
    simp only [layAfter, Option.some.injEq] at hla
    subst hla
    simp only [specStep] at hs
    split at hs <;> simp at hs
    rename_i xs hx; obtain ⟨rfl, rfl⟩ := hs
    obtain ⟨s, hx', rfl⟩ := envOf_some he hx
    exact ⟨st, σ, by simp [runOp, empty_spec W hx'], W, he, hl⟩
  | get x i =>
    simp only [layAfter, Option.some.injEq] at hla
    subst hla
    simp only [specStep] at hs
    split at hs <;> try simp at hs
    split at hs <;> simp at hs
    rename_i xs hx _ v hv; obtain ⟨rfl, rfl⟩ := hs
    obtain ⟨s, hx', rfl⟩ := envOf_some he hx
    exact ⟨st, σ, by simp [runOp, get_spec hK0 W hx' hv], W, he, hl⟩
  | front x =>
    simp only [layAfter, Option.some.injEq] at hla
    subst hla
    simp only [specStep] at hs
    split at hs <;> try simp at hs
    split at hs <;> simp at hs
    rename_i xs hx _ v hv; obtain ⟨rfl, rfl⟩ := hs
    obtain ⟨s, hx', rfl⟩ := envOf_some he hx
    exact ⟨st, σ, by simp [runOp, front_spec hK0 W hx' hv], W, he, hl⟩
  | back x =>
    simp only [layAfter, Option.some.injEq] at hla
    subst hla
    simp only [specStep] at hs
    split at hs <;> try simp at hs
    split at hs <;> simp at hs
    rename_i xs hx _ v hv; obtain ⟨rfl, rfl⟩ := hs
    obtain ⟨s, hx', rfl⟩ := envOf_some he hx
    exact ⟨st, σ, by simp [runOp, back_spec hK0 W hx' hv], W, he, hl⟩

end Cest.Deq
