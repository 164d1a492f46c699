import Verif.Tree.RB
import Verif.Core.World
/-
The tree code on the machine follows the functional red-black trees (helper lemmas).
-/
namespace Cest.Tree
open Cest
variable {V K : Type}
set_option linter.unusedSimpArgs false

/-- `mem` holds the tree `t`, whose root has parent pointer `par`. -/
def Repr (mem : Nat → Option (Cell V)) : Option Nat → T V → Prop
  | _, .nil => True
  | par, .node c l a v r => mem a = some (some ⟨v, l.rt, r.rt, par, c⟩) ∧
      Repr mem (some a) l ∧ Repr mem (some a) r

theorem Repr.congr {m m' : Nat → Option (Cell V)} {t : T V} {par : Option Nat}
    (h : Repr m par t) (hc : ∀ q ∈ t.ids, m' q = m q) : Repr m' par t := by
  induction t generalizing par with
  | nil => trivial
  | node c l a v r ih1 ih2 =>
    obtain ⟨h1, h2, h3⟩ := h
    refine ⟨by rw [hc a (by simp), h1], ih1 h2 fun q hq => hc q (by simp [hq]),
      ih2 h3 fun q hq => hc q (by simp [hq])⟩

theorem Repr.alloc {m : Nat → Option (Cell V)} {t : T V} {par : Option Nat} (h : Repr m par t) :
    ∀ q ∈ t.ids, m q ≠ none := by
  induction t generalizing par with
  | nil => simp
  | node c l a v r ih1 ih2 =>
    obtain ⟨h1, h2, h3⟩ := h
    intro q hq
    simp at hq
    rcases hq with hq | rfl | hq
    · exact ih1 h2 q hq
    · simp [h1]
    · exact ih2 h3 q hq

/-- Only the root's parent pointer changes. -/
theorem Repr.reparent {m m' : Nat → Option (Cell V)} {c l a v r} {par par' : Option Nat}
    (h : Repr m par (.node c l a v r : T V)) (hnd : (T.node c l a v r : T V).ids.Nodup)
    (h1 : m' a = some (some ⟨v, l.rt, r.rt, par', c⟩))
    (hc : ∀ q ∈ (T.node c l a v r : T V).ids, q ≠ a → m' q = m q) : Repr m' par' (.node c l a v r) := by
  simp only [T.ids_node, List.nodup_append, List.nodup_cons] at hnd
  refine ⟨h1, h.2.1.congr fun q hq => hc q (by simp [hq]) ?_, h.2.2.congr fun q hq => hc q (by simp [hq]) ?_⟩
  · rintro rfl; exact hnd.2.2 q hq q (by simp) rfl
  · rintro rfl; exact hnd.2.1.1 hq

/-! ### References -/

def Ref.owner : Ref → Option Nat
  | .root _ => none
  | .left a | .right a | .par a => some a

/-- The reference is valid and holds `q`. -/
def At (st : TSt V) : Ref → Option Nat → Prop
  | .root x, q => ∃ o, st.objs x = some o ∧ o.root = q
  | .left a, q => ∃ n, st.mem a = some (some n) ∧ n.l = q
  | .right a, q => ∃ n, st.mem a = some (some n) ∧ n.r = q
  | .par a, q => ∃ n, st.mem a = some (some n) ∧ n.p = q

/-- The state after assigning `q`. -/
def wr (st : TSt V) : Ref → Option Nat → TSt V
  | .root x, q => ⟨upd st.objs x ((st.objs x).map fun o => { o with root := q }), st.mem, st.next, st.thr⟩
  | .left a, q => ⟨st.objs, upd st.mem a ((st.mem a).map (Option.map fun n => { n with l := q })), st.next, st.thr⟩
  | .right a, q => ⟨st.objs, upd st.mem a ((st.mem a).map (Option.map fun n => { n with r := q })), st.next, st.thr⟩
  | .par a, q => ⟨st.objs, upd st.mem a ((st.mem a).map (Option.map fun n => { n with p := q })), st.next, st.thr⟩

@[simp] theorem getN_some {a : Nat} {st : TSt V} {n : Node V} (h : st.mem a = some (some n)) :
    getN a st = .ok n st := by simp [getN, h]

theorem getRef_left {a : Nat} {st : TSt V} {n : Node V} (h : st.mem a = some (some n)) :
    getRef (.left a) st = .ok n.l st := by simp [getRef, h]
theorem getRef_right {a : Nat} {st : TSt V} {n : Node V} (h : st.mem a = some (some n)) :
    getRef (.right a) st = .ok n.r st := by simp [getRef, h]
theorem getRef_par {a : Nat} {st : TSt V} {n : Node V} (h : st.mem a = some (some n)) :
    getRef (.par a) st = .ok n.p st := by simp [getRef, h]
theorem setRef_left {a : Nat} {st : TSt V} {n : Node V} {q} (h : st.mem a = some (some n)) :
    setRef (.left a) q st = .ok () ⟨st.objs, upd st.mem a (some (some { n with l := q })), st.next, st.thr⟩ := by
  simp [setRef, h]
theorem setRef_right {a : Nat} {st : TSt V} {n : Node V} {q} (h : st.mem a = some (some n)) :
    setRef (.right a) q st = .ok () ⟨st.objs, upd st.mem a (some (some { n with r := q })), st.next, st.thr⟩ := by
  simp [setRef, h]
theorem setRef_par {a : Nat} {st : TSt V} {n : Node V} {q} (h : st.mem a = some (some n)) :
    setRef (.par a) q st = .ok () ⟨st.objs, upd st.mem a (some (some { n with p := q })), st.next, st.thr⟩ := by
  simp [setRef, h]

theorem getRef_at {st : TSt V} {r q} (h : At st r q) : getRef r st = .ok q st := by
  cases r <;> obtain ⟨n, h1, rfl⟩ := h <;> simp [getRef, h1]

theorem setRef_at {st : TSt V} {r q q'} (h : At st r q) : setRef r q' st = .ok () (wr st r q') := by
  cases r <;> obtain ⟨n, h1, rfl⟩ := h <;> simp [setRef, h1, wr]

theorem at_wr {st : TSt V} {r q q'} (h : At st r q) : At (wr st r q') r q' := by
  cases r <;> obtain ⟨n, h1, rfl⟩ := h <;> simp [At, wr, h1]

@[simp] theorem wr_next {st : TSt V} {r q} : (wr st r q).next = st.next := by cases r <;> rfl
@[simp] theorem wr_thr {st : TSt V} {r q} : (wr st r q).thr = st.thr := by cases r <;> rfl
theorem wr_mem {st : TSt V} {r q} {a : Nat} (h : r.owner ≠ some a) : (wr st r q).mem a = st.mem a := by
  cases r <;> simp [Ref.owner] at h <;> simp [wr] <;> intro h' <;> exact absurd h'.symm h
theorem wr_objs {st : TSt V} {r q} {x : Nat} (h : r ≠ .root x) : (wr st r q).objs x = st.objs x := by
  cases r <;> simp [wr] <;> intro h' <;> exact absurd (by rw [h']) h
theorem wr_wr {st : TSt V} {r q q'} : wr (wr st r q) r q' = wr st r q' := by
  cases r <;> simp only [wr, upd_upd, upd_same, Option.map_map] <;> congr 2 <;>
    simp [Function.comp_def]
theorem wr_self {st : TSt V} {r q} (h : At st r q) : wr st r q = st := by
  cases r <;> obtain ⟨n, h1, rfl⟩ := h <;> simp only [wr, h1, Option.map_some] <;>
    rw [← h1, upd_self]
theorem wr_objs_congr {st st' : TSt V} {r q} (h : st'.objs = st.objs) :
    (wr st' r q).objs = (wr st r q).objs := by cases r <;> simp [wr, h]
theorem wr_mem_congr {st st' : TSt V} {r q} (h : ∀ a, r.owner = some a → st'.mem a = st.mem a) {b : Nat}
    (hb : st'.mem b = st.mem b) : (wr st' r q).mem b = (wr st r q).mem b := by
  cases r <;> simp [Ref.owner] at h <;> simp [wr, h, hb]

/-- From `st` to `st'` the reference `n` was made to point to `t`, stored with parent `par`; apart from
`n` and the nodes of `t` nothing changed. -/
structure Post (st : TSt V) (n : Ref) (par : Option Nat) (t : T V) (st' : TSt V) : Prop where
  objs : st'.objs = (wr st n t.rt).objs
  next : st'.next = st.next
  thr : st'.thr = st.thr
  frame : ∀ q, q ∉ t.ids → st'.mem q = (wr st n t.rt).mem q
  repr : Repr st'.mem par t

/-- Situation in which a subtree `t` hangs at reference `n`. -/
structure Pre (st : TSt V) (n : Ref) (par : Option Nat) (t : T V) : Prop where
  at_ : At st n t.rt
  repr : Repr st.mem par t
  nodup : t.ids.Nodup
  own : ∀ q, n.owner = some q → q ∉ t.ids

theorem at_of_wr {st st' : TSt V} {n : Ref} {q q'} (h : At st n q) (ho : st'.objs = (wr st n q').objs)
    (hm : ∀ a, n.owner = some a → st'.mem a = (wr st n q').mem a) : At st' n q' := by
  have := at_wr (q' := q') h
  cases n <;> simp only [Ref.owner, Option.some.injEq, forall_eq'] at hm <;>
    obtain ⟨o, h1, h2⟩ := this
  · exact ⟨o, by rw [ho, h1], h2⟩
  all_goals exact ⟨o, by rw [hm, h1], h2⟩

theorem Post.pre {st st' : TSt V} {n par} {t t' : T V} (h : Pre st n par t) (hp : Post st n par t' st')
    (hids : t'.ids.Perm t.ids) : Pre st' n par t' := by
  refine ⟨at_of_wr h.at_ hp.objs fun a ha => hp.frame a ?_, hp.repr, hids.nodup_iff.2 h.nodup, ?_⟩
  · intro hm; exact h.own a ha (hids.mem_iff.1 hm)
  · intro q hq hm; exact h.own q hq (hids.mem_iff.1 hm)

theorem Post.trans {st st' st'' : TSt V} {n par} {t t' t'' : T V} (h : Pre st n par t)
    (h1 : Post st n par t' st') (hids : t'.ids.Perm t.ids)
    (h2 : Post st' n par t'' st'') (hids2 : t''.ids.Perm t'.ids) : Post st n par t'' st'' := by
  refine ⟨?_, by rw [h2.next, h1.next], by rw [h2.thr, h1.thr], ?_, h2.repr⟩
  · rw [h2.objs, wr_objs_congr h1.objs, wr_wr]
  · intro q hq
    have hq' : q ∉ t'.ids := fun hm => hq (hids2.mem_iff.2 hm)
    have := wr_mem_congr (st := wr st n t'.rt) (st' := st') (r := n) (q := t''.rt)
      (fun a ha => h1.frame a fun hm => h.own a ha (hids.mem_iff.1 hm)) (h1.frame q hq')
    rw [wr_wr] at this
    rw [h2.frame q hq, this]

theorem Post.refl {st : TSt V} {n par} {t : T V} (h : Pre st n par t) : Post st n par t st :=
  ⟨by rw [wr_self h.at_], rfl, rfl, fun q _ => by rw [wr_self h.at_], h.repr⟩

/-! ### Rotations -/

theorem rotR_sim {st : TSt V} {n par c c2 A b vb B a va C}
    (h : Pre st n par (.node c (.node c2 A b vb B) a va C)) :
    ∃ st', rotateRight n st = .ok () st' ∧ Post st n par (.node c2 A b vb (.node c B a va C)) st' := by
  obtain ⟨hat, ⟨ha, ⟨hb, hA, hB⟩, hC⟩, hnd, hown⟩ := h
  have hids : (T.node c2 A b vb (.node c B a va C)).ids = (T.node c (.node c2 A b vb B) a va C).ids := by
    simp
  simp only [T.rt_node] at hat ha hb
  have hat1 := setRef_at (q' := some b) hat
  obtain ⟨st1, hst1⟩ : ∃ st1, st1 = wr st n (some b) := ⟨_, rfl⟩
  have hm1 : ∀ q ∈ (T.node c (.node c2 A b vb B) a va C).ids, st1.mem q = st.mem q := by
    intro q hq; rw [hst1]; exact wr_mem fun h => hown q h hq
  rw [← hst1] at hat1
  have ha1 : st1.mem a = _ := (hm1 a (by simp)).trans ha
  have hb1 : st1.mem b = _ := (hm1 b (by simp)).trans hb
  simp only [T.ids_node, List.append_assoc, List.cons_append] at hnd
  have hab : b ≠ a := by rintro rfl; simp [List.nodup_append, List.nodup_cons] at hnd
  have dA : ∀ q ∈ A.ids, q ≠ a ∧ q ≠ b ∧ q ∉ B.ids := by
    simp [List.nodup_append] at hnd; grind
  have dB : ∀ q ∈ B.ids, q ≠ a ∧ q ≠ b := by
    simp [List.nodup_append] at hnd; grind
  have dC : ∀ q ∈ C.ids, q ≠ a ∧ q ≠ b ∧ q ∉ B.ids := by
    simp [List.nodup_append] at hnd; grind
  have hBnd : B.ids.Nodup := by simp [List.nodup_append] at hnd; grind
  cases B with
  | nil =>
    refine ⟨⟨st1.objs, upd (upd st1.mem a (some (some ⟨va, none, C.rt, some b, c⟩))) b
      (some (some ⟨vb, A.rt, some a, par, c2⟩)), st1.next, st1.thr⟩, ?_, ?_⟩
    · simp only [rotateRight, M.bind_apply, getRef_at hat, deref_some]
      simp only [getRef_left ha, getRef_right hb, M.bind_apply, deref_some]
      simp only [T.rt_nil, Nary.swap, Nary.foldL, getRefL, setRefL, getRef_at hat, hat1, getRef_left ha, M.bind_apply]
      rw [getRef_right hb1]; simp only []
      rw [setRef_left ha1]; simp only []
      rw [getRef_par (a := b) (by simp only [upd_apply, if_neg hab]; exact hb1)]; simp only []
      rw [setRef_right (a := b) (by simp only [upd_apply, if_neg hab]; exact hb1)]; simp only []
      rw [getRef_par (a := a) (by simp only [upd_apply, if_neg hab.symm, if_true]; rfl)]; simp only []
      rw [setRef_par (a := b) (by simp only [upd_apply, if_true]; rfl)]; simp only [M.pure_apply]
      rw [setRef_par (a := a) (by simp only [upd_apply, if_neg hab.symm, if_true]; rfl)]; simp
      funext q; simp; grind
    · refine ⟨by rw [hst1]; rfl, by simp [hst1], by simp [hst1], ?_, ?_⟩
      · intro q hq
        simp at hq
        simp [hq, hst1]
      · refine ⟨by simp, ?_, by simp [hab, Ne.symm hab], trivial, ?_⟩
        · exact hA.congr fun q hq => by simp [dA q hq, hm1 q (by simp [hq])]
        · exact hC.congr fun q hq => by simp [dC q hq, hm1 q (by simp [hq])]
  | node cd D d vd E =>
    have hd := hB.1
    have hd1 : st1.mem d = _ := (hm1 d (by simp)).trans hd
    have hda : d ≠ a := (dB d (by simp)).1
    have hdb : d ≠ b := (dB d (by simp)).2
    refine ⟨⟨st1.objs, upd (upd (upd st1.mem a (some (some ⟨va, some d, C.rt, some b, c⟩))) b
      (some (some ⟨vb, A.rt, some a, par, c2⟩))) d (some (some ⟨vd, D.rt, E.rt, some a, cd⟩)), st1.next, st1.thr⟩, ?_, ?_⟩
    · simp only [rotateRight, M.bind_apply, getRef_at hat, deref_some]
      simp only [getRef_left ha, getRef_right hb, M.bind_apply, deref_some]
      simp only [T.rt_node, Nary.swap, Nary.foldL, getRefL, setRefL, getRef_at hat, hat1, getRef_left ha, M.bind_apply]
      rw [getRef_right hb1]; simp only []
      rw [setRef_left ha1]; simp only []
      rw [getRef_par (a := b) (by simp only [upd_apply, if_neg hab]; exact hb1)]; simp only []
      rw [setRef_right (a := b) (by simp only [upd_apply, if_neg hab]; exact hb1)]; simp only []
      rw [getRef_par (a := a) (by simp only [upd_apply, if_neg hab.symm, if_true]; rfl)]; simp only []
      rw [setRef_par (a := b) (by simp only [upd_apply, if_true]; rfl)]; simp only []
      rw [getRef_par (a := d) (by simp only [upd_apply, if_neg hda, if_neg hdb]; exact hd1)]; simp only []
      rw [setRef_par (a := a) (by simp only [upd_apply, if_neg hab.symm, if_true]; rfl)]; simp only []
      rw [setRef_par (a := d) (by simp only [upd_apply, if_neg hda, if_neg hdb]; exact hd1)]; simp
      funext q; simp; grind
    · refine ⟨by rw [hst1]; rfl, by simp [hst1], by simp [hst1], ?_, ?_⟩
      · intro q hq
        simp at hq
        simp [hq, hst1]
      · refine ⟨by simp [Ne.symm hdb], ?_, by simp [hab, Ne.symm hab, Ne.symm hda], ?_, ?_⟩
        · exact hA.congr fun q hq => by
            have := dA q hq; simp at this; simp [this, hm1 q (by simp [hq])]
        · exact hB.reparent hBnd (by simp) fun q hq hqd => by
            simp [dB q hq, hqd, hm1 q (by simp at hq; simp; grind)]
        · exact hC.congr fun q hq => by
            have := dC q hq; simp at this; simp [this, hm1 q (by simp [hq])]

theorem rotL_sim {st : TSt V} {n par c c2 A b vb B a va C}
    (h : Pre st n par (.node c C a va (.node c2 B b vb A))) :
    ∃ st', rotateLeft n st = .ok () st' ∧ Post st n par (.node c2 (.node c C a va B) b vb A) st' := by
  obtain ⟨hat, ⟨ha, hC, ⟨hb, hB, hA⟩⟩, hnd, hown⟩ := h
  have hids : (T.node c2 (.node c C a va B) b vb A).ids = (T.node c C a va (.node c2 B b vb A)).ids := by
    simp
  simp only [T.rt_node] at hat ha hb
  have hat1 := setRef_at (q' := some b) hat
  obtain ⟨st1, hst1⟩ : ∃ st1, st1 = wr st n (some b) := ⟨_, rfl⟩
  have hm1 : ∀ q ∈ (T.node c C a va (.node c2 B b vb A)).ids, st1.mem q = st.mem q := by
    intro q hq; rw [hst1]; exact wr_mem fun h => hown q h hq
  rw [← hst1] at hat1
  have ha1 : st1.mem a = _ := (hm1 a (by simp)).trans ha
  have hb1 : st1.mem b = _ := (hm1 b (by simp)).trans hb
  simp only [T.ids_node, List.append_assoc, List.cons_append] at hnd
  have hab : b ≠ a := by rintro rfl; simp [List.nodup_append, List.nodup_cons] at hnd
  have dA : ∀ q ∈ A.ids, q ≠ a ∧ q ≠ b ∧ q ∉ B.ids := by
    simp [List.nodup_append] at hnd; grind
  have dB : ∀ q ∈ B.ids, q ≠ a ∧ q ≠ b := by
    simp [List.nodup_append] at hnd; grind
  have dC : ∀ q ∈ C.ids, q ≠ a ∧ q ≠ b ∧ q ∉ B.ids := by
    simp [List.nodup_append] at hnd; grind
  have hBnd : B.ids.Nodup := by simp [List.nodup_append] at hnd; grind
  cases B with
  | nil =>
    refine ⟨⟨st1.objs, upd (upd st1.mem a (some (some ⟨va, C.rt, none, some b, c⟩))) b
      (some (some ⟨vb, some a, A.rt, par, c2⟩)), st1.next, st1.thr⟩, ?_, ?_⟩
    · simp only [rotateLeft, M.bind_apply, getRef_at hat, deref_some]
      simp only [getRef_right ha, getRef_left hb, M.bind_apply, deref_some]
      simp only [T.rt_nil, Nary.swap, Nary.foldL, getRefL, setRefL, getRef_at hat, hat1, getRef_right ha, M.bind_apply]
      rw [getRef_left hb1]; simp only []
      rw [setRef_right ha1]; simp only []
      rw [getRef_par (a := b) (by simp only [upd_apply, if_neg hab]; exact hb1)]; simp only []
      rw [setRef_left (a := b) (by simp only [upd_apply, if_neg hab]; exact hb1)]; simp only []
      rw [getRef_par (a := a) (by simp only [upd_apply, if_neg hab.symm, if_true]; rfl)]; simp only []
      rw [setRef_par (a := b) (by simp only [upd_apply, if_true]; rfl)]; simp only [M.pure_apply]
      rw [setRef_par (a := a) (by simp only [upd_apply, if_neg hab.symm, if_true]; rfl)]; simp
      funext q; simp; grind
    · refine ⟨by rw [hst1]; rfl, by simp [hst1], by simp [hst1], ?_, ?_⟩
      · intro q hq
        simp at hq
        simp [hq, hst1]
      · refine ⟨by simp, ⟨by simp [hab, Ne.symm hab], ?_, trivial⟩, ?_⟩
        rotate_left
        · exact hA.congr fun q hq => by simp [dA q hq, hm1 q (by simp [hq])]
        · exact hC.congr fun q hq => by simp [dC q hq, hm1 q (by simp [hq])]
  | node cd D d vd E =>
    have hd := hB.1
    have hd1 : st1.mem d = _ := (hm1 d (by simp)).trans hd
    have hda : d ≠ a := (dB d (by simp)).1
    have hdb : d ≠ b := (dB d (by simp)).2
    refine ⟨⟨st1.objs, upd (upd (upd st1.mem a (some (some ⟨va, C.rt, some d, some b, c⟩))) b
      (some (some ⟨vb, some a, A.rt, par, c2⟩))) d (some (some ⟨vd, D.rt, E.rt, some a, cd⟩)), st1.next, st1.thr⟩, ?_, ?_⟩
    · simp only [rotateLeft, M.bind_apply, getRef_at hat, deref_some]
      simp only [getRef_right ha, getRef_left hb, M.bind_apply, deref_some]
      simp only [T.rt_node, Nary.swap, Nary.foldL, getRefL, setRefL, getRef_at hat, hat1, getRef_right ha, M.bind_apply]
      rw [getRef_left hb1]; simp only []
      rw [setRef_right ha1]; simp only []
      rw [getRef_par (a := b) (by simp only [upd_apply, if_neg hab]; exact hb1)]; simp only []
      rw [setRef_left (a := b) (by simp only [upd_apply, if_neg hab]; exact hb1)]; simp only []
      rw [getRef_par (a := a) (by simp only [upd_apply, if_neg hab.symm, if_true]; rfl)]; simp only []
      rw [setRef_par (a := b) (by simp only [upd_apply, if_true]; rfl)]; simp only []
      rw [getRef_par (a := d) (by simp only [upd_apply, if_neg hda, if_neg hdb]; exact hd1)]; simp only []
      rw [setRef_par (a := a) (by simp only [upd_apply, if_neg hab.symm, if_true]; rfl)]; simp only []
      rw [setRef_par (a := d) (by simp only [upd_apply, if_neg hda, if_neg hdb]; exact hd1)]; simp
      funext q; simp; grind
    · refine ⟨by rw [hst1]; rfl, by simp [hst1], by simp [hst1], ?_, ?_⟩
      · intro q hq
        simp at hq
        simp [hq, hst1]
      · refine ⟨by simp [Ne.symm hdb], ⟨by simp [hab, Ne.symm hab, Ne.symm hda], ?_, ?_⟩, ?_⟩
        rotate_left 2
        · exact hA.congr fun q hq => by
            have := dA q hq; simp at this; simp [this, hm1 q (by simp [hq])]
        · exact hC.congr fun q hq => by
            have := dC q hq; simp at this; simp [this, hm1 q (by simp [hq])]
        · exact hB.reparent hBnd (by simp) fun q hq hqd => by
            simp [dB q hq, hqd, hm1 q (by simp at hq; simp; grind)]

/-! ### Rebalancing -/

theorem Post.liftL {st st' : TSt V} {n par c l a v r} {l' : T V}
    (hr : Repr st.mem par (.node c l a v r)) (hat : At st n (some a))
    (hp : Post st (.left a) (some a) l' st') (hdis : ∀ q ∈ l'.ids, q ≠ a ∧ q ∉ r.ids) (hna : a ∉ r.ids) :
    Post st n par (.node c l' a v r) st' := by
  have hw : wr st n (some a) = st := wr_self hat
  refine ⟨?_, hp.next, hp.thr, ?_, ?_, hp.repr, ?_⟩
  · rw [T.rt_node, hw, hp.objs]; rfl
  · intro q hq
    simp at hq
    rw [T.rt_node, hw, hp.frame q hq.1, wr_mem (by simp [Ref.owner]; exact fun h => hq.2.1 h.symm)]
  · rw [hp.frame a (fun h => (hdis a h).1 rfl)]
    simp [wr, hr.1]
  · refine hr.2.2.congr fun q hq => ?_
    rw [hp.frame q (fun h => (hdis q h).2 hq), wr_mem]
    simp [Ref.owner]; rintro rfl; exact hna hq

theorem Post.liftR {st st' : TSt V} {n par c l a v r} {r' : T V}
    (hr : Repr st.mem par (.node c l a v r)) (hat : At st n (some a))
    (hp : Post st (.right a) (some a) r' st') (hdis : ∀ q ∈ r'.ids, q ≠ a ∧ q ∉ l.ids) (hna : a ∉ l.ids) :
    Post st n par (.node c l a v r') st' := by
  have hw : wr st n (some a) = st := wr_self hat
  refine ⟨?_, hp.next, hp.thr, ?_, ?_, ?_, hp.repr⟩
  · rw [T.rt_node, hw, hp.objs]; rfl
  · intro q hq
    simp at hq
    rw [T.rt_node, hw, hp.frame q hq.2.2, wr_mem (by simp [Ref.owner]; exact fun h => hq.2.1 h.symm)]
  · rw [hp.frame a (fun h => (hdis a h).1 rfl)]
    simp [wr, hr.1]
  · refine hr.2.1.congr fun q hq => ?_
    rw [hp.frame q (fun h => (hdis q h).2 hq), wr_mem]
    simp [Ref.owner]; rintro rfl; exact hna hq

theorem nodup_node {c l a v r} (h : (T.node c l a v r : T V).ids.Nodup) :
    l.ids.Nodup ∧ r.ids.Nodup ∧ a ∉ l.ids ∧ a ∉ r.ids ∧ (∀ q ∈ l.ids, q ≠ a ∧ q ∉ r.ids) ∧
      (∀ q ∈ r.ids, q ≠ a ∧ q ∉ l.ids) := by
  simp [List.nodup_append] at h
  grind

theorem Pre.left {st : TSt V} {n par c l a v r} (h : Pre st n par (.node c l a v r)) :
    Pre st (.left a) (some a) l := by
  have := nodup_node h.nodup
  exact ⟨⟨_, h.repr.1, rfl⟩, h.repr.2.1, this.1, by simp [Ref.owner]; exact this.2.2.1⟩

theorem Pre.right {st : TSt V} {n par c l a v r} (h : Pre st n par (.node c l a v r)) :
    Pre st (.right a) (some a) r := by
  have := nodup_node h.nodup
  exact ⟨⟨_, h.repr.1, rfl⟩, h.repr.2.2, this.2.1, by simp [Ref.owner]; exact this.2.2.2.1⟩

theorem Post.upL {st st' : TSt V} {n par c l a v r} {l' : T V} (h : Pre st n par (.node c l a v r))
    (hp : Post st (.left a) (some a) l' st') (hids : l'.ids.Perm l.ids) :
    Post st n par (.node c l' a v r) st' := by
  have := nodup_node h.nodup
  exact Post.liftL h.repr h.at_ hp (fun q hq => this.2.2.2.2.1 q (hids.mem_iff.1 hq)) this.2.2.2.1

theorem Post.upR {st st' : TSt V} {n par c l a v r} {r' : T V} (h : Pre st n par (.node c l a v r))
    (hp : Post st (.right a) (some a) r' st') (hids : r'.ids.Perm r.ids) :
    Post st n par (.node c l a v r') st' := by
  have := nodup_node h.nodup
  exact Post.liftR h.repr h.at_ hp (fun q hq => this.2.2.2.2.2 q (hids.mem_iff.1 hq)) this.2.2.1

theorem setBlack_sim {st : TSt V} {n par c l a v r} (h : Pre st n par (.node c l a v r)) :
    ∃ st', setBlack (some a) st = .ok () st' ∧ Post st n par (.node .black l a v r) st' := by
  have hn := nodup_node h.nodup
  refine ⟨⟨st.objs, upd st.mem a (some (some ⟨v, l.rt, r.rt, par, .black⟩)), st.next, st.thr⟩, ?_, ?_⟩
  · simp [setBlack, h.repr.1]
  · have hw : wr st n (some a) = st := wr_self h.at_
    refine ⟨by rw [T.rt_node, hw], rfl, rfl, ?_, by simp, ?_, ?_⟩
    · intro q hq
      simp at hq
      simp [hq.2.1, hw]
    · exact h.repr.2.1.congr fun q hq => by simp [hn.2.2.2.2.1 q hq]
    · exact h.repr.2.2.congr fun q hq => by simp [hn.2.2.2.2.2 q hq]

theorem isRed_sim {st : TSt V} {par} {t : T V} (h : Repr st.mem par t) :
    isRed t.rt st = .ok t.isR st := by
  cases t with
  | nil => rfl
  | node c l a v r =>
    have := h.1
    cases c <;> simp [isRed, this]

theorem getL_sim {st : TSt V} {par c l a v r} (h : Repr st.mem par (.node c l a v r)) :
    getL (some a) st = .ok l.rt st := by
  simp [getL, getRef_left h.1]
theorem getR_sim {st : TSt V} {par c l a v r} (h : Repr st.mem par (.node c l a v r)) :
    getR (some a) st = .ok r.rt st := by
  simp [getR, getRef_right h.1]

theorem Repr.l {m : Nat → Option (Cell V)} {par} {t : T V} (h : Repr m par t) : Repr m t.rt t.lf := by
  cases t with
  | nil => trivial
  | node c l a v r => exact h.2.1
theorem Repr.r {m : Nat → Option (Cell V)} {par} {t : T V} (h : Repr m par t) : Repr m t.rt t.rg := by
  cases t with
  | nil => trivial
  | node c l a v r => exact h.2.2

theorem redRedL_sim {st : TSt V} {par} {t : T V} (h : Repr st.mem par t) :
    redRed t.rt getL st = .ok (t.isR && t.lf.isR) st := by
  simp only [redRed, M.bind_apply, isRed_sim h]
  cases t with
  | nil => simp
  | node c l a v r =>
    cases c with
    | black => simp
    | red => simp [getL_sim h, isRed_sim h.2.1]

theorem redRedR_sim {st : TSt V} {par} {t : T V} (h : Repr st.mem par t) :
    redRed t.rt getR st = .ok (t.isR && t.rg.isR) st := by
  simp only [redRed, M.bind_apply, isRed_sim h]
  cases t with
  | nil => simp
  | node c l a v r =>
    cases c with
    | black => simp
    | red => simp [getR_sim h, isRed_sim h.2.2]

theorem isR_true {t : T V} (h : t.isR = true) : ∃ l a v r, t = .node .red l a v r := by
  cases t with
  | nil => simp at h
  | node c l a v r =>
    cases c with
    | black => simp at h
    | red => exact ⟨l, a, v, r, rfl⟩

theorem rebalance_sim {st : TSt V} {n par c l a v r} (h : Pre st n par (.node c l a v r)) :
    ∃ st', rebalance n st = .ok () st' ∧ Post st n par (T.bal (.node c l a v r)) st' := by
  have hr := h.repr
  simp only [rebalance, M.bind_apply, getRef_at h.at_, T.rt_node, deref_some, getN_some hr.1, getL_sim hr,
    getR_sim hr]
  cases c with
  | red => simp [T.bal]; exact .refl h
  | black =>
    rw [if_neg (by decide)]
    simp only [M.bind_apply, getL_sim hr, redRedL_sim hr.2.1]
    simp only [T.bal, T.isR_blk, T.lf_node, T.rg_node, if_false, Bool.false_eq_true]
    by_cases c1 : (l.isR && l.lf.isR) = true
    · simp only [c1, if_true]
      simp at c1
      obtain ⟨A, b, vb, C, rfl⟩ := isR_true c1.1
      obtain ⟨A1, d, vd, B, rfl⟩ := isR_true c1.2
      simp only [T.rt_node, M.bind_apply, getL_sim hr, getL_sim hr.2.1]
      obtain ⟨st1, e1, p1⟩ := setBlack_sim h.left.left
      have q1 := (Post.upL h (Post.upL h.left p1 (by simp)) (by simp))
      obtain ⟨st2, e2, p2⟩ := rotR_sim (q1.pre h (by simp))
      refine ⟨st2, by simp only [e1, e2], ?_⟩
      exact q1.trans h (by simp) p2 (by simp)
    · simp only [c1, redRedR_sim hr.2.1, if_false, Bool.false_eq_true, M.bind_apply, getL_sim hr]
      by_cases c2 : (l.isR && l.rg.isR) = true
      · simp only [c2, if_true]
        simp at c2
        obtain ⟨A, b, vb, C, rfl⟩ := isR_true c2.1
        obtain ⟨B1, d, vd, B2, rfl⟩ := isR_true c2.2
        simp only [T.rt_node, M.bind_apply, getL_sim hr]
        obtain ⟨st1, e1, p1⟩ := setBlack_sim h.left
        have q1 := Post.upL h p1 (by simp)
        have h1 := q1.pre h (by simp)
        obtain ⟨st2, e2, p2⟩ := rotL_sim h1.left
        have q2 := Post.upL h1 p2 (by simp)
        obtain ⟨st3, e3, p3⟩ := rotR_sim (q2.pre h1 (by simp))
        refine ⟨st3, by simp only [e1, e2, e3], ?_⟩
        exact q1.trans h (by simp) (q2.trans h1 (by simp) p3 (by simp)) (by simp)
      · simp only [c2, redRedL_sim hr.2.2, if_false, Bool.false_eq_true, M.bind_apply, getR_sim hr]
        by_cases c3 : (r.isR && r.lf.isR) = true
        · simp only [c3, if_true]
          simp at c3
          obtain ⟨A, b, vb, C, rfl⟩ := isR_true c3.1
          obtain ⟨B1, d, vd, B2, rfl⟩ := isR_true c3.2
          simp only [T.rt_node, M.bind_apply, getR_sim hr]
          obtain ⟨st1, e1, p1⟩ := setBlack_sim h.right
          have q1 := Post.upR h p1 (by simp)
          have h1 := q1.pre h (by simp)
          obtain ⟨st2, e2, p2⟩ := rotR_sim h1.right
          have q2 := Post.upR h1 p2 (by simp)
          obtain ⟨st3, e3, p3⟩ := rotL_sim (q2.pre h1 (by simp))
          refine ⟨st3, by simp only [e1, e2, e3], ?_⟩
          exact q1.trans h (by simp) (q2.trans h1 (by simp) p3 (by simp)) (by simp)
        · simp only [c3, redRedR_sim hr.2.2, if_false, Bool.false_eq_true, M.bind_apply, getR_sim hr]
          by_cases c4 : (r.isR && r.rg.isR) = true
          · simp only [c4, if_true]
            simp at c4
            obtain ⟨A, b, vb, C, rfl⟩ := isR_true c4.1
            obtain ⟨A1, d, vd, B, rfl⟩ := isR_true c4.2
            simp only [T.rt_node, M.bind_apply, getR_sim hr, getR_sim hr.2.2]
            obtain ⟨st1, e1, p1⟩ := setBlack_sim h.right.right
            have q1 := (Post.upR h (Post.upR h.right p1 (by simp)) (by simp))
            obtain ⟨st2, e2, p2⟩ := rotL_sim (q1.pre h (by simp))
            refine ⟨st2, by simp only [e1, e2], ?_⟩
            exact q1.trans h (by simp) p2 (by simp)
          · simp only [c4, if_false, Bool.false_eq_true, M.pure_apply]
            exact ⟨st, rfl, .refl h⟩

/-! ### Insertion -/

/-- What `m_begin` points to has value `bv`. -/
def BeginVal (mem : Nat → Option (Cell V)) : Option Nat → Option V → Prop
  | none, bv => bv = none
  | some b, bv => ∃ n, mem b = some (some n) ∧ bv = some n.x

/-- `m_begin` and `m_size` after a node was added. -/
def bumpO (g : Cfg V K) (o : Obj) (bv : Option V) (v : V) (n : Nat) : Obj :=
  { o with begin_ := if (match bv with | none => true | some w => g.lt v w) then some n else o.begin_,
           size := o.size + 1 }

def bump (g : Cfg V K) (st : TSt V) (x : Nat) (o : Obj) (bv : Option V) (v : V) : TSt V :=
  ⟨upd st.objs x (some (bumpO g o bv v st.next)), st.mem, st.next + 1, st.thr⟩

theorem pre_bump {g : Cfg V K} {st : TSt V} {x o bv v n par} {t : T V} (ho : st.objs x = some o)
    (h : Pre st n par t) : Pre (bump g st x o bv v) n par t := by
  refine ⟨?_, h.repr, h.nodup, h.own⟩
  have := h.at_
  cases n with
  | root y =>
    obtain ⟨o1, h1, h2⟩ := this
    by_cases hy : y = x
    · subst hy
      rw [ho] at h1; cases h1
      exact ⟨_, by simp [bump]; rfl, by simp [bumpO, h2]⟩
    · exact ⟨o1, by simp [bump, hy, h1], h2⟩
  | left a => exact this
  | right a => exact this
  | par a => exact this

theorem ins_nil_sim {g : Cfg V K} {st : TSt V} {x o bv v n par} (ho : st.objs x = some o)
    (hbv : BeginVal st.mem o.begin_ bv) (hthr : st.thr = none) (hfresh : st.mem st.next = none)
    (hroot : ∀ y, n = .root y → y = x) (hat : At st n none) (f : Nat) :
    ∃ st', ins g x v (f+1) n par st = .ok (some st.next, true) st' ∧
      Post (bump g st x o bv v) n par (.node .red .nil st.next v .nil) st' := by
  refine ⟨⟨(wr (bump g st x o bv v) n (some st.next)).objs,
    upd (wr (bump g st x o bv v) n (some st.next)).mem st.next (some (some ⟨v, none, none, par, .red⟩)),
    st.next + 1, st.thr⟩, ?_, rfl, by simp [bump], by simp [bump], ?_, by simp, trivial, trivial⟩
  · have hb : ∀ b, o.begin_ = some b → b ≠ st.next := by
      rintro b hb rfl
      rw [hb] at hbv
      obtain ⟨n, h1, _⟩ := hbv
      rw [hfresh] at h1; cases h1
    simp only [ins, M.bind_apply, getRef_at hat, allocNode, allocC_none hthr]
    cases n with
    | root y =>
      obtain rfl := hroot y rfl
      cases hbo : o.begin_ with
      | none =>
        rw [hbo] at hbv
        have hbv : bv = none := hbv
        simp [setRef, ho, constructNode, hthr, bump, bumpO, hbo, hbv, getRef, wr]
        refine ⟨?_, ?_⟩ <;> (funext q; simp; try split <;> simp_all)
      | some b =>
        rw [hbo] at hbv
        obtain ⟨nb, h1, rfl⟩ := hbv
        simp [setRef, ho, constructNode, hthr, bump, bumpO, hbo, getRef, wr, getX, getN, hb b hbo, h1]
        refine ⟨?_, ?_⟩ <;> (funext q; simp; try split <;> simp_all)
    | left a | right a | par a =>
      obtain ⟨na, h2, h3⟩ := hat
      have ha : a ≠ st.next := by rintro rfl; rw [hfresh] at h2; cases h2
      cases hbo : o.begin_ with
      | none =>
        rw [hbo] at hbv
        have hbv : bv = none := hbv
        simp [setRef, ho, constructNode, hthr, bump, bumpO, hbo, hbv, getRef, wr, getN, ha, Ne.symm ha, h2]
        refine ⟨?_, ?_⟩ <;> (funext q; simp; grind)
      | some b =>
        rw [hbo] at hbv
        obtain ⟨nb, h1, rfl⟩ := hbv
        by_cases hba : b = a
        · subst hba
          rw [h1] at h2; cases h2
          simp [setRef, ho, constructNode, hthr, bump, bumpO, hbo, getRef, wr, getX, getN, ha, Ne.symm ha, h1]
          refine ⟨?_, ?_⟩ <;> (funext q; simp; grind)
        · simp [setRef, ho, constructNode, hthr, bump, bumpO, hbo, getRef, wr, getX, getN, ha, Ne.symm ha,
            hb b hbo, h1, h2, hba]
          refine ⟨?_, ?_⟩ <;> (funext q; simp; grind)
  · intro q hq
    simp at hq
    simp [hq]

theorem ids_bal (t : T V) : t.bal.ids = t.ids := by simp only [T.ids, T.toL_bal]

theorem ids_ins_new {g : Cfg V K} {n : Nat} {v : V} {t : T V} (h : T.look g (g.key v) t = none) :
    (T.ins g n v t).ids.Perm (n :: t.ids) := by
  induction t with
  | nil => simp [T.ins]
  | node c l a w r ih1 ih2 =>
    simp only [T.look] at h
    simp only [T.ins]
    split at h
    · rename_i hk
      rw [if_pos (show g.lt v w = true from hk), ids_bal, T.ids_node, T.ids_node]
      exact ((ih1 h).append_right _).trans (by simp)
    · rename_i hk
      rw [if_neg (show ¬ g.lt v w = true from hk)]
      split at h
      · rename_i hk2
        rw [if_pos (show g.lt w v = true from hk2), ids_bal, T.ids_node, T.ids_node]
        refine (((ih2 h).cons a).append_left _).trans ?_
        refine List.Perm.trans ?_ List.perm_middle
        exact (List.Perm.swap _ _ _).append_left _
      · simp at h

theorem ids_ins_old {g : Cfg V K} {n : Nat} {v : V} {t : T V} {e} (h : T.look g (g.key v) t = some e) :
    (T.ins g n v t).ids = t.ids := by
  induction t with
  | nil => simp [T.look] at h
  | node c l a w r ih1 ih2 =>
    simp only [T.look] at h
    simp only [T.ins]
    split at h
    · rename_i hk
      rw [if_pos (show g.lt v w = true from hk), ids_bal, T.ids_node, T.ids_node, ih1 h]
    · rename_i hk
      rw [if_neg (show ¬ g.lt v w = true from hk)]
      split at h
      · rename_i hk2
        rw [if_pos (show g.lt w v = true from hk2), ids_bal, T.ids_node, T.ids_node, ih2 h]
      · rename_i hk2
        rw [if_neg (show ¬ g.lt w v = true from hk2)]

/-- Insertion of a value without equivalent. -/
theorem ins_new_sim {g : Cfg V K} {st : TSt V} {x o bv v} {t : T V} (ho : st.objs x = some o)
    (hbv : BeginVal st.mem o.begin_ bv) (hthr : st.thr = none) (hfresh : st.mem st.next = none)
    (hlook : T.look g (g.key v) t = none) :
    ∀ {n par}, Pre st n par t → (∀ y, n = .root y → y = x) →
    ∃ st', (∀ f, t.height < f → ins g x v f n par st = .ok (some st.next, true) st') ∧
      Post (bump g st x o bv v) n par (T.ins g st.next v t) st' := by
  induction t with
  | nil =>
    intro n par hpre hroot
    obtain ⟨st', h1, h2⟩ := ins_nil_sim (g := g) (v := v) (par := par) ho hbv hthr hfresh hroot hpre.at_ 0
    refine ⟨st', ?_, h2⟩
    intro f hf
    obtain ⟨f, rfl⟩ : ∃ f', f = f' + 1 := ⟨f - 1, by omega⟩
    rw [← h1]; simp only [ins, M.bind_apply, getRef_at hpre.at_, T.rt_nil]
  | node c l a w r ih1 ih2 =>
    intro n par hpre hroot
    have hnd := nodup_node hpre.nodup
    have hne : ∀ q, st.mem q ≠ none → q ≠ st.next := by
      rintro q hq rfl; exact hq hfresh
    have halloc := hpre.repr.alloc
    have hpb := pre_bump (g := g) (bv := bv) (v := v) ho hpre
    simp only [T.look] at hlook
    simp only [T.ins]
    split at hlook
    · rename_i hk
      obtain ⟨st1, e1, p1⟩ := ih1 hlook hpre.left (by simp)
      have hperm := ids_ins_new (n := st.next) hlook
      have q1 : Post (bump g st x o bv v) n par (.node c (T.ins g st.next v l) a w r) st1 := by
        refine Post.liftL hpb.repr hpb.at_ p1 ?_ hnd.2.2.2.1
        intro q hq
        rcases List.mem_cons.1 (hperm.mem_iff.1 hq) with rfl | hq
        · exact ⟨fun h => hne a (halloc a (by simp)) h.symm, fun h => hne _ (halloc _ (by simp [h])) rfl⟩
        · exact hnd.2.2.2.2.1 q hq
      have hpre1 : Pre st1 n par (.node c (T.ins g st.next v l) a w r) := by
        have hp : (T.node c (T.ins g st.next v l) a w r : T V).ids.Perm
            (st.next :: (T.node c l a w r).ids) := by
          simp only [T.ids_node]; exact (hperm.append_right _).trans (by simp)
        refine ⟨at_of_wr hpb.at_ q1.objs fun b hb => q1.frame b ?_, q1.repr, ?_, ?_⟩
        · intro hm
          rcases List.mem_cons.1 (hp.mem_iff.1 hm) with rfl | hm
          · have := hpre.at_
            cases n <;> simp [Ref.owner] at hb <;> subst hb <;> obtain ⟨_, h', _⟩ := this <;>
              rw [hfresh] at h' <;> cases h'
          · exact hpre.own b hb hm
        · rw [hp.nodup_iff, List.nodup_cons]
          exact ⟨fun h => hne _ (halloc _ h) rfl, hpre.nodup⟩
        · intro b hb hm
          rcases List.mem_cons.1 (hp.mem_iff.1 hm) with rfl | hm
          · have := hpre.at_
            cases n <;> simp [Ref.owner] at hb <;> subst hb <;> obtain ⟨_, h', _⟩ := this <;>
              rw [hfresh] at h' <;> cases h'
          · exact hpre.own b hb hm
      obtain ⟨st2, e2, p2⟩ := rebalance_sim hpre1
      refine ⟨st2, ?_, ?_⟩
      · intro f hf
        obtain ⟨f, rfl⟩ : ∃ f', f = f' + 1 := ⟨f - 1, by omega⟩
        simp only [T.height] at hf
        simp only [ins, M.bind_apply, getRef_at hpre.at_, T.rt_node, getX, deref_some,
          getN_some hpre.repr.1, M.pure_apply]
        rw [if_pos (show g.lt v w = true from hk)]
        simp only [M.bind_apply, e1 f (by omega), e2, M.pure_apply]
      · rw [if_pos (show g.lt v w = true from hk)]
        exact ⟨by rw [p2.objs, wr_objs_congr q1.objs, wr_wr], by rw [p2.next, q1.next],
          by rw [p2.thr, q1.thr], by
            intro q hq
            rw [ids_bal] at hq
            have := wr_mem_congr (st := wr (bump g st x o bv v) n
                (T.node c (T.ins g st.next v l) a w r).rt) (st' := st1) (r := n)
              (q := (T.bal (.node c (T.ins g st.next v l) a w r)).rt)
              (fun b hb => q1.frame b (hpre1.own b hb)) (q1.frame q hq)
            rw [wr_wr] at this
            rw [p2.frame q (by rw [ids_bal]; exact hq), this], p2.repr⟩
    · rename_i hk
      split at hlook
      · rename_i hk2
        obtain ⟨st1, e1, p1⟩ := ih2 hlook hpre.right (by simp)
        have hperm := ids_ins_new (n := st.next) hlook
        have q1 : Post (bump g st x o bv v) n par (.node c l a w (T.ins g st.next v r)) st1 := by
          refine Post.liftR hpb.repr hpb.at_ p1 ?_ hnd.2.2.1
          intro q hq
          rcases List.mem_cons.1 (hperm.mem_iff.1 hq) with rfl | hq
          · exact ⟨fun h => hne a (halloc a (by simp)) h.symm, fun h => hne _ (halloc _ (by simp [h])) rfl⟩
          · exact hnd.2.2.2.2.2 q hq
        have hpre1 : Pre st1 n par (.node c l a w (T.ins g st.next v r)) := by
          have hp : (T.node c l a w (T.ins g st.next v r) : T V).ids.Perm
              (st.next :: (T.node c l a w r).ids) := by
            simp only [T.ids_node]
            refine ((hperm.cons a).append_left _).trans ?_
            refine List.Perm.trans ?_ List.perm_middle
            exact (List.Perm.swap _ _ _).append_left _
          refine ⟨at_of_wr hpb.at_ q1.objs fun b hb => q1.frame b ?_, q1.repr, ?_, ?_⟩
          · intro hm
            rcases List.mem_cons.1 (hp.mem_iff.1 hm) with rfl | hm
            · have := hpre.at_
              cases n <;> simp [Ref.owner] at hb <;> subst hb <;> obtain ⟨_, h', _⟩ := this <;>
                rw [hfresh] at h' <;> cases h'
            · exact hpre.own b hb hm
          · rw [hp.nodup_iff, List.nodup_cons]
            exact ⟨fun h => hne _ (halloc _ h) rfl, hpre.nodup⟩
          · intro b hb hm
            rcases List.mem_cons.1 (hp.mem_iff.1 hm) with rfl | hm
            · have := hpre.at_
              cases n <;> simp [Ref.owner] at hb <;> subst hb <;> obtain ⟨_, h', _⟩ := this <;>
                rw [hfresh] at h' <;> cases h'
            · exact hpre.own b hb hm
        obtain ⟨st2, e2, p2⟩ := rebalance_sim hpre1
        refine ⟨st2, ?_, ?_⟩
        · intro f hf
          obtain ⟨f, rfl⟩ : ∃ f', f = f' + 1 := ⟨f - 1, by omega⟩
          simp only [T.height] at hf
          simp only [ins, M.bind_apply, getRef_at hpre.at_, T.rt_node, getX, deref_some,
            getN_some hpre.repr.1, M.pure_apply]
          rw [if_neg (show ¬ g.lt v w = true from hk), if_pos (show g.lt w v = true from hk2)]
          simp only [M.bind_apply, e1 f (by omega), e2, M.pure_apply]
        · rw [if_neg (show ¬ g.lt v w = true from hk), if_pos (show g.lt w v = true from hk2)]
          exact ⟨by rw [p2.objs, wr_objs_congr q1.objs, wr_wr], by rw [p2.next, q1.next],
            by rw [p2.thr, q1.thr], by
              intro q hq
              rw [ids_bal] at hq
              have := wr_mem_congr (st := wr (bump g st x o bv v) n
                  (T.node c l a w (T.ins g st.next v r)).rt) (st' := st1) (r := n)
                (q := (T.bal (.node c l a w (T.ins g st.next v r))).rt)
                (fun b hb => q1.frame b (hpre1.own b hb)) (q1.frame q hq)
              rw [wr_wr] at this
              rw [p2.frame q (by rw [ids_bal]; exact hq), this], p2.repr⟩
      · simp at hlook

/-- Insertion of a value that has an equivalent. -/
theorem ins_old_sim {g : Cfg V K} {st : TSt V} {x v} {t : T V} {a₀ : Nat} {v₀ : V}
    (hlook : T.look g (g.key v) t = some (a₀, v₀)) :
    ∀ {n par}, Pre st n par t →
    ∃ st', (∀ f, t.height < f → ins g x v f n par st = .ok (some a₀, false) st') ∧
      Post st n par (T.ins g st.next v t) st' := by
  induction t with
  | nil => simp [T.look] at hlook
  | node c l a w r ih1 ih2 =>
    intro n par hpre
    simp only [T.look] at hlook
    simp only [T.ins]
    split at hlook
    · rename_i hk
      obtain ⟨st1, e1, p1⟩ := ih1 hlook hpre.left
      have hids := ids_ins_old (n := st.next) hlook
      have q1 := Post.upL hpre p1 (by rw [hids])
      have hp : (T.node c (T.ins g st.next v l) a w r).ids = (T.node c l a w r).ids := by simp [hids]
      obtain ⟨st2, e2, p2⟩ := rebalance_sim (q1.pre hpre (by rw [hp]))
      refine ⟨st2, ?_, ?_⟩
      · intro f hf
        obtain ⟨f, rfl⟩ : ∃ f', f = f' + 1 := ⟨f - 1, by omega⟩
        simp only [T.height] at hf
        simp only [ins, M.bind_apply, getRef_at hpre.at_, T.rt_node, getX, deref_some,
          getN_some hpre.repr.1, M.pure_apply]
        rw [if_pos (show g.lt v w = true from hk)]
        simp only [M.bind_apply, e1 f (by omega), e2, M.pure_apply]
      · rw [if_pos (show g.lt v w = true from hk)]
        exact q1.trans hpre (by rw [hp]) p2 (by rw [ids_bal])
    · rename_i hk
      split at hlook
      · rename_i hk2
        obtain ⟨st1, e1, p1⟩ := ih2 hlook hpre.right
        have hids := ids_ins_old (n := st.next) hlook
        have q1 := Post.upR hpre p1 (by rw [hids])
        have hp : (T.node c l a w (T.ins g st.next v r)).ids = (T.node c l a w r).ids := by simp [hids]
        obtain ⟨st2, e2, p2⟩ := rebalance_sim (q1.pre hpre (by rw [hp]))
        refine ⟨st2, ?_, ?_⟩
        · intro f hf
          obtain ⟨f, rfl⟩ : ∃ f', f = f' + 1 := ⟨f - 1, by omega⟩
          simp only [T.height] at hf
          simp only [ins, M.bind_apply, getRef_at hpre.at_, T.rt_node, getX, deref_some,
            getN_some hpre.repr.1, M.pure_apply]
          rw [if_neg (show ¬ g.lt v w = true from hk), if_pos (show g.lt w v = true from hk2)]
          simp only [M.bind_apply, e1 f (by omega), e2, M.pure_apply]
        · rw [if_neg (show ¬ g.lt v w = true from hk), if_pos (show g.lt w v = true from hk2)]
          exact q1.trans hpre (by rw [hp]) p2 (by rw [ids_bal])
      · rename_i hk2
        simp at hlook
        refine ⟨st, ?_, ?_⟩
        · intro f hf
          obtain ⟨f, rfl⟩ : ∃ f', f = f' + 1 := ⟨f - 1, by omega⟩
          simp only [ins, M.bind_apply, getRef_at hpre.at_, T.rt_node, getX, deref_some,
            getN_some hpre.repr.1, M.pure_apply]
          rw [if_neg (show ¬ g.lt v w = true from hk), if_neg (show ¬ g.lt w v = true from hk2)]
          simp [hlook.1]
        · rw [if_neg (show ¬ g.lt v w = true from hk), if_neg (show ¬ g.lt w v = true from hk2)]
          exact .refl hpre

end Cest.Tree
