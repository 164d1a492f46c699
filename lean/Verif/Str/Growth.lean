import Verif.Str.Props
/-
Lemmas for C133 (how often a growing string reallocates).
-/
namespace Cest.Str
open Cest
set_option linter.unusedSectionVars false
variable {V : Type} [DecidableEq V] {t : Traits V} {st : SSt V} {e : Env V}

/-- A computation that neither allocates nor changes the data members of a string. -/
def Quiet {α : Type} (m : SM V α) : Prop :=
  ∀ s a s', m s = .ok a s' → s'.objs = s.objs ∧ s'.next = s.next

theorem Quiet.bind {α β : Type} {m : SM V α} {f : α → SM V β} (h : Quiet m) (k : ∀ a, Quiet (f a)) :
    Quiet (m >>= f) := by
  intro s b s' hs
  simp only [M.bind_apply] at hs
  split at hs <;> try (cases hs; done)
  rename_i a s1 h1
  obtain ⟨h2, h3⟩ := h _ _ _ h1
  obtain ⟨h4, h5⟩ := k a _ _ _ hs
  exact ⟨h4.trans h2, h5.trans h3⟩

theorem Quiet.pure {α : Type} (a : α) : Quiet (Pure.pure a : SM V α) := by
  intro s b s' hs; simp at hs; obtain ⟨-, rfl⟩ := hs; exact ⟨rfl, rfl⟩

theorem Quiet.ub {α : Type} (u : UB) : Quiet (M.ub u : SM V α) := by
  intro s b s' hs; cases hs

theorem Quiet.forN {f : Nat → SM V Unit} (h : ∀ i, Quiet (f i)) (i n : Nat) : Quiet (forN f i n) := by
  induction n generalizing i with
  | zero => exact Quiet.pure ()
  | succ n ih => exact Quiet.bind (h i) fun _ => ih (i+1)

theorem Quiet.withSlot {α : Type} {p : Option Nat} {i : Nat} {f : Nat → Blk V → SM V α}
    (h : ∀ a b, Quiet (f a b)) : Quiet (withSlot p i f) := by
  unfold Cest.withSlot
  refine Quiet.bind ?_ fun a => Quiet.bind ?_ fun b => ?_
  · intro s a s' hs; unfold deref at hs; split at hs <;> cases hs; exact ⟨rfl, rfl⟩
  · intro s a s' hs; unfold getC at hs; split at hs <;> cases hs; exact ⟨rfl, rfl⟩
  · split
    · exact h a b
    · exact Quiet.ub _

theorem Quiet.setC (a : Nat) (c : Blk V) : Quiet (setC a c : SM V Unit) := by
  intro s b s' hs; unfold Cest.setC at hs; split at hs <;> cases hs; exact ⟨rfl, rfl⟩

theorem putc_quiet (p : Option Nat) (i : Nat) (c : V) : Quiet (putc p i c : SM V Unit) := by
  unfold putc
  refine Quiet.withSlot fun a b => ?_
  split
  · exact Quiet.ub _
  · exact Quiet.setC _ _

theorem load_quiet (p : Option Nat) (i : Nat) : Quiet (load p i : SM V V) := by
  unfold load
  refine Quiet.withSlot fun a b => ?_
  split
  · exact Quiet.ub _
  · exact Quiet.pure _

theorem rd_quiet (p : Ptr V) (k : Nat) : Quiet (p.rd k) := by
  unfold Ptr.rd
  split
  · split
    · exact Quiet.pure _
    · exact Quiet.ub _
  · exact load_quiet _ _

theorem newc_quiet (p : Option Nat) (i : Nat) : Quiet (newc t p i) :=
  Quiet.withSlot fun _ _ => Quiet.setC _ _

theorem copyChars_quiet (d : Option Nat) (i : Nat) (s : Ptr V) (n : Nat) : Quiet (copyChars t d i s n) := by
  unfold copyChars
  split
  · exact Quiet.ub _
  · exact Quiet.forN (fun k => Quiet.bind (rd_quiet _ _) fun c => putc_quiet _ _ _) _ _

theorem freeChars_quiet (p : Option Nat) (n : Nat) : Quiet (freeChars p n : SM V Unit) := by
  intro s b s' hs
  unfold freeChars at hs
  split at hs
  · cases hs; exact ⟨rfl, rfl⟩
  · split at hs
    · cases hs
    · split at hs <;> cases hs
      exact ⟨rfl, rfl⟩

theorem allocInit_next {n a : Nat} {s s' : SSt V} (h : allocInit t n s = .ok a s') :
    s'.objs = s.objs ∧ s'.next = s.next + 1 := by
  simp only [allocInit, M.bind_apply] at h
  split at h <;> try (cases h; done)
  rename_i b s1 h1
  have h2 : s1.objs = s.objs ∧ s1.next = s.next + 1 := by
    simp only [allocArr, allocC] at h1
    unfold tick at h1
    split at h1
    · rename_i h3
      split at h3 <;> cases h3 <;> cases h1 <;> exact ⟨rfl, rfl⟩
    · cases h1
    · cases h1
    · cases h1
  split at h <;> try (cases h; done)
  rename_i u s2 h3
  obtain ⟨h4, h5⟩ := Quiet.forN (newc_quiet (t := t) (some b)) _ _ _ _ _ h3
  simp at h
  obtain ⟨-, rfl⟩ := h
  exact ⟨h4.trans h2.1, h5.trans h2.2⟩

theorem setObj_inv {x : Nat} {o : Obj} {s s' : SSt V} {u : Unit} (h : setObj x o s = .ok u s') :
    s'.objs = upd s.objs x (some o) ∧ s'.next = s.next := by
  unfold setObj at h; split at h <;> cases h; exact ⟨rfl, rfl⟩

theorem reserve_inv {x n : Nat} {o : Obj} {s s' : SSt V} {u : Unit} (ho : s.objs x = some o)
    (hn : o.cap < n) (h : reserve t x n s = .ok u s') :
    (∃ q, s'.objs x = some ⟨o.size, n, q⟩) ∧ s'.next = s.next + 1 := by
  simp only [reserve, M.bind_apply, getObj_some ho] at h
  rw [if_pos hn] at h
  simp only [M.bind_apply] at h
  split at h <;> try (cases h; done)
  rename_i q s1 h1
  split at h <;> try (cases h; done)
  rename_i u2 s2 h2
  split at h <;> try (cases h; done)
  rename_i u3 s3 h3
  obtain ⟨a1, b1⟩ := allocInit_next h1
  obtain ⟨a2, b2⟩ := copyChars_quiet _ _ _ _ _ _ _ h2
  obtain ⟨a3, b3⟩ := freeChars_quiet _ _ _ _ _ h3
  obtain ⟨a4, b4⟩ := setObj_inv h
  exact ⟨⟨some q, by rw [a4]; simp⟩, by omega⟩

theorem pushBack_inv {x : Nat} {o : Obj} {r : Ptr V} {s s' : SSt V} {u : Unit} (ho : s.objs x = some o)
    (hc : 1 ≤ o.cap) (h : pushBack t x r s = .ok u s') :
    (∃ q, s'.objs x = some ⟨o.size + 1, if o.cap < o.size + 1 then o.cap * 2 else o.cap, q⟩) ∧
      s'.next = s.next + (if o.cap < o.size + 1 then 1 else 0) := by
  simp only [pushBack, M.bind_apply, getObj_some ho] at h
  have tail : ∀ (s1 : SSt V) (c : Nat) (q : Option Nat), s1.objs x = some ⟨o.size, c, q⟩ →
      (∀ (v : V) (s2 : SSt V), r.rd 0 s1 = .ok v s2 → s2.objs = s1.objs ∧ s2.next = s1.next) →
      (do
        let o ← getObj x
        let c ← r.rd 0
        putc o.p o.size c
        setObj x { o with size := o.size + 1 }
        putc o.p (o.size + 1) t.nul : SM V Unit) s1 = .ok u s' →
      (∃ q, s'.objs x = some ⟨o.size + 1, c, q⟩) ∧ s'.next = s1.next := by
    intro s1 c q h1 _ h2
    simp only [M.bind_apply, getObj_some h1] at h2
    split at h2 <;> try (cases h2; done)
    rename_i v s2 h3
    split at h2 <;> try (cases h2; done)
    rename_i u3 s3 h4
    split at h2 <;> try (cases h2; done)
    rename_i u4 s4 h5
    obtain ⟨a1, b1⟩ := rd_quiet _ _ _ _ _ h3
    obtain ⟨a2, b2⟩ := putc_quiet _ _ _ _ _ _ h4
    obtain ⟨a3, b3⟩ := setObj_inv h5
    obtain ⟨a4, b4⟩ := putc_quiet _ _ _ _ _ _ h2
    exact ⟨⟨q, by rw [a4, a3]; simp⟩, by omega⟩
  by_cases hg : o.cap < o.size + 1
  · rw [if_pos hg] at h
    rw [if_pos hg, if_pos hg]
    simp only [M.bind_apply] at h
    split at h <;> try (cases h; done)
    rename_i u1 s1 h1
    obtain ⟨⟨q, a1⟩, b1⟩ := reserve_inv ho (by omega) h1
    obtain ⟨h2, h3⟩ := tail s1 _ q a1 (fun v s2 h => rd_quiet _ _ _ _ _ h) (by simpa only [M.bind_apply] using h)
    exact ⟨h2, by omega⟩
  · rw [if_neg hg] at h
    rw [if_neg hg, if_neg hg]
    obtain ⟨h2, h3⟩ := tail s _ o.p (by rw [ho]) (fun v s2 h => rd_quiet _ _ _ _ _ h)
      (by simpa only [M.bind_apply] using h)
    exact ⟨h2, by omega⟩

theorem append_inv {x n : Nat} {o : Obj} {p : Ptr V} {s s' : SSt V} {u : Unit} (ho : s.objs x = some o)
    (hg : o.cap < n + o.size) (h : append t x p n s = .ok u s') :
    (∃ q, s'.objs x = some ⟨n + o.size, n + o.size, q⟩) ∧ s'.next = s.next + 1 := by
  simp only [append, M.bind_apply, getObj_some ho] at h
  rw [if_neg (by omega)] at h
  simp only [M.bind_apply] at h
  split at h <;> try (cases h; done)
  rename_i q s1 h1
  split at h <;> try (cases h; done)
  rename_i u2 s2 h2
  split at h <;> try (cases h; done)
  rename_i u3 s3 h3
  split at h <;> try (cases h; done)
  rename_i u4 s4 h4
  split at h <;> try (cases h; done)
  rename_i u5 s5 h5
  obtain ⟨a1, b1⟩ := allocInit_next h1
  obtain ⟨a2, b2⟩ := copyChars_quiet _ _ _ _ _ _ _ h2
  obtain ⟨a3, b3⟩ := copyChars_quiet _ _ _ _ _ _ _ h3
  obtain ⟨a4, b4⟩ := freeChars_quiet _ _ _ _ _ h4
  obtain ⟨a5, b5⟩ := setObj_inv h5
  rw [getObj_some (o := ⟨n + o.size, n + o.size, some q⟩) (by rw [a5]; simp)] at h
  simp only [] at h
  split at h <;> try (cases h; done)
  rename_i u6 s6 h6
  obtain ⟨a6, b6⟩ := setObj_inv h6
  obtain ⟨a7, b7⟩ := putc_quiet _ _ _ _ _ _ h
  exact ⟨⟨some q, by rw [a7, a6]; simp⟩, by omega⟩

end Cest.Str
