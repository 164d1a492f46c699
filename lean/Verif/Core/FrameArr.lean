import Verif.Core.Frame
/-
Operations on arrays do not notice garbage.
-/
namespace Cest
variable {O V α : Type}

theorem Local.throw {C : Type} (e : Exc) : Local (M.throw e : M (St O C) α) := fun _ _ hd => Or.inr ⟨rfl, hd⟩

theorem Local.tryCatch {C : Type} {m : M (St O C) α} {f : Exc → M (St O C) α} (hm : Local m)
    (hf : ∀ e, Local (f e)) : Local (M.tryCatch m f) := by
  intro s h hd
  simp only [M.tryCatch]
  rcases hm s h hd with ⟨u, hu⟩ | ⟨h1, h2⟩
  · exact Or.inl ⟨u, by rw [hu]⟩
  · cases hr : m s with
    | ok a s' => rw [hr] at h1 h2; rw [h1]; exact Or.inr ⟨rfl, h2⟩
    | throw e s' =>
      rw [hr] at h1 h2; rw [h1]
      exact hf e s' h h2
    | ub u => exact Or.inl ⟨u, rfl⟩
    | timeout => rw [hr] at h1 h2; rw [h1]; exact Or.inr ⟨rfl, h2⟩

theorem Local.forN {C : Type} {f : Nat → M (St O C) Unit} (hf : ∀ i, Local (f i)) (i n : Nat) :
    Local (forN f i n) := by
  induction n generalizing i with
  | zero => exact Local.pure _
  | succ n ih => exact Local.bind (hf i) fun _ => ih (i+1)

theorem Local.withSlot {p : Option Nat} {i : Nat} {f : Nat → Blk V → M (St O (Blk V)) α}
    (hf : ∀ a b, Local (f a b)) : Local (withSlot p i f) := by
  unfold Cest.withSlot
  cases p with
  | none => exact Local.bind (Local.ub _) fun a => Local.bind (Local.getC a) fun b =>
      Local.ite (hf a b) (Local.ub _)
  | some q => exact Local.bind (Local.pure q) fun a => Local.bind (Local.getC a) fun b =>
      Local.ite (hf a b) (Local.ub _)

theorem Local.constructAt (p : Option Nat) (i : Nat) (v : V) :
    Local (constructAt p i v : M (St O (Blk V)) Unit) := by
  refine Local.withSlot fun a b => ?_
  cases b.slot i with
  | some _ => exact Local.ub _
  | none => exact Local.bind (Local.tick _) fun _ => Local.setC _ _
theorem Local.destroyAt (p : Option Nat) (i : Nat) : Local (destroyAt p i : M (St O (Blk V)) Unit) := by
  refine Local.withSlot fun a b => ?_
  cases b.slot i with
  | some _ => exact Local.setC _ _
  | none => exact Local.ub _
theorem Local.load (p : Option Nat) (i : Nat) : Local (load p i : M (St O (Blk V)) V) := by
  refine Local.withSlot fun a b => ?_
  cases b.slot i with
  | some _ => exact Local.pure _
  | none => exact Local.ub _
theorem Local.store (p : Option Nat) (i : Nat) (v : V) : Local (store p i v : M (St O (Blk V)) Unit) := by
  refine Local.withSlot fun a b => ?_
  cases b.slot i with
  | some _ => exact Local.bind (Local.tick _) fun _ => Local.setC _ _
  | none => exact Local.ub _
theorem Local.destroyN (p : Option Nat) (i n : Nat) : Local (destroyN p i n : M (St O (Blk V)) Unit) :=
  Local.forN (fun _ => Local.destroyAt _ _) i n
theorem Local.allocArr (n : Nat) : Local (allocArr n : M (St O (Blk V)) Nat) := Local.allocC _
theorem Local.freeArr (p : Option Nat) (n : Nat) : Local (freeArr p n : M (St O (Blk V)) Unit) := by
  intro s h hd
  cases p with
  | none => exact Or.inl ⟨.badFree, rfl⟩
  | some a =>
    cases ho : s.mem a with
    | none => exact Or.inl ⟨.badFree, by simp only [Cest.freeArr, ho]⟩
    | some b =>
      have hn := hd.none ho
      have hn' : (s.ext h).mem a = some b := by simp [St.ext, hn, ho]
      by_cases hl : b.len ≠ n
      · exact Or.inl ⟨.badFree, by simp only [Cest.freeArr, ho]; rw [if_pos hl]⟩
      · by_cases ha : (List.range n).all (fun i => (b.slot i).isNone) = true
        · refine Or.inr ⟨?_, ?_⟩
          · simp only [Cest.freeArr, ho, hn']
            rw [if_neg hl, if_pos ha, if_neg hl, if_pos ha]
            simp only [Res.ext, St.ext]
            rw [ext_upd hn]
          · simp only [Cest.freeArr, ho]
            rw [if_neg hl, if_pos ha]
            intro c hc
            have : c ≠ a := by rintro rfl; exact hc hn
            simpa [this] using hd c hc
        · exact Or.inl ⟨.liveFree, by simp only [Cest.freeArr, ho]; rw [if_neg hl, if_neg ha]⟩
end Cest
