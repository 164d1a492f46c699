import Verif.Deque.Run
import Verif.Core.Arr
/-
Representation of deques and what every member function does (used by Deque/Refine.lean, Deque/Props.lean).
-/
namespace Cest.Deq
open Cest
variable {V : Type}

/-! ### Arithmetic of chunk positions -/

theorem dm {K q r : Nat} (h : r < K) : (K * q + r) / K = q ∧ (K * q + r) % K = r := by
  have hK : 0 < K := by omega
  constructor
  · rw [Nat.mul_add_div hK, Nat.div_eq_of_lt h]; omega
  · rw [Nat.mul_add_mod, Nat.mod_eq_of_lt h]

theorem split (K e : Nat) (hK : 0 < K) : ∃ q r, e = K * q + r ∧ r < K ∧ e / K = q ∧ e % K = r :=
  ⟨e / K, e % K, (Nat.div_add_mod e K).symm, Nat.mod_lt _ hK, rfl, rfl⟩

theorem back_zero {K e : Nat} (hK : 0 < K) (h : e % K = 0) :
    (e + K - 1) % K = K - 1 ∧ (e + K - 1) / K = e / K := by
  obtain ⟨q, r, rfl, hr, h1, h2⟩ := split K e hK
  have : r = 0 := by omega
  subst this
  have := dm (K := K) (q := q) (r := K - 1) (by omega)
  rw [show K * q + 0 + K - 1 = K * q + (K - 1) by omega, h1]
  exact ⟨this.2, this.1⟩

theorem back_pos {K e : Nat} (hK : 0 < K) (h : e % K ≠ 0) :
    (e + K - 1) % K = e % K - 1 ∧ (e + K - 1) / K = e / K + 1 := by
  obtain ⟨q, r, rfl, hr, h1, h2⟩ := split K e hK
  have := dm (K := K) (q := q + 1) (r := r - 1) (by omega)
  rw [show K * q + r + K - 1 = K * (q + 1) + (r - 1) by rw [Nat.mul_add]; omega, h1, h2]
  exact ⟨this.2, this.1⟩

theorem pred_zero {K e : Nat} (hK : 0 < K) (h : e % K = 0) (h0 : e ≠ 0) :
    (e - 1) % K = K - 1 ∧ (e - 1) / K = e / K - 1 ∧ e / K ≠ 0 := by
  obtain ⟨q, r, rfl, hr, h1, h2⟩ := split K e hK
  have : r = 0 := by omega
  subst this
  cases q with
  | zero => simp at h0
  | succ q =>
    have := dm (K := K) (q := q) (r := K - 1) (by omega)
    rw [show K * (q + 1) + 0 - 1 = K * q + (K - 1) by rw [Nat.mul_add]; omega, h1]
    exact ⟨this.2, this.1, by omega⟩

theorem pred_pos {K e : Nat} (hK : 0 < K) (h : e % K ≠ 0) :
    (e - 1) % K = e % K - 1 ∧ (e - 1) / K = e / K := by
  obtain ⟨q, r, rfl, hr, h1, h2⟩ := split K e hK
  have := dm (K := K) (q := q) (r := r - 1) (by omega)
  rw [show K * q + r - 1 = K * q + (r - 1) by omega, h1, h2]
  exact ⟨this.2, this.1⟩

theorem succ_last {K e : Nat} (hK : 0 < K) (h : e % K = K - 1) :
    (e + 1) % K = 0 ∧ (e + 1) / K = e / K + 1 := by
  obtain ⟨q, r, rfl, hr, h1, h2⟩ := split K e hK
  have := dm (K := K) (q := q + 1) (r := 0) (by omega)
  rw [show K * q + r + 1 = K * (q + 1) + 0 by rw [Nat.mul_add]; omega, h1]
  exact ⟨this.2, this.1⟩

theorem succ_mid {K e : Nat} (hK : 0 < K) (h : e % K ≠ K - 1) :
    (e + 1) % K = e % K + 1 ∧ (e + 1) / K = e / K := by
  obtain ⟨q, r, rfl, hr, h1, h2⟩ := split K e hK
  have := dm (K := K) (q := q) (r := r + 1) (by omega)
  rw [show K * q + r + 1 = K * q + (r + 1) by omega, h1, h2]
  exact ⟨this.2, this.1⟩

theorem locate_pos {K p i : Nat} (hK : 0 < K) :
    p / K + (p % K + i) / K = (p + i) / K ∧ (p % K + i) % K = (p + i) % K := by
  obtain ⟨q, r, rfl, hr, h1, h2⟩ := split K p hK
  rw [h1, h2]
  constructor
  · rw [show K * q + r + i = K * q + (r + i) by omega, Nat.mul_add_div hK]
  · rw [show K * q + r + i = K * q + (r + i) by omega, Nat.mul_add_mod]

theorem lt_chunks {K e n : Nat} (hK : 0 < K) : e / K < n ↔ e < n * K := Nat.div_lt_iff_lt_mul hK

theorem full_iff {K e n : Nat} (hK : 0 < K) (h : e % K = 0) : e / K = n ↔ e = n * K := by
  obtain ⟨q, r, rfl, hr, h1, h2⟩ := split K e hK
  have : r = 0 := by omega
  subst this
  rw [h1]
  constructor
  · rintro rfl; rw [Nat.mul_comm]; omega
  · intro h; rw [Nat.mul_comm] at h; exact Nat.eq_of_mul_eq_mul_right hK (by omega)

/-! ### Memory view: a row of chunks as one array of cells -/

/-- Chunk number `j` when linear position `g` holds `c g`. -/
def blk (K : Nat) (c : Nat → Option V) (j : Nat) : Blk V :=
  ⟨K, fun i => if i < K then c (K * j + i) else none⟩

/-- The cells of a deque whose first element is at linear position `pos`. -/
def cell (pos : Nat) (xs : List V) (g : Nat) : Option V := if pos ≤ g then xs[g - pos]? else none

def Heap (K : Nat) (m : Nat → Option (Blk V)) (ch : List Nat) (c : Nat → Option V) : Prop :=
  ∀ j a, ch[j]? = some a → m a = some (blk K c j)

theorem blk_upd {K g : Nat} (hK : 0 < K) (c : Nat → Option V) (w : Option V) (j : Nat) :
    blk K (upd c g w) j = if j = g / K then
      { blk K c (g / K) with slot := upd (blk K c (g / K)).slot (g % K) w } else blk K c j := by
  obtain ⟨q, r, rfl, hr, h1, h2⟩ := split K g hK
  rw [h1, h2]
  split
  · rename_i h; subst h
    refine Blk.ext' rfl ?_
    intro i
    simp only [blk, upd_apply]
    by_cases hi : i = r
    · subst hi; simp [hr]
    · have : ¬ K * j + i = K * j + r := by omega
      simp [hi]
  · rename_i h
    refine Blk.ext' rfl ?_
    intro i
    simp only [blk, upd_apply]
    by_cases hi : i < K
    · rw [if_pos hi, if_pos hi, if_neg]
      intro hc
      have h3 := dm (q := j) hi
      have h4 := dm (q := q) hr
      rw [hc] at h3
      omega
    · rw [if_neg hi, if_neg hi]

theorem nodup_inj {ch : List Nat} (hd : ch.Nodup) {i j a : Nat} (h1 : ch[i]? = some a)
    (h2 : ch[j]? = some a) : i = j := by
  have hp := List.pairwise_iff_getElem.1 hd
  obtain ⟨hi, e1⟩ := List.getElem?_eq_some_iff.1 h1
  obtain ⟨hj, e2⟩ := List.getElem?_eq_some_iff.1 h2
  rcases Nat.lt_trichotomy i j with h | h | h
  · exact absurd (e1.trans e2.symm) (hp i j hi hj h)
  · exact h
  · exact absurd (e2.trans e1.symm) (hp j i hj hi h)

theorem heap_write {K g a : Nat} {m : Nat → Option (Blk V)} {ch : List Nat} {c : Nat → Option V}
    {w : Option V} (hK : 0 < K) (hd : ch.Nodup) (H : Heap K m ch c) (ha : ch[g / K]? = some a) :
    Heap K (upd m a (some { blk K c (g / K) with slot := upd (blk K c (g / K)).slot (g % K) w })) ch
      (upd c g w) := by
  intro j b hb
  rw [blk_upd hK]
  by_cases hj : j = g / K
  · subst hj
    rw [ha] at hb; cases hb
    simp
  · have hne : b ≠ a := by
      rintro rfl
      apply hj
      exact nodup_inj hd ha hb |>.symm
    simp [hne, hj]
    exact H j b hb

theorem blk_slot {K g : Nat} (hK : 0 < K) (c : Nat → Option V) : (blk K c (g / K)).slot (g % K) = c g := by
  simp [blk, Nat.mod_lt _ hK, Nat.div_add_mod]

theorem heap_load {K g a : Nat} {st : DSt V} {ch : List Nat} {c : Nat → Option V} {v : V}
    (hK : 0 < K) (H : Heap K st.mem ch c) (ha : ch[g / K]? = some a) (hv : c g = some v) :
    load (some a) (g % K) st = .ok v st :=
  load_ok (H _ _ ha) (Nat.mod_lt _ hK) (by rw [blk_slot hK, hv])

theorem heap_loadDead {K g a : Nat} {st : DSt V} {ch : List Nat} {c : Nat → Option V}
    (hK : 0 < K) (H : Heap K st.mem ch c) (ha : ch[g / K]? = some a) (hv : c g = none) :
    load (some a) (g % K) st = .ub .deadRead := by
  have h1 : (blk K c (g / K)).slot (g % K) = none := by rw [blk_slot hK, hv]
  simp [load, withSlot, getC_some (H _ _ ha), h1, show g % K < (blk K c (g/K)).len from Nat.mod_lt _ hK]

theorem heap_destroy {K g a : Nat} {st : DSt V} {ch : List Nat} {c : Nat → Option V} {v : V}
    (hK : 0 < K) (H : Heap K st.mem ch c) (ha : ch[g / K]? = some a) (hv : c g = some v) :
    destroyAt (some a) (g % K) st = .ok () { st with mem := upd st.mem a (some { blk K c (g / K) with slot := upd (blk K c (g / K)).slot (g % K) none }) } :=
  destroyAt_ok (H _ _ ha) (Nat.mod_lt _ hK) (by rw [blk_slot hK, hv])

theorem heap_construct {K g a : Nat} {st : DSt V} {ch : List Nat} {c : Nat → Option V} {v : V}
    (hK : 0 < K) (H : Heap K st.mem ch c) (ha : ch[g / K]? = some a) (hv : c g = none) (ht : st.thr = none) :
    constructAt (some a) (g % K) v st = .ok () { st with mem := upd st.mem a (some { blk K c (g / K) with slot := upd (blk K c (g / K)).slot (g % K) (some v) }) } :=
  constructAt_ok (H _ _ ha) (Nat.mod_lt _ hK) (by rw [blk_slot hK, hv]) ht

theorem heap_store {K g a : Nat} {st : DSt V} {ch : List Nat} {c : Nat → Option V} {v w : V}
    (hK : 0 < K) (H : Heap K st.mem ch c) (ha : ch[g / K]? = some a) (hv : c g = some w) (ht : st.thr = none) :
    store (some a) (g % K) v st = .ok () { st with mem := upd st.mem a (some { blk K c (g / K) with slot := upd (blk K c (g / K)).slot (g % K) (some v) }) } :=
  store_ok (H _ _ ha) (Nat.mod_lt _ hK) (by rw [blk_slot hK, hv]) ht

theorem cell_at {pos : Nat} {xs : List V} (i : Nat) : cell pos xs (pos + i) = xs[i]? := by simp [cell]
theorem cell_before {pos g : Nat} {xs : List V} (h : g < pos) : cell pos xs g = none := by
  simp [cell]; omega
theorem cell_after {pos g : Nat} {xs : List V} (h : pos + xs.length ≤ g) : cell pos xs g = none := by
  simp [cell]; omega
theorem cell_push (pos : Nat) (xs : List V) (v : V) :
    cell pos (xs ++ [v]) = upd (cell pos xs) (pos + xs.length) (some v) := by
  funext g; simp only [cell, upd_apply]; grind
theorem cell_cons (pos : Nat) (xs : List V) (v : V) (h : 0 < pos) :
    cell (pos - 1) (v :: xs) = upd (cell pos xs) (pos - 1) (some v) := by
  funext g; simp only [cell, upd_apply]; grind
theorem cell_tail (pos : Nat) (xs : List V) :
    cell (pos + 1) xs.tail = upd (cell pos xs) pos none := by
  funext g; simp only [cell, upd_apply]; grind
theorem cell_dropLast (pos : Nat) (xs : List V) (h : xs ≠ []) :
    cell pos xs.dropLast = upd (cell pos xs) (pos + xs.length - 1) none := by
  have : 0 < xs.length := List.length_pos_iff.2 h
  funext g; simp only [cell, upd_apply]; grind
theorem cell_set (pos : Nat) (xs : List V) (i : Nat) (v : V) (h : i < xs.length) :
    cell pos (xs.set i v) = upd (cell pos xs) (pos + i) (some v) := by
  funext g; simp only [cell, upd_apply]; grind
theorem cell_nil (pos : Nat) : cell pos ([] : List V) = fun _ => none := by
  funext g; simp [cell]

theorem blk_shift {K : Nat} (pos : Nat) (xs : List V) (j : Nat) :
    blk K (cell (pos + K) xs) (j + 1) = blk K (cell pos xs) j := by
  refine Blk.ext' rfl ?_
  intro i; simp only [blk, cell, Nat.mul_add, Nat.mul_one]
  by_cases h : i < K
  · rw [if_pos h, if_pos h]
    by_cases h2 : pos ≤ K * j + i
    · rw [if_pos h2, if_pos (by omega)]; congr 1; omega
    · rw [if_neg h2, if_neg (by omega)]
  · rw [if_neg h, if_neg h]

theorem blk_empty {K j : Nat} {c : Nat → Option V} (h : ∀ g, K * j ≤ g → g < K * j + K → c g = none) :
    blk K c j = ⟨K, fun _ => none⟩ := by
  refine Blk.ext' rfl ?_
  intro i; simp only [blk]
  split
  · exact h _ (by omega) (by omega)
  · rfl

/-! ### Abstract values and worlds -/

/-- Contents and layout of a deque. -/
structure DV (V : Type) where
  chunks : List Nat
  ccap : Nat
  pos : Nat
  xs : List V

/-- Linear position one past the last element. -/
def DV.stop (s : DV V) : Nat := s.pos + s.xs.length

/-- The data members of a deque with this layout. -/
def DV.obj (K : Nat) (s : DV V) : Obj :=
  ⟨s.pos % K, (s.stop + K - 1) % K, s.pos / K, ((s.stop + K - 1) / K : Nat) - 1, s.xs.length, s.ccap, s.chunks⟩

def DRep (K : Nat) (m : Nat → Option (Blk V)) (o : Obj) (s : DV V) : Prop :=
  o = s.obj K ∧ s.chunks.Nodup ∧ s.chunks ≠ [] ∧ s.stop ≤ s.chunks.length * K ∧
    Heap K m s.chunks (cell s.pos s.xs)

def dqI (K : Nat) (V : Type) : Iface Obj (Blk V) (DV V) where
  ids s := s.chunks
  Rep m _ o s := DRep K m o s
  loc := by
    rintro m m' x o s ⟨h1, h2, h3, h4, h5⟩ h
    refine ⟨h1, h2, h3, h4, ?_⟩
    intro j a ha
    rw [h a (List.mem_of_getElem? ha)]
    exact h5 j a ha
  alloc := by
    rintro m x o s ⟨h1, h2, h3, h4, h5⟩ a ha
    obtain ⟨j, hj⟩ := List.mem_iff_getElem?.1 ha
    rw [h5 j a hj]; simp

abbrev DW (K : Nat) (st : DSt V) (σ : Nat → Option (DV V)) : Prop := World (dqI K V) st σ

@[simp] theorem dqI_ids (K : Nat) (s : DV V) : (dqI K V).ids s = s.chunks := rfl

variable {K : Nat} {st : DSt V} {σ : Nat → Option (DV V)} {x y : Nat} {s sy : DV V} {v : V}

theorem W_obj (W : DW K st σ) (hx : σ x = some s) : st.objs x = some (s.obj K) := by
  obtain ⟨o, ho, h1, _⟩ := W.rep x s hx
  rw [ho, h1]
theorem W_nodup (W : DW K st σ) (hx : σ x = some s) : s.chunks.Nodup := by
  obtain ⟨o, ho, h1, h2, _⟩ := W.rep x s hx; exact h2
theorem W_ne (W : DW K st σ) (hx : σ x = some s) : s.chunks ≠ [] := by
  obtain ⟨o, ho, h1, h2, h3, _⟩ := W.rep x s hx; exact h3
theorem W_le (W : DW K st σ) (hx : σ x = some s) : s.stop ≤ s.chunks.length * K := by
  obtain ⟨o, ho, h1, h2, h3, h4, _⟩ := W.rep x s hx; exact h4
theorem W_heap (W : DW K st σ) (hx : σ x = some s) : Heap K st.mem s.chunks (cell s.pos s.xs) := by
  obtain ⟨o, ho, h1, h2, h3, h4, h5⟩ := W.rep x s hx; exact h5

theorem chunk_some (hK : 0 < K) {ch : List Nat} {g : Nat} (h : g < ch.length * K) :
    ∃ a, ch[g / K]? = some a := by
  have : g / K < ch.length := (lt_chunks hK).2 h
  exact ⟨ch[g / K], by simp [this]⟩

theorem chunkAt_ok {o : Obj} {j a : Nat} {i : Int} (hi : i = (j : Int)) (h : o.chunks[j]? = some a)
    (st : DSt V) : chunkAt o i st = .ok a st := by
  subst hi; simp [chunkAt, h]
theorem chunkAt_none {o : Obj} {j : Nat} {i : Int} (hi : i = (j : Int)) (h : o.chunks[j]? = none)
    (st : DSt V) : chunkAt o i st = .ub .oob := by
  subst hi; simp only [chunkAt, Int.toNat_natCast, h]; simp
theorem chunkAt_neg {o : Obj} {i : Int} (hi : i < 0) (st : DSt V) : chunkAt o i st = .ub .oob := by
  simp only [chunkAt]; rw [if_neg (by omega)]; rfl

/-- Changing the contents of one chunk of `x` in place. -/
theorem place (W : DW K st σ) (hx : σ x = some s) {a : Nat} (ha : a ∈ s.chunks) {b : Blk V} {o' : Obj}
    {s' : DV V} (hch : s'.chunks = s.chunks)
    (hr : DRep K (upd st.mem a (some b)) o' s') :
    DW K ⟨upd st.objs x (some o'), upd st.mem a (some b), st.next, st.thr⟩ (upd σ x (some s')) := by
  refine W.step1 x o' s' rfl hr ?_ ?_ ?_ ?_ W.thr
  · intro c h1 h2
    simp [hx] at h1
    have : c ≠ a := by rintro rfl; exact h1 ha
    simp [this]
  · intro c hc
    left
    simp only [dqI_ids, hch] at hc
    simpa [hx] using hc
  · intro c h1 h2
    simp [hx] at h1
    simp [hch] at h2
    exact absurd h1 h2
  · intro c hc
    have hlt := W.lt_next (x := x) (a := a) (by simpa [hx] using ha)
    simp only [] at hc
    have : c ≠ a := by omega
    simp [this]; exact W.fresh c hc

/-! ### Element access -/

theorem locate_spec (hK : 0 < K) (W : DW K st σ) (hx : σ x = some s) {i : Nat}
    (hi : s.pos + i < s.chunks.length * K) :
    ∃ a, s.chunks[(s.pos + i) / K]? = some a ∧ locate K x i st = .ok (a, (s.pos + i) % K) st := by
  obtain ⟨a, ha⟩ := chunk_some hK hi
  refine ⟨a, ha, ?_⟩
  have hl := locate_pos (K := K) (p := s.pos) (i := i) hK
  simp only [locate, M.bind_apply, getObj_some (W_obj W hx), DV.obj]
  rw [chunkAt_ok (j := (s.pos + i) / K) (by rw [← hl.1]) ha]
  simp [hl.2]

theorem idx_lt (W : DW K st σ) (hx : σ x = some s) {i : Nat} (hi : i < s.xs.length) :
    s.pos + i < s.chunks.length * K := by
  have := W_le W hx
  unfold DV.stop at this
  omega

theorem get_spec (hK : 0 < K) (W : DW K st σ) (hx : σ x = some s) {i : Nat} (hv : s.xs[i]? = some v) :
    get K x i st = .ok v st := by
  have hi : i < s.xs.length := by grind
  obtain ⟨a, ha, hl⟩ := locate_spec hK W hx (idx_lt W hx hi)
  simp only [get, M.bind_apply, hl]
  exact heap_load hK (W_heap W hx) ha (by rw [cell_at, hv])

theorem set_spec (hK : 0 < K) (W : DW K st σ) (hx : σ x = some s) {i : Nat} (hi : i < s.xs.length) :
    ∃ st', set K x i v st = .ok () st' ∧ DW K st' (upd σ x (some { s with xs := s.xs.set i v })) := by
  have hnd := W_nodup W hx
  have hnE := W_ne W hx
  have hob := W_obj W hx
  obtain ⟨a, ha, hl⟩ := locate_spec hK W hx (idx_lt W hx hi)
  simp only [set, M.bind_apply, hl]
  rw [heap_store hK (W_heap W hx) ha (w := s.xs[i]) (by rw [cell_at]; simp [hi]) W.thr]
  refine ⟨_, rfl, ?_⟩
  have hp := place W hx (List.mem_of_getElem? ha) (s' := { s with xs := s.xs.set i v }) (o' := s.obj K) (by rfl)
    ⟨by simp [DV.obj, DV.stop], hnd, hnE, by simpa [DV.stop] using W_le W hx, by
      simp only [cell_set _ _ _ _ hi]
      exact heap_write (w := some v) hK (W_nodup W hx) (W_heap W hx) ha⟩
  rw [upd_eq_self (W_obj W hx)] at hp
  exact hp

theorem size_spec (W : DW K st σ) (hx : σ x = some s) : size x st = .ok s.xs.length st := by
  simp [size, getObj_some (W_obj W hx), DV.obj]
theorem empty_spec (W : DW K st σ) (hx : σ x = some s) : empty x st = .ok s.xs.isEmpty st := by
  simp only [empty, M.bind_apply, getObj_some (W_obj W hx), DV.obj, M.pure_apply]
  cases s.xs <;> simp

theorem front_spec (hK : 0 < K) (W : DW K st σ) (hx : σ x = some s) (hv : s.xs.head? = some v) :
    front x st = .ok v st := by
  have hv' : s.xs[0]? = some v := by rw [← List.head?_eq_getElem?]; exact hv
  have hi : 0 < s.xs.length := by grind
  obtain ⟨a, ha⟩ := chunk_some hK (by simpa using idx_lt W hx hi)
  simp only [front, M.bind_apply, getObj_some (W_obj W hx), DV.obj]
  rw [chunkAt_ok (j := s.pos / K) rfl ha]
  exact heap_load hK (W_heap W hx) ha (by rw [← hv', ← cell_at (pos := s.pos)]; rfl)

/-- Position of the last element. -/
theorem last_pos (hK : 0 < K) (h : s.xs ≠ []) :
    (s.stop + K - 1) % K = (s.stop - 1) % K ∧
    (((s.stop + K - 1) / K : Nat) : Int) - 1 = (((s.stop - 1) / K : Nat) : Int) := by
  have h0 : 0 < s.xs.length := List.length_pos_iff.2 h
  have h1 : 0 < s.stop := by unfold DV.stop; omega
  rw [show s.stop + K - 1 = (s.stop - 1) + K by omega, Nat.add_mod_right, Nat.add_div_right _ hK]
  exact ⟨rfl, by omega⟩

theorem back_spec (hK : 0 < K) (W : DW K st σ) (hx : σ x = some s) (hv : s.xs.getLast? = some v) :
    back x st = .ok v st := by
  have hne : s.xs ≠ [] := by rintro h; simp [h] at hv
  have h0 : 0 < s.xs.length := List.length_pos_iff.2 hne
  have hst : s.stop - 1 = s.pos + (s.xs.length - 1) := by unfold DV.stop; omega
  obtain ⟨h1, h2⟩ := last_pos hK hne
  obtain ⟨a, ha⟩ := chunk_some (ch := s.chunks) (g := s.stop - 1) hK (by
    rw [hst]; exact idx_lt W hx (by omega))
  simp only [back, M.bind_apply, getObj_some (W_obj W hx), DV.obj]
  rw [chunkAt_ok h2 ha]
  simp only [h1]
  refine heap_load hK (W_heap W hx) ha ?_
  rw [hst, cell_at, ← List.getLast?_eq_getElem?, hv]

/-! ### pop -/

theorem popFront_empty (W : DW K st σ) (hx : σ x = some s) (h : s.xs = []) :
    popFront K x st = .ok () st := by
  simp only [popFront, M.bind_apply, empty_spec W hx, h]; rfl
theorem popBack_empty (W : DW K st σ) (hx : σ x = some s) (h : s.xs = []) :
    popBack K x st = .ok () st := by
  simp only [popBack, M.bind_apply, empty_spec W hx, h]; rfl

theorem popFront_spec (hK : 2 ≤ K) (W : DW K st σ) (hx : σ x = some s) (h : s.xs ≠ []) :
    ∃ st', popFront K x st = .ok () st' ∧
      DW K st' (upd σ x (some { s with pos := s.pos + 1, xs := s.xs.tail })) := by
  have hnd := W_nodup W hx
  have hnE := W_ne W hx
  have hob := W_obj W hx
  have h0 : 0 < s.xs.length := List.length_pos_iff.2 h
  have hK0 : 0 < K := by omega
  obtain ⟨a, ha⟩ := chunk_some hK0 (by simpa using idx_lt W hx h0)
  have he : s.xs.isEmpty = false := by simpa using h
  simp only [popFront, M.bind_apply, empty_spec W hx, he]
  simp only [Bool.not_false, if_true, M.bind_apply, getObj_some (W_obj W hx)]
  rw [chunkAt_ok (j := s.pos / K) (by rfl) (by exact ha)]
  simp only []
  rw [show (s.obj K).front = s.pos % K from rfl,
    heap_destroy hK0 (W_heap W hx) ha (v := s.xs[0]) (by have := cell_at (pos := s.pos) (xs := s.xs) 0; simp at this; rw [this]; simp [h0])]
  simp only []
  have hr : ∀ o', o' = DV.obj K { s with pos := s.pos + 1, xs := s.xs.tail } →
      DW K ⟨upd st.objs x (some o'), upd st.mem a (some { blk K (cell s.pos s.xs) (s.pos / K) with
        slot := upd (blk K (cell s.pos s.xs) (s.pos / K)).slot (s.pos % K) none }), st.next, st.thr⟩
        (upd σ x (some { s with pos := s.pos + 1, xs := s.xs.tail })) := by
    intro o' ho
    refine place W hx (List.mem_of_getElem? ha) (by rfl) ⟨ho, hnd, hnE, ?_, ?_⟩
    · have := W_le W hx; simp [DV.stop] at this ⊢; omega
    · rw [cell_tail]
      exact heap_write hK0 hnd (W_heap W hx) ha
  have hst : DV.stop { s with pos := s.pos + 1, xs := s.xs.tail } = s.stop := by simp [DV.stop]; omega
  by_cases hl : s.pos % K = K - 1
  · rw [if_pos hl, setObj_some (by exact hob)]
    refine ⟨_, rfl, hr _ ?_⟩
    obtain ⟨h1, h2⟩ := succ_last hK0 hl
    simp [DV.obj, hst, h1, h2]
  · rw [if_neg hl, setObj_some (by exact hob)]
    refine ⟨_, rfl, hr _ ?_⟩
    obtain ⟨h1, h2⟩ := succ_mid hK0 hl
    simp [DV.obj, hst, h1, h2]

theorem popBack_spec (hK : 2 ≤ K) (W : DW K st σ) (hx : σ x = some s) (h : s.xs ≠ []) :
    ∃ st', popBack K x st = .ok () st' ∧
      DW K st' (upd σ x (some { s with xs := s.xs.dropLast })) := by
  have hnd := W_nodup W hx
  have hnE := W_ne W hx
  have hob := W_obj W hx
  have h0 : 0 < s.xs.length := List.length_pos_iff.2 h
  have hK0 : 0 < K := by omega
  have hst : s.stop - 1 = s.pos + (s.xs.length - 1) := by unfold DV.stop; omega
  have hs0 : 0 < s.stop := by unfold DV.stop; omega
  obtain ⟨hb1, hb2⟩ := last_pos hK0 h
  obtain ⟨a, ha⟩ := chunk_some (ch := s.chunks) (g := s.stop - 1) hK0 (by
    rw [hst]; exact idx_lt W hx (by omega))
  have he : s.xs.isEmpty = false := by simpa using h
  simp only [popBack, M.bind_apply, empty_spec W hx, he]
  simp only [Bool.not_false, if_true, M.bind_apply, getObj_some (W_obj W hx)]
  rw [chunkAt_ok (j := (s.stop - 1) / K) (by exact hb2) (by exact ha)]
  simp only []
  rw [show (s.obj K).back = (s.stop - 1) % K from hb1,
    heap_destroy hK0 (W_heap W hx) ha (v := s.xs[s.xs.length - 1]) (by rw [hst, cell_at]; simp [h0])]
  simp only []
  have hr : ∀ o', o' = DV.obj K { s with xs := s.xs.dropLast } →
      DW K ⟨upd st.objs x (some o'), upd st.mem a (some { blk K (cell s.pos s.xs) ((s.stop - 1) / K) with
        slot := upd (blk K (cell s.pos s.xs) ((s.stop - 1) / K)).slot ((s.stop - 1) % K) none }), st.next, st.thr⟩
        (upd σ x (some { s with xs := s.xs.dropLast })) := by
    intro o' ho
    refine place W hx (List.mem_of_getElem? ha) (by rfl) ⟨ho, hnd, hnE, ?_, ?_⟩
    · have := W_le W hx; simp [DV.stop] at this ⊢; omega
    · rw [cell_dropLast _ _ h]
      exact heap_write hK0 hnd (W_heap W hx) ha
  have hs' : DV.stop { s with xs := s.xs.dropLast } = s.stop - 1 := by simp [DV.stop]; omega
  by_cases hl : (s.stop - 1) % K = 0
  · rw [if_pos hl, setObj_some (by exact hob)]
    refine ⟨_, rfl, hr _ ?_⟩
    obtain ⟨h1, h2⟩ := back_zero hK0 hl
    simp only [DV.obj, hs', h1, h2, List.length_dropLast, hb2]
  · rw [if_neg hl, setObj_some (by exact hob)]
    refine ⟨_, rfl, hr _ ?_⟩
    obtain ⟨h1, h2⟩ := back_pos hK0 hl
    simp only [DV.obj, hs', h1, h2, List.length_dropLast, hb2]
    simp

end Cest.Deq
