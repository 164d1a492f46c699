import Verif.Str.Proofs
/-
Effect of every string member function on worlds of strings (helper lemmas).
-/
namespace Cest.Str
open Cest
set_option linter.unusedSectionVars false
variable {V : Type} [DecidableEq V]

/-- Concrete value of a string: its buffer and its size. -/
structure SV (V : Type) where
  blk : Nat
  buf : List V
  n : Nat

def SV.val (s : SV V) : List V := s.buf.take s.n
def SV.obj (s : SV V) : Obj := ⟨s.n, s.buf.length - 1, some s.blk⟩

structure SV.Ok (t : Traits V) (s : SV V) : Prop where
  lt : s.n < s.buf.length
  two : 2 ≤ s.buf.length
  nul : s.buf[s.n]? = some t.nul

def iface (t : Traits V) : Iface Obj (Blk V) (SV V) where
  ids s := [s.blk]
  Rep m _ o s := o = s.obj ∧ m s.blk = some (arr s.buf.length s.buf) ∧ s.Ok t
  loc := by
    intro m m' x o s h hm
    exact ⟨h.1, by rw [hm s.blk (by simp)]; exact h.2.1, h.2.2⟩
  alloc := by
    intro m x o s h a ha
    simp at ha
    subst ha
    rw [h.2.1]; simp

abbrev SW (t : Traits V) := World (iface t)

section
variable {t : Traits V} {st : SSt V} {σ : Nat → Option (SV V)}

theorem get_rep (W : SW t st σ) {x : Nat} {s : SV V} (hx : σ x = some s) :
    st.objs x = some s.obj ∧ st.mem s.blk = some (arr s.buf.length s.buf) ∧ s.Ok t := by
  obtain ⟨o, h1, h2, h3, h4⟩ := W.rep x s hx
  subst h2
  exact ⟨h1, h3, h4⟩

theorem blk_lt (W : SW t st σ) {x : Nat} {s : SV V} (hx : σ x = some s) : s.blk < st.next :=
  W.lt_next (x := x) (by simp [hx, iface])

theorem blk_ne (W : SW t st σ) {x y : Nat} {s s' : SV V} (hx : σ x = some s) (hy : σ y = some s')
    (h : x ≠ y) : s.blk ≠ s'.blk := by
  intro he
  exact h (W.disj x y s.blk (by simp [hx, iface]) (by simp [hy, iface, he]))

/-- Update in the string's own buffer. -/
theorem place (W : SW t st σ) {x : Nat} {s : SV V} (hx : σ x = some s) (s' : SV V)
    (hb : s'.blk = s.blk) (hok : s'.Ok t) {st' : SSt V}
    (ho : st'.objs = upd st.objs x (some s'.obj))
    (hm : st'.mem = upd st.mem s.blk (some (arr s'.buf.length s'.buf)))
    (hn : st'.next = st.next) (ht : st'.thr = st.thr) : SW t st' (upd σ x (some s')) := by
  have hl := blk_lt W hx
  refine W.step1 x s'.obj s' ho ⟨rfl, by rw [hm, hb]; simp, hok⟩ ?_ ?_ ?_ ?_ (by rw [ht]; exact W.thr)
  · intro a h1 h2
    simp [iface, hb] at h2
    rw [hm]; simp [h2]
  · intro a ha
    simp [iface, hb] at ha
    exact Or.inl (by simp [hx, iface, ha])
  · intro a h1 h2
    simp [hx, iface, hb] at h1 h2
    exact absurd h1 h2
  · intro a ha
    rw [hn] at ha
    rw [hm]
    have : a ≠ s.blk := by omega
    simp [this]
    exact W.fresh a ha

/-- The string moves to a new buffer. -/
theorem moved (W : SW t st σ) {x : Nat} {s : SV V} (hx : σ x = some s) (s' : SV V)
    (hb : s'.blk = st.next) (hok : s'.Ok t) {st' : SSt V}
    (ho : st'.objs = upd st.objs x (some s'.obj))
    (hm : ∀ a, st'.mem a = if a = st.next then some (arr s'.buf.length s'.buf)
      else if a = s.blk then none else st.mem a)
    (hn : st'.next = st.next + 1) (ht : st'.thr = st.thr) : SW t st' (upd σ x (some s')) := by
  have hl := blk_lt W hx
  refine W.step1 x s'.obj s' ho ⟨rfl, by rw [hm, hb]; simp, hok⟩ ?_ ?_ ?_ ?_ (by rw [ht]; exact W.thr)
  · intro a h1 h2
    simp [iface, hb, hx] at h1 h2
    rw [hm]; simp [h1, h2]
  · intro a ha
    simp [iface, hb] at ha
    exact Or.inr (by omega)
  · intro a h1 h2
    simp [hx, iface, hb] at h1 h2
    rw [hm]; simp [h1]; intro h; omega
  · intro a ha
    rw [hn] at ha
    rw [hm]
    have h1 : a ≠ s.blk := by omega
    have h2 : a ≠ st.next := by omega
    simp [h1, h2]
    exact W.fresh a (by omega)

/-- A new string. -/
theorem made (W : SW t st σ) {x : Nat} (hx : σ x = none) (s' : SV V)
    (hb : st.next ≤ s'.blk) (hok : s'.Ok t) {st' : SSt V}
    (ho : st'.objs = upd st.objs x (some s'.obj))
    (hm1 : st'.mem s'.blk = some (arr s'.buf.length s'.buf))
    (hm : ∀ a, a ≠ s'.blk → st'.mem a = st.mem a)
    (hf : ∀ a, st'.next ≤ a → st'.mem a = none) (ht : st'.thr = st.thr) :
    SW t st' (upd σ x (some s')) := by
  refine W.step1 x s'.obj s' ho ⟨rfl, hm1, hok⟩ ?_ ?_ ?_ hf (by rw [ht]; exact W.thr)
  · intro a h1 h2
    simp [iface] at h2
    exact hm a h2
  · intro a ha
    simp [iface] at ha
    exact Or.inr (by omega)
  · intro a h1 h2
    simp [hx] at h1

theorem sees_data (W : SW t st σ) {y : Nat} {s : SV V} (hy : σ y = some s) (off : Nat) :
    Sees st (.cell (some s.blk) off) (s.buf.drop off) :=
  Sees.cell (get_rep W hy).2.1 (Nat.le_refl _) off

theorem data_ok (W : SW t st σ) {y : Nat} {s : SV V} (hy : σ y = some s) :
    data y st = .ok (.cell (some s.blk) 0) st := by
  simp [data, (get_rep W hy).1, SV.obj]

omit [DecidableEq V] in
theorem take_mix (ys v : List V) (i k : Nat) (h : i + k ≤ ys.length) (hk : k ≤ v.length) :
    (mix ys v i k).take (i + k) = ys.take i ++ v.take k := by
  simp only [mix]
  rw [List.take_append_of_le_length (by simp; omega), List.take_of_length_le (by simp; omega)]

omit [DecidableEq V] in
theorem take_mix0 (ys v : List V) (k : Nat) (h : k ≤ ys.length) (hk : k ≤ v.length) :
    (mix ys v 0 k).take k = v.take k := by
  have := take_mix ys v 0 k (by omega) hk
  simpa using this

omit [DecidableEq V] in
theorem take_set_self (ys : List V) (n : Nat) (c : V) : (ys.set n c).take n = ys.take n := by
  rw [List.take_set_of_le (Nat.le_refl _)]

/-! ### Constructors and destructor -/

theorem ctor_spec' (W : SW t st σ) {x : Nat} (hx : σ x = none) :
    ∃ st' s', ctor t x st = .ok () st' ∧ SW t st' (upd σ x (some s')) ∧ s'.val = [] ∧
      s'.buf.length = 2 := by
  have h0 := W.dom x hx
  have ht := W.thr
  refine ⟨⟨upd st.objs x (some ⟨0, 1, some st.next⟩),
    upd st.mem st.next (some (arr 2 [t.nul, t.nul])), st.next + 1, st.thr⟩,
    ⟨st.next, [t.nul, t.nul], 0⟩, ?_, ?_, rfl, rfl⟩
  · apply M.noexcept_of_ok
    simp only [M.bind_apply, newObj_none h0]
    rw [allocInit_ok _ (by exact ht)]
    simp only []
    rw [setObj_some (o := ⟨0, 0, none⟩) (by simp)]
    simp only []
    rw [putc_arr (n := 2) (xs := [t.nul, t.nul]) (by simp [List.replicate]) (by simp) (by simp)]
    simp [upd_upd]
  · refine made W hx _ (Nat.le_refl _) ⟨by simp, by simp, by simp⟩ rfl (by simp) ?_ ?_ rfl
    · intro a ha; simp at ha; simp [ha]
    · intro a ha
      simp at ha
      have : a ≠ st.next := by omega
      simp [this]
      exact W.fresh a (by omega)

theorem ctor_spec (W : SW t st σ) {x : Nat} (hx : σ x = none) :
    ∃ st' s', ctor t x st = .ok () st' ∧ SW t st' (upd σ x (some s')) ∧ s'.val = [] := by
  obtain ⟨st', s', h1, h2, h3, _⟩ := ctor_spec' W hx
  exact ⟨st', s', h1, h2, h3⟩

theorem ctorPC_spec' (W : SW t st σ) {x : Nat} (hx : σ x = none) {p : Ptr V} {v : List V}
    (hp : Sees st p v) {n : Nat} (hn : n ≤ v.length) :
    ∃ st' s', ctorPC t x p n st = .ok () st' ∧ SW t st' (upd σ x (some s')) ∧ s'.val = v.take n ∧
      s'.buf.length = n + 2 := by
  have h0 := W.dom x hx
  have ht := W.thr
  have hl0 : (List.replicate (n+1+1) t.nul).length = n + 1 + 1 := by simp
  have hl1 : (mix (List.replicate (n+1+1) t.nul) v 0 n).length = n + 1 + 1 := by
    rw [mix_length _ _ _ _ (by omega) hn]; simp
  have hl2 : ((mix (List.replicate (n+1+1) t.nul) v 0 n).set n t.nul).length = n + 1 + 1 := by
    simpa using hl1
  have hpb : p.blk ≠ some st.next := by
    intro h
    exact hp.alloc h (W.fresh _ (Nat.le_refl _))
  refine ⟨⟨upd st.objs x (some ⟨n, n+1, some st.next⟩),
    upd st.mem st.next (some (arr (n+1+1) ((mix (List.replicate (n+1+1) t.nul) v 0 n).set n t.nul))),
    st.next + 1, st.thr⟩,
    ⟨st.next, (mix (List.replicate (n+1+1) t.nul) v 0 n).set n t.nul, n⟩, ?_, ?_, ?_, hl2⟩
  · simp only [ctorPC, M.bind_apply, newObj_none h0]
    apply M.onThrow_of_ok
    simp only [M.bind_apply]
    rw [allocInit_ok _ (by exact ht)]
    simp only []
    rw [setObj_some (o := ⟨0, 0, none⟩) (by simp)]
    simp only []
    rw [copyChars_ok (v := v) (N := n+1+1) (ys := List.replicate (n+1+1) t.nul) ?_ hn (by simp)
      (by omega) (by omega) ?_]
    · simp only []
      rw [setObj_some (o := ⟨0, n+1, some st.next⟩) (by simp)]
      simp only []
      rw [putc_arr (n := n+1+1) (xs := mix (List.replicate (n+1+1) t.nul) v 0 n) (by simp)
        (by omega) (by omega)]
      simp [upd_upd]
    · refine hp.frame ?_
      intro a ha
      have : a ≠ st.next := by intro h; subst h; exact hpb ha
      simp [this]
    · intro off h; subst h; exact absurd rfl hpb
  · refine made W hx _ (Nat.le_refl _) ⟨?_, ?_, ?_⟩ ?_ ?_ ?_ ?_ rfl
    · show n < _; rw [hl2]; omega
    · show 2 ≤ List.length _; rw [hl2]; omega
    · show (List.set _ _ _)[n]? = _
      rw [List.getElem?_set_self (by omega)]
    · simp only [SV.obj, hl2]; rfl
    · simp only [hl2]; simp
    · intro a ha; simp at ha; simp [ha]
    · intro a ha
      simp at ha
      have : a ≠ st.next := by omega
      simp [this]
      exact W.fresh a (by omega)
  · show List.take n _ = _
    rw [take_set_self, take_mix0 _ _ _ (by omega) hn]

theorem ctorPC_spec (W : SW t st σ) {x : Nat} (hx : σ x = none) {p : Ptr V} {v : List V}
    (hp : Sees st p v) {n : Nat} (hn : n ≤ v.length) :
    ∃ st' s', ctorPC t x p n st = .ok () st' ∧ SW t st' (upd σ x (some s')) ∧ s'.val = v.take n := by
  obtain ⟨st', s', h1, h2, h3, _⟩ := ctorPC_spec' W hx hp hn
  exact ⟨st', s', h1, h2, h3⟩

theorem ctorC_spec (W : SW t st σ) {x : Nat} (hx : σ x = none) {p : Ptr V} {v : List V}
    (hp : Sees st p v) (hn : t.nul ∈ v) :
    ∃ st' s', ctorC t x p st = .ok () st' ∧ SW t st' (upd σ x (some s')) ∧
      s'.val = v.takeWhile (· ≠ t.nul) := by
  have hlt : (v.takeWhile (· ≠ t.nul)).length < v.length := takeWhile_length_lt ⟨t.nul, hn, by simp⟩
  obtain ⟨st', s', h1, h2, h3⟩ := ctorPC_spec W hx hp (Nat.le_of_lt hlt)
  refine ⟨st', s', ?_, h2, by rw [h3, take_cstr]⟩
  simp only [ctorC, M.bind_apply, length_ok hp hn]
  exact h1

/-- The C string in a buffer. -/
theorem SV.cstr_of {s : SV V} (hs : s.Ok t) (h : t.nul ∉ s.val) :
    t.nul ∈ s.buf ∧ s.buf.takeWhile (· ≠ t.nul) = s.val := by
  have hl := hs.lt
  have hn := hs.nul
  refine ⟨List.mem_of_getElem? hn, ?_⟩
  have e : s.buf = s.val ++ (t.nul :: s.buf.drop (s.n + 1)) := by
    simp only [SV.val]
    have : s.buf[s.n] = t.nul := by
      rw [List.getElem?_eq_getElem hl] at hn; simpa using hn
    rw [← this]
    simp
  have h2 : ∀ a ∈ s.val, (a ≠ t.nul) := by
    intro a ha hc; subst hc; exact h ha
  rw [e, List.takeWhile_append_of_pos (by simpa using h2)]
  simp

theorem copyCtor_spec (W : SW t st σ) {x y : Nat} {s : SV V} (hx : σ x = none) (hy : σ y = some s)
    (hnul : t.nul ∉ s.val) :
    ∃ st' s', copyCtor t x y st = .ok () st' ∧ SW t st' (upd σ x (some s')) ∧ s'.val = s.val := by
  obtain ⟨h1, h2⟩ := SV.cstr_of (get_rep W hy).2.2 hnul
  obtain ⟨st', s', h3, h4, h5⟩ := ctorC_spec W hx (by simpa using sees_data W hy 0) h1
  refine ⟨st', s', ?_, h4, by rw [h5, h2]⟩
  simp only [copyCtor, M.bind_apply, data_ok W hy]
  exact h3

theorem dtor_spec (W : SW t st σ) {x : Nat} {s : SV V} (hx : σ x = some s) :
    ∃ st', dtor x st = .ok () st' ∧ SW t st' (upd σ x none) := by
  obtain ⟨h1, h2, h3⟩ := get_rep W hx
  have hl := h3.two
  refine ⟨⟨upd st.objs x none, upd st.mem s.blk none, st.next, st.thr⟩, ?_, ?_⟩
  · simp only [dtor, M.bind_apply, getObj_some h1, SV.obj]
    rw [freeChars_ok (n := s.buf.length - 1 + 1) (xs := s.buf) (by
      rw [h2]; congr 2; omega)]
    simp only []
    rw [delObj_some (o := s.obj) (by exact h1)]
  · refine W.stepDel x rfl ?_ ?_ ?_ W.thr
    · intro a ha
      simp [hx, iface] at ha
      simp [ha]
    · intro a ha
      simp [hx, iface] at ha
      simp [ha]
    · intro a ha
      simp only [upd_apply]
      split
      · rfl
      · exact W.fresh a ha

/-! ### Observers -/

theorem SV.val_length {s : SV V} (h : s.Ok t) : s.val.length = s.n := by
  have := h.lt
  simp [SV.val]; omega

theorem size_spec (W : SW t st σ) {x : Nat} {s : SV V} (hx : σ x = some s) :
    size x st = .ok s.val.length st := by
  obtain ⟨h1, h2, h3⟩ := get_rep W hx
  simp only [size, M.bind_apply, getObj_some h1, M.pure_apply, SV.val_length h3]
  rfl

theorem empty_spec (W : SW t st σ) {x : Nat} {s : SV V} (hx : σ x = some s) :
    empty x st = .ok s.val.isEmpty st := by
  obtain ⟨h1, h2, h3⟩ := get_rep W hx
  simp only [empty, M.bind_apply, getObj_some h1, M.pure_apply]
  congr 1
  have := SV.val_length h3
  rw [Bool.eq_iff_iff]
  simp [SV.obj]
  rw [← this]
  simp

theorem SV.get_val {s : SV V} (h : s.Ok t) {i : Nat} {c : V} (hc : (s.val ++ [t.nul])[i]? = some c) :
    s.buf[i]? = some c := by
  have hl := SV.val_length h
  have h1 := h.nul
  by_cases hi : i < s.n
  · rw [List.getElem?_append_left (by omega)] at hc
    simp only [SV.val] at hc
    rw [List.getElem?_take, if_pos hi] at hc
    exact hc
  · rw [List.getElem?_append_right (by omega)] at hc
    by_cases h2 : i = s.n
    · subst h2
      rw [hl] at hc; simp at hc
      rw [h1, hc]
    · rw [List.getElem?_eq_none (by simp; omega)] at hc
      simp at hc

theorem get_spec (W : SW t st σ) {x i : Nat} {s : SV V} (hx : σ x = some s) {c : V}
    (hc : (s.val ++ [t.nul])[i]? = some c) : get x i st = .ok c st := by
  obtain ⟨h1, h2, h3⟩ := get_rep W hx
  simp only [get, M.bind_apply, getObj_some h1, SV.obj]
  exact load_arr h2 (Nat.le_refl _) (SV.get_val h3 hc)

theorem front_spec (W : SW t st σ) {x : Nat} {s : SV V} (hx : σ x = some s) {c : V}
    (hc : s.val.head? = some c) : front x st = .ok c st := by
  have : (s.val ++ [t.nul])[0]? = some c := by
    cases h : s.val with
    | nil => rw [h] at hc; simp at hc
    | cons a l => rw [h] at hc; simpa using hc
  exact get_spec W hx this

theorem back_spec (W : SW t st σ) {x : Nat} {s : SV V} (hx : σ x = some s) {c : V}
    (hc : s.val.getLast? = some c) : back x st = .ok c st := by
  obtain ⟨h1, h2, h3⟩ := get_rep W hx
  have hl := SV.val_length h3
  have hpos : 0 < s.val.length := by
    cases h : s.val with
    | nil => rw [h] at hc; simp at hc
    | cons a l => simp
  have hne : ¬ s.n = 0 := by omega
  rw [List.getLast?_eq_getElem?] at hc
  have : (s.val ++ [t.nul])[s.n - 1]? = some c := by
    rw [List.getElem?_append_left (by omega), ← hl]; exact hc
  simp only [back, M.bind_apply, getObj_some h1, SV.obj, hne, if_false]
  exact load_arr h2 (Nat.le_refl _) (SV.get_val h3 this)

theorem collect_ok {s : SSt V} {a N : Nat} {xs : List V} (h : s.mem a = some (arr N xs))
    (hN : xs.length ≤ N) (n i : Nat) (hi : i + n ≤ xs.length) :
    collect (some a) i n s = .ok ((xs.drop i).take n) s := by
  induction n generalizing i with
  | zero => simp [collect]
  | succ n ih =>
    have e : xs.drop i = xs[i] :: xs.drop (i+1) := by simp
    simp only [collect, M.bind_apply]
    rw [load_arr h hN (v := xs[i]) (by simp)]
    simp only []
    rw [ih (i+1) (by omega), e, List.take_succ_cons]
    rfl

theorem toList_spec (W : SW t st σ) {x : Nat} {s : SV V} (hx : σ x = some s) :
    toList x st = .ok s.val st := by
  obtain ⟨h1, h2, h3⟩ := get_rep W hx
  have := h3.lt
  simp only [toList, M.bind_apply, getObj_some h1, SV.obj]
  rw [collect_ok h2 (Nat.le_refl _) _ _ (by omega)]
  simp [SV.val]

/-! ### Modifiers -/

theorem set_spec (W : SW t st σ) {x i : Nat} {s : SV V} (hx : σ x = some s)
    (hi : i < s.val.length) (c : V) :
    ∃ st' s', set x i c st = .ok () st' ∧ SW t st' (upd σ x (some s')) ∧
      s'.val = s.val.set i c := by
  obtain ⟨h1, h2, h3⟩ := get_rep W hx
  have hl := SV.val_length h3
  have hlt := h3.lt
  refine ⟨⟨st.objs, upd st.mem s.blk (some (arr s.buf.length (s.buf.set i c))), st.next, st.thr⟩,
    ⟨s.blk, s.buf.set i c, s.n⟩, ?_, place W hx _ (by rfl) ?_ ?_ ?_ ?_ ?_, ?_⟩
  · simp only [set, M.bind_apply, getObj_some h1, SV.obj]
    exact putc_arr h2 (by omega) (Nat.le_refl _)
  · refine ⟨by simpa using h3.lt, by simpa using h3.two, ?_⟩
    show (s.buf.set i c)[s.n]? = _
    rw [List.getElem?_set_ne (by omega)]
    exact h3.nul
  · show st.objs = _
    refine (upd_eq_self ?_).symm
    rw [h1]; simp [SV.obj]
  · show upd _ _ _ = _; simp
  · rfl
  · rfl
  · simp [SV.val, List.take_set]

theorem clear_spec (W : SW t st σ) {x : Nat} {s : SV V} (hx : σ x = some s) :
    ∃ st' s', clear t x st = .ok () st' ∧ SW t st' (upd σ x (some s')) ∧ s'.val = [] := by
  obtain ⟨h1, h2, h3⟩ := get_rep W hx
  have hlt := h3.lt
  refine ⟨⟨upd st.objs x (some ⟨0, s.buf.length - 1, some s.blk⟩),
      upd st.mem s.blk (some (arr s.buf.length (s.buf.set 0 t.nul))), st.next, st.thr⟩,
    ⟨s.blk, s.buf.set 0 t.nul, 0⟩, ?_, place W hx _ (by rfl) ?_ ?_ ?_ ?_ ?_, ?_⟩
  · simp only [clear, M.bind_apply, getObj_some h1, SV.obj]
    rw [setObj_some (o := s.obj) (by exact h1)]
    simp only []
    exact putc_arr (n := s.buf.length) (xs := s.buf) (by exact h2) (by omega) (Nat.le_refl _)
  · refine ⟨by simp; omega, by simpa using h3.two, ?_⟩
    show (s.buf.set 0 t.nul)[0]? = _
    rw [List.getElem?_set_self (by omega)]
  · simp [SV.obj]
  · show upd _ _ _ = _; simp
  · rfl
  · rfl
  · simp [SV.val]

theorem popBack_spec (W : SW t st σ) {x : Nat} {s : SV V} (hx : σ x = some s) (hne : s.val ≠ []) :
    ∃ st' s', popBack t x st = .ok () st' ∧ SW t st' (upd σ x (some s')) ∧
      s'.val = s.val.dropLast := by
  obtain ⟨h1, h2, h3⟩ := get_rep W hx
  have hlt := h3.lt
  have hl := SV.val_length h3
  have hpos : ¬ s.n = 0 := by
    intro h
    rw [h] at hl
    exact hne (List.length_eq_zero_iff.1 hl)
  refine ⟨⟨upd st.objs x (some ⟨s.n - 1, s.buf.length - 1, some s.blk⟩),
      upd st.mem s.blk (some (arr s.buf.length (s.buf.set (s.n - 1) t.nul))), st.next, st.thr⟩,
    ⟨s.blk, s.buf.set (s.n - 1) t.nul, s.n - 1⟩, ?_, place W hx _ (by rfl) ?_ ?_ ?_ ?_ ?_, ?_⟩
  · simp only [popBack, M.bind_apply, getObj_some h1, SV.obj, hpos, if_false]
    rw [setObj_some (o := s.obj) (by exact h1)]
    simp only []
    exact putc_arr (n := s.buf.length) (xs := s.buf) (by exact h2) (by omega) (Nat.le_refl _)
  · refine ⟨by simp; omega, by simpa using h3.two, ?_⟩
    show (s.buf.set (s.n-1) t.nul)[s.n-1]? = _
    rw [List.getElem?_set_self (by omega)]
  · simp [SV.obj]
  · show upd _ _ _ = _; simp
  · rfl
  · rfl
  · show List.take (s.n - 1) _ = _
    rw [take_set_self, SV.val, List.dropLast_take (by omega)]

theorem reserve_spec (W : SW t st σ) {x : Nat} {s : SV V} (hx : σ x = some s) (n : Nat) :
    ∃ st' s', reserve t x n st = .ok () st' ∧ SW t st' (upd σ x (some s')) ∧ s'.val = s.val ∧
      s'.n = s.n ∧ n + 1 ≤ s'.buf.length ∧ s.buf.length ≤ s'.buf.length ∧
      ∀ a, a ≠ s.blk → st.mem a ≠ none → st'.mem a = st.mem a := by
  obtain ⟨h1, h2, h3⟩ := get_rep W hx
  have hlt := h3.lt
  have htwo := h3.two
  have hbl := blk_lt W hx
  by_cases hn : n > s.buf.length - 1
  · have hl1 : (mix (List.replicate (n+1) t.nul) s.buf 0 (s.n+1)).length = n + 1 := by
      rw [mix_length _ _ _ _ (by simp; omega) (by omega)]; simp
    refine ⟨⟨upd st.objs x (some ⟨s.n, n, some st.next⟩),
        upd (upd st.mem st.next
          (some (arr (n+1) (mix (List.replicate (n+1) t.nul) s.buf 0 (s.n+1))))) s.blk none,
        st.next + 1, st.thr⟩,
      ⟨st.next, mix (List.replicate (n+1) t.nul) s.buf 0 (s.n+1), s.n⟩, ?_,
      moved W hx _ (by rfl) ?_ ?_ ?_ (by rfl) (by rfl), ?_, rfl, ?_, ?_, ?_⟩
    · simp only [reserve, M.bind_apply, getObj_some h1, SV.obj]
      rw [if_pos hn]
      simp only [M.bind_apply]
      rw [allocInit_ok _ W.thr]
      simp only []
      have hne : s.blk ≠ st.next := by omega
      rw [copyChars_ok (v := s.buf) (N := n+1) (ys := List.replicate (n+1) t.nul)
        (Sees.cell0 (buf := s.buf) (N := s.buf.length) (by simp [hne, h2]) (Nat.le_refl _)) (by omega) (by simp) (by simp) (by simp; omega)
        (fun off h => absurd (Option.some.inj (congrArg Ptr.blk h)) hne)]
      simp only []
      rw [freeChars_ok (n := s.buf.length - 1 + 1) (xs := s.buf) (by
        simp [hne]; rw [h2]; congr 2; omega)]
      simp only []
      rw [setObj_some (o := s.obj) (by exact h1)]
      simp [upd_upd]
    · refine ⟨by simp only [hl1]; omega, by simp only [hl1]; omega, ?_⟩
      show (mix _ _ _ _)[s.n]? = _
      rw [mix_get _ _ _ _ _ (by simp; omega) (by omega), if_pos (by omega)]
      simpa using h3.nul
    · simp [SV.obj, hl1]
    · intro a
      have hne : s.blk ≠ st.next := by omega
      simp only [upd_apply, hl1]
      by_cases ha : a = s.blk
      · simp [ha, hne]
      · simp [ha]
    · show List.take s.n _ = List.take s.n _
      apply List.ext_getElem?
      intro j
      rw [List.getElem?_take, List.getElem?_take]
      split
      · rw [mix_get _ _ _ _ _ (by simp; omega) (by omega), if_pos (by omega)]; simp
      · rfl
    · show n + 1 ≤ List.length (mix _ _ _ _); omega
    · show _ ≤ List.length (mix _ _ _ _); omega
    · intro a ha hm
      have : a ≠ st.next := by
        intro h; subst h; exact hm (W.fresh _ (Nat.le_refl _))
      simp [ha, this]
  · refine ⟨st, s, ?_, ?_, rfl, rfl, by omega, Nat.le_refl _, fun _ _ _ => rfl⟩
    · simp only [reserve, M.bind_apply, getObj_some h1, SV.obj]
      rw [if_neg hn]
      rfl
    · have : upd σ x (some s) = σ := upd_eq_self hx
      rw [this]; exact W

theorem pushBack_spec (W : SW t st σ) {x : Nat} {s : SV V} (hx : σ x = some s) {r : Ptr V} {c : V}
    (hr : Sees st r [c]) (hb : r.blk = some s.blk → s.n + 2 ≤ s.buf.length) :
    ∃ st' s', pushBack t x r st = .ok () st' ∧ SW t st' (upd σ x (some s')) ∧
      s'.val = s.val ++ [c] := by
  obtain ⟨h1, h2, h3⟩ := get_rep W hx
  have htwo := h3.two
  have hlt := h3.lt
  -- after the possible reallocation
  have hmid : ∃ st1 s1, (s.n + 1 > s.buf.length - 1 →
      reserve t x ((s.buf.length - 1) * 2) st = .ok () st1) ∧
      (¬ s.n + 1 > s.buf.length - 1 → st1 = st) ∧ SW t st1 (upd σ x (some s1)) ∧ s1.val = s.val ∧
      s1.n + 1 < s1.buf.length ∧ s1.n = s.n ∧ Sees st1 r [c] := by
    by_cases hg : s.n + 1 > s.buf.length - 1
    · obtain ⟨st1, s1, a1, a2, a3, a4, a5, a6, a7⟩ := reserve_spec W hx ((s.buf.length - 1) * 2)
      refine ⟨st1, s1, fun _ => a1, fun h => absurd hg h, a2, a3, by omega, a4, ?_⟩
      refine hr.frame ?_
      intro a ha
      exact a7 a (by intro h; subst h; have := hb ha; omega) (hr.alloc ha)
    · refine ⟨st, s, fun h => absurd h hg, fun _ => rfl, ?_, rfl, by omega, rfl, hr⟩
      have : upd σ x (some s) = σ := upd_eq_self hx
      rw [this]; exact W
  obtain ⟨st1, s1, a1, a1', W1, a3, a4, a4', a5⟩ := hmid
  have hx1 : upd σ x (some s1) x = some s1 := by simp
  obtain ⟨b1, b2, b3⟩ := get_rep W1 hx1
  have hrd : r.rd 0 st1 = .ok c st1 := a5.1 0 c (by simp)
  refine ⟨⟨upd st1.objs x (some ⟨s1.n + 1, s1.buf.length - 1, some s1.blk⟩),
      upd st1.mem s1.blk (some (arr s1.buf.length ((s1.buf.set s1.n c).set (s1.n + 1) t.nul))),
      st1.next, st1.thr⟩,
    ⟨s1.blk, (s1.buf.set s1.n c).set (s1.n + 1) t.nul, s1.n + 1⟩, ?_, ?_, ?_⟩
  · have hK : (do
        let o ← getObj x
        let c ← r.rd 0
        putc o.p o.size c
        setObj x { o with size := o.size + 1 }
        putc o.p (o.size + 1) t.nul : SM V Unit) st1 = .ok ()
        ⟨upd st1.objs x (some ⟨s1.n + 1, s1.buf.length - 1, some s1.blk⟩),
          upd st1.mem s1.blk (some (arr s1.buf.length ((s1.buf.set s1.n c).set (s1.n + 1) t.nul))),
          st1.next, st1.thr⟩ := by
      simp only [M.bind_apply, getObj_some b1, SV.obj, hrd]
      rw [putc_arr (n := s1.buf.length) (xs := s1.buf) (by exact b2) (by omega) (Nat.le_refl _)]
      simp only []
      rw [setObj_some (o := s1.obj) (by exact b1)]
      simp only []
      rw [putc_arr (n := s1.buf.length) (xs := s1.buf.set s1.n c) (by simp) (by simp; omega) (by simp)]
      simp [upd_upd]
    simp only [pushBack, M.bind_apply, getObj_some h1, SV.obj]
    by_cases hg : s.n + 1 > s.buf.length - 1
    · rw [if_pos hg]
      simp only [M.bind_apply, a1 hg]
      exact hK
    · rw [if_neg hg]
      rw [a1' hg] at hK ⊢
      exact hK
  · have e : upd σ x (some (⟨s1.blk, (s1.buf.set s1.n c).set (s1.n + 1) t.nul, s1.n + 1⟩ : SV V)) =
        upd (upd σ x (some s1)) x
          (some ⟨s1.blk, (s1.buf.set s1.n c).set (s1.n + 1) t.nul, s1.n + 1⟩) := by
      rw [upd_upd]
    rw [e]
    refine place W1 hx1 _ (by rfl) ⟨?_, ?_, ?_⟩ ?_ ?_ rfl rfl
    · show s1.n + 1 < List.length (List.set _ _ _); simpa using a4
    · show 2 ≤ List.length (List.set _ _ _); simp; omega
    · show (List.set _ _ _)[s1.n + 1]? = _
      rw [List.getElem?_set_self (by simp; omega)]
    · simp [SV.obj]
    · simp
  · show List.take (s1.n + 1) _ = _
    rw [take_set_self, ← a3]
    simp only [SV.val]
    apply List.ext_getElem?
    intro j
    rw [List.getElem?_take, List.getElem?_set]
    by_cases hj : j < s1.n
    · rw [List.getElem?_append_left (by simp; omega), List.getElem?_take, if_pos (by omega),
        if_neg (by omega), if_pos hj]
    · rw [List.getElem?_append_right (by simp; omega)]
      have hl : (s1.buf.take s1.n).length = s1.n := by simp; omega
      rw [hl]
      by_cases hj2 : j = s1.n
      · subst hj2
        rw [if_pos (by omega), if_pos rfl, if_pos (by omega)]
        simp
      · rw [if_neg (by omega), List.getElem?_eq_none (by simp; omega)]

theorem append_spec' (W : SW t st σ) {x : Nat} {s : SV V} (hx : σ x = some s) {p : Ptr V}
    {v : List V} (hp : Sees st p v) {n : Nat} (hn : n ≤ v.length)
    (hal : ∀ off, p = .cell (some s.blk) off → off + n ≤ s.n) :
    ∃ st' s', append t x p n st = .ok () st' ∧ SW t st' (upd σ x (some s')) ∧
      s'.val = s.val ++ v.take n ∧ s'.buf.length = max s.buf.length (n + s.n + 1) := by
  obtain ⟨h1, h2, h3⟩ := get_rep W hx
  have htwo := h3.two
  have hlt := h3.lt
  have hbl := blk_lt W hx
  by_cases hc : n + s.n ≤ s.buf.length - 1
  · have hl1 : (mix s.buf v s.n n).length = s.buf.length := mix_length _ _ _ _ (by omega) hn
    refine ⟨⟨upd st.objs x (some ⟨n + s.n, s.buf.length - 1, some s.blk⟩),
        upd st.mem s.blk (some (arr s.buf.length ((mix s.buf v s.n n).set (n + s.n) t.nul))),
        st.next, st.thr⟩,
      ⟨s.blk, (mix s.buf v s.n n).set (n + s.n) t.nul, n + s.n⟩, ?_,
      place W hx _ (by rfl) ⟨?_, ?_, ?_⟩ ?_ ?_ rfl rfl, ?_, by
        show List.length (List.set _ _ _) = _
        rw [List.length_set, hl1]; omega⟩
    · simp only [append, M.bind_apply, getObj_some h1, SV.obj]
      rw [if_pos hc]
      have hK : (do
          let o ← getObj x
          setObj x { o with size := n + s.n }
          putc o.p (n + s.n) t.nul : SM V Unit)
          { st with mem := upd st.mem s.blk (some (arr s.buf.length (mix s.buf v s.n n))) } = .ok ()
          ⟨upd st.objs x (some ⟨n + s.n, s.buf.length - 1, some s.blk⟩),
            upd st.mem s.blk (some (arr s.buf.length ((mix s.buf v s.n n).set (n + s.n) t.nul))),
            st.next, st.thr⟩ := by
        simp only [M.bind_apply]
        rw [getObj_some (o := s.obj) (by exact h1)]
        simp only []
        rw [setObj_some (o := s.obj) (by exact h1)]
        simp only [SV.obj]
        rw [putc_arr (n := s.buf.length) (xs := mix s.buf v s.n n) (by simp) (by omega) (by omega)]
        simp [upd_upd]
      by_cases h0 : n = 0
      · rw [if_neg (by simpa using h0)]
        subst h0
        rw [mix_zero, St.mem_self h2] at hK
        rw [mix_zero]
        exact hK
      · rw [if_pos h0]
        simp only [M.bind_apply]
        rw [copyChars_ok hp hn h2 (Nat.le_refl _) (by omega) (fun off h => Or.inl (hal off h))]
        exact hK
    · show n + s.n < List.length (List.set _ _ _)
      rw [List.length_set, hl1]; omega
    · show 2 ≤ List.length (List.set _ _ _)
      rw [List.length_set, hl1]; omega
    · show (List.set _ _ _)[n + s.n]? = _
      rw [List.getElem?_set_self (by omega)]
    · simp only [SV.obj, List.length_set, hl1]
    · simp only [List.length_set, hl1]
    · show List.take (n + s.n) _ = _
      rw [take_set_self, Nat.add_comm, take_mix _ _ _ _ (by omega) hn]
      rfl
  · have hne : s.blk ≠ st.next := by omega
    have hl0 : (List.replicate (n + s.n + 1) t.nul).length = n + s.n + 1 := by simp
    have hl1 : (mix (List.replicate (n + s.n + 1) t.nul) s.buf 0 s.n).length = n + s.n + 1 := by
      rw [mix_length _ _ _ _ (by omega) (by omega)]; simp
    have hl2 : (mix (mix (List.replicate (n + s.n + 1) t.nul) s.buf 0 s.n) v s.n n).length
        = n + s.n + 1 := by
      rw [mix_length _ _ _ _ (by omega) (by omega)]; exact hl1
    have hpb : p.blk ≠ some st.next := by
      intro h
      exact hp.alloc h (W.fresh _ (Nat.le_refl _))
    generalize hB : mix (mix (List.replicate (n + s.n + 1) t.nul) s.buf 0 s.n) v s.n n = B at hl2
    refine ⟨⟨upd st.objs x (some ⟨n + s.n, n + s.n, some st.next⟩),
        upd (upd (upd st.mem st.next (some (arr (n + s.n + 1) B))) s.blk none) st.next
          (some (arr (n + s.n + 1) (B.set (n + s.n) t.nul))),
        st.next + 1, st.thr⟩,
      ⟨st.next, B.set (n + s.n) t.nul, n + s.n⟩, ?_, moved W hx _ (by rfl) ⟨?_, ?_, ?_⟩ ?_ ?_ rfl rfl, ?_, by
        show List.length (List.set _ _ _) = _
        rw [List.length_set, hl2]; omega⟩
    · simp only [append, M.bind_apply, getObj_some h1, SV.obj]
      rw [if_neg hc]
      simp only [M.bind_apply]
      rw [allocInit_ok _ W.thr]
      simp only []
      rw [copyChars_ok (v := s.buf) (N := n + s.n + 1) (ys := List.replicate (n + s.n + 1) t.nul)
        (Sees.cell0 (buf := s.buf) (N := s.buf.length) (by simp [hne, h2]) (Nat.le_refl _)) (by omega) (by simp) (by omega) (by omega)
        (fun off h => absurd (Option.some.inj (congrArg Ptr.blk h)) hne)]
      simp only []
      rw [copyChars_ok (v := v) (N := n + s.n + 1)
        (ys := mix (List.replicate (n + s.n + 1) t.nul) s.buf 0 s.n) (hp.frame (by
          intro a ha
          have : a ≠ st.next := by intro h; subst h; exact hpb ha
          simp [this])) hn (by simp) (by omega) (by omega)
        (by intro off h; subst h; exact absurd rfl hpb)]
      simp only [hB]
      rw [freeChars_ok (n := s.buf.length - 1 + 1) (xs := s.buf) (by
        simp [hne]; rw [h2]; congr 2; omega)]
      simp only []
      rw [setObj_some (o := s.obj) (by exact h1)]
      simp only []
      rw [getObj_some (o := ⟨n + s.n, n + s.n, some st.next⟩) (by simp)]
      simp only []
      rw [setObj_some (o := ⟨n + s.n, n + s.n, some st.next⟩) (by simp)]
      simp only []
      rw [putc_arr (n := n + s.n + 1) (xs := B) (by simp [Ne.symm hne]) (by omega) (by omega)]
      simp [upd_upd]
    · show n + s.n < List.length (List.set _ _ _)
      rw [List.length_set, hl2]; omega
    · show 2 ≤ List.length (List.set _ _ _)
      rw [List.length_set, hl2]; omega
    · show (List.set _ _ _)[n + s.n]? = _
      rw [List.getElem?_set_self (by omega)]
    · simp only [SV.obj, List.length_set, hl2]; rfl
    · intro a
      simp only [List.length_set, hl2, upd_apply]
      by_cases ha : a = st.next
      · simp [ha]
      · simp [ha]
    · show List.take (n + s.n) _ = _
      rw [take_set_self, ← hB, Nat.add_comm n s.n, take_mix _ _ _ _ (by rw [Nat.add_comm s.n n]; omega) hn,
        take_mix0 _ _ _ (by simp; omega) (by omega)]
      rfl

theorem append_spec (W : SW t st σ) {x : Nat} {s : SV V} (hx : σ x = some s) {p : Ptr V}
    {v : List V} (hp : Sees st p v) {n : Nat} (hn : n ≤ v.length)
    (hal : ∀ off, p = .cell (some s.blk) off → off + n ≤ s.n) :
    ∃ st' s', append t x p n st = .ok () st' ∧ SW t st' (upd σ x (some s')) ∧
      s'.val = s.val ++ v.take n := by
  obtain ⟨st', s', h1, h2, h3, _⟩ := append_spec' W hx hp hn hal
  exact ⟨st', s', h1, h2, h3⟩

theorem assignC_spec (W : SW t st σ) {x : Nat} {s : SV V} (hx : σ x = some s) {p : Ptr V}
    {v : List V} (hp : Sees st p v) (hn : t.nul ∈ v) (hpb : p.blk ≠ some s.blk) :
    ∃ st' s', assignC t x p st = .ok () st' ∧ SW t st' (upd σ x (some s')) ∧
      s'.val = v.takeWhile (· ≠ t.nul) := by
  obtain ⟨h1, h2, h3⟩ := get_rep W hx
  have htwo := h3.two
  have hlt := h3.lt
  have hbl := blk_lt W hx
  have hlv : (v.takeWhile (· ≠ t.nul)).length < v.length := takeWhile_length_lt ⟨t.nul, hn, by simp⟩
  have hend := get_cstr_end t.nul v hn
  have htake := take_cstr t.nul v
  have hlen := length_ok hp hn
  generalize hm : (v.takeWhile (· ≠ t.nul)).length = m at hlv hend htake hlen
  by_cases hc : s.buf.length - 1 < m + 1
  · have hne : s.blk ≠ st.next := by omega
    have hl1 : (mix (List.replicate (m+1+1) t.nul) v 0 (m+1)).length = m + 1 + 1 := by
      rw [mix_length _ _ _ _ (by simp) (by omega)]; simp
    have hpn : p.blk ≠ some st.next := by
      intro h
      exact hp.alloc h (W.fresh _ (Nat.le_refl _))
    refine ⟨⟨upd st.objs x (some ⟨m, m + 1, some st.next⟩),
        upd (upd st.mem s.blk none) st.next
          (some (arr (m + 1 + 1) (mix (List.replicate (m+1+1) t.nul) v 0 (m+1)))),
        st.next + 1, st.thr⟩,
      ⟨st.next, mix (List.replicate (m+1+1) t.nul) v 0 (m+1), m⟩, ?_,
      moved W hx _ (by rfl) ⟨?_, ?_, ?_⟩ ?_ ?_ rfl rfl, ?_⟩
    · simp only [assignC, M.bind_apply, hlen, getObj_some h1, SV.obj]
      rw [if_pos hc]
      simp only [M.bind_apply]
      rw [freeChars_ok (n := s.buf.length - 1 + 1) (xs := s.buf) (by
        rw [h2]; congr 2; omega)]
      simp only []
      rw [setObj_some (o := s.obj) (by exact h1)]
      simp only []
      rw [allocInit_ok _ (by exact W.thr)]
      simp only []
      rw [setObj_some (o := { size := s.n, cap := m + 1, p := some s.blk }) (by simp)]
      simp only []
      rw [getObj_some (o := { size := s.n, cap := m + 1, p := some st.next }) (by simp)]
      simp only []
      rw [copyChars_ok (v := v) (N := m + 1 + 1) (ys := List.replicate (m+1+1) t.nul) (hp.frame (by
          intro a ha
          have e1 : a ≠ st.next := by intro h; subst h; exact hpn ha
          have e2 : a ≠ s.blk := by intro h; subst h; exact hpb ha
          simp [e1, e2])) (by omega) (by simp) (by simp) (by simp)
        (by intro off h; subst h; exact absurd rfl hpn)]
      simp only []
      rw [setObj_some (o := { size := s.n, cap := m + 1, p := some st.next }) (by simp)]
      simp [upd_upd]
    · show m < List.length _; rw [hl1]; omega
    · show 2 ≤ List.length _; rw [hl1]; omega
    · show (mix _ _ _ _)[m]? = _
      rw [mix_get _ _ _ _ _ (by simp) (by omega), if_pos (by omega)]
      simpa using hend
    · simp only [SV.obj, hl1]; rfl
    · intro a
      simp only [hl1, upd_apply]
    · show List.take m _ = _
      rw [← htake]
      apply List.ext_getElem?
      intro j
      rw [List.getElem?_take, List.getElem?_take]
      split
      · rw [mix_get _ _ _ _ _ (by simp) (by omega), if_pos (by omega)]; simp
      · rfl
  · have hl1 : (mix s.buf v 0 (m+1)).length = s.buf.length := mix_length _ _ _ _ (by omega) (by omega)
    refine ⟨⟨upd st.objs x (some ⟨m, s.buf.length - 1, some s.blk⟩),
        upd st.mem s.blk (some (arr s.buf.length (mix s.buf v 0 (m+1)))), st.next, st.thr⟩,
      ⟨s.blk, mix s.buf v 0 (m+1), m⟩, ?_,
      place W hx _ (by rfl) ⟨?_, ?_, ?_⟩ ?_ ?_ rfl rfl, ?_⟩
    · simp only [assignC, M.bind_apply, hlen, getObj_some h1, SV.obj]
      rw [if_neg hc]
      simp only [M.bind_apply]
      rw [getObj_some (o := s.obj) (by exact h1)]
      simp only [SV.obj]
      rw [copyChars_ok (v := v) (N := s.buf.length) (ys := s.buf) hp (by omega) h2 (Nat.le_refl _)
        (by omega) (by intro off h; subst h; exact absurd rfl hpb)]
      simp only []
      rw [setObj_some (o := s.obj) (by exact h1)]
    · show m < List.length _; rw [hl1]; omega
    · show 2 ≤ List.length _; rw [hl1]; omega
    · show (mix _ _ _ _)[m]? = _
      rw [mix_get _ _ _ _ _ (by omega) (by omega), if_pos (by omega)]
      simpa using hend
    · simp only [SV.obj, hl1]
    · simp only [hl1]
    · show List.take m _ = _
      rw [← htake]
      apply List.ext_getElem?
      intro j
      rw [List.getElem?_take, List.getElem?_take]
      split
      · rw [mix_get _ _ _ _ _ (by omega) (by omega), if_pos (by omega)]; simp
      · rfl

theorem assign_spec (W : SW t st σ) {x y : Nat} {s s2 : SV V} (hx : σ x = some s)
    (hy : σ y = some s2) (hxy : x ≠ y) (hnul : t.nul ∉ s2.val) :
    ∃ st' s', assign t x y st = .ok () st' ∧ SW t st' (upd σ x (some s')) ∧ s'.val = s2.val := by
  obtain ⟨h1, h2⟩ := SV.cstr_of (get_rep W hy).2.2 hnul
  obtain ⟨st', s', h3, h4, h5⟩ := assignC_spec W hx (by simpa using sees_data W hy 0) h1
    (by simp only [Ptr.blk]; intro h; injection h with h; exact blk_ne W hx hy hxy h.symm)
  refine ⟨st', s', ?_, h4, by rw [h5, h2]⟩
  simp only [assign, M.bind_apply, data_ok W hy]
  exact h3

end
end Cest.Str
