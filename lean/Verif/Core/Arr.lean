import Verif.Core.World
/-
Loop lemmas for arrays whose live slots form a prefix.
-/
namespace Cest
variable {O V : Type}

/-- An array of `n` slots whose live prefix holds `xs`. -/
def arr (n : Nat) (xs : List V) : Blk V := ⟨n, fun i => xs[i]?⟩

@[simp] theorem arr_len (n : Nat) (xs : List V) : (arr n xs).len = n := rfl
@[simp] theorem arr_slot (n : Nat) (xs : List V) (i : Nat) : (arr n xs).slot i = xs[i]? := rfl

theorem Blk.ext' {b c : Blk V} (h : b.len = c.len) (hs : ∀ i, b.slot i = c.slot i) : b = c := by
  cases b; cases c; simp at h; subst h; congr; funext i; exact hs i

theorem upd_eq_self {β : Type} {f : Nat → β} {a : Nat} {b : β} (h : f a = b) : upd f a b = f := by
  subst h; exact upd_self f a

theorem St.mem_self {C : Type} {s : St O C} {a : Nat} {c : Option C} (h : s.mem a = c) :
    { s with mem := upd s.mem a c } = s := by
  cases s; simp at h ⊢; exact upd_eq_self h

theorem arr_push (n : Nat) (xs : List V) (v : V) :
    { arr n xs with slot := upd (arr n xs).slot xs.length (some v) } = arr n (xs ++ [v]) := by
  refine Blk.ext' (by rfl) ?_
  intro i
  simp only [upd_apply, arr_slot]
  grind

theorem arr_set (n : Nat) (xs : List V) (i : Nat) (v : V) (h : i < xs.length) :
    { arr n xs with slot := upd (arr n xs).slot i (some v) } = arr n (xs.set i v) := by
  refine Blk.ext' (by rfl) ?_
  intro j
  simp only [upd_apply, arr_slot]
  grind

/-- Destroying slots `i … i+n-1`. -/
def Blk.hole (b : Blk V) (i n : Nat) : Blk V :=
  ⟨b.len, fun j => if i ≤ j ∧ j < i + n then none else b.slot j⟩

theorem Blk.hole_zero (b : Blk V) (i : Nat) : b.hole i 0 = b := by
  refine Blk.ext' (by rfl) ?_; intro j; simp [Blk.hole]; intros; omega

theorem arr_hole (n : Nat) (xs : List V) (i k : Nat) (h : xs.length ≤ i + k) :
    (arr n xs).hole i k = arr n (xs.take i) := by
  refine Blk.ext' (by rfl) ?_; intro j; simp only [Blk.hole, arr_slot]; grind

theorem destroyN_null (s : St O (Blk V)) (p : Option Nat) (i : Nat) :
    destroyN p i 0 s = .ok () s := rfl

theorem destroyN_ok {s : St O (Blk V)} {a : Nat} {b : Blk V} {i n : Nat} (h : s.mem a = some b)
    (hn : i + n ≤ b.len) (hl : ∀ j, i ≤ j → j < i + n → b.slot j ≠ none) :
    destroyN (some a) i n s = .ok () { s with mem := upd s.mem a (some (b.hole i n)) } := by
  induction n generalizing i s b with
  | zero =>
    simp only [Blk.hole_zero]
    rw [St.mem_self h]; rfl
  | succ n ih =>
    unfold destroyN forN
    cases hv : b.slot i with
    | none => exact absurd hv (hl i (Nat.le_refl _) (by omega))
    | some v =>
      have h1 := destroyAt_ok (s := s) h (i := i) (by omega) hv
      simp only [M.bind_apply, h1]
      have h2 := ih (s := { s with mem := upd s.mem a (some { b with slot := upd b.slot i none }) })
        (b := { b with slot := upd b.slot i none }) (i := i+1) (by simp) (by simp; omega)
        (by intro j h1 h2; simp; exact ⟨by omega, hl j (by omega) (by omega)⟩)
      unfold destroyN at h2
      rw [h2]
      simp only [upd_upd]
      congr 4
      refine Blk.ext' (by rfl) ?_
      intro j; simp only [Blk.hole, upd_apply]; grind

theorem load_arr {s : St O (Blk V)} {a n i : Nat} {xs : List V} {v : V}
    (h : s.mem a = some (arr n xs)) (hn : xs.length ≤ n) (hv : xs[i]? = some v) :
    load (some a) i s = .ok v s := by
  have : i < xs.length := by grind
  exact load_ok h (by simp; omega) hv

theorem constructAt_arr {s : St O (Blk V)} {a n i : Nat} {xs : List V} {v : V}
    (h : s.mem a = some (arr n xs)) (hi : i = xs.length) (hn : xs.length < n)
    (ht : s.thr = none) :
    constructAt (some a) i v s = .ok () { s with mem := upd s.mem a (some (arr n (xs ++ [v]))) } := by
  subst hi
  rw [constructAt_ok h (by simpa using hn) (by simp) ht, arr_push]

theorem store_arr {s : St O (Blk V)} {a n i : Nat} {xs : List V} {v : V}
    (h : s.mem a = some (arr n xs)) (hi : i < xs.length) (hn : xs.length ≤ n)
    (ht : s.thr = none) :
    store (some a) i v s = .ok () { s with mem := upd s.mem a (some (arr n (xs.set i v))) } := by
  have : (arr n xs).slot i = some (xs[i]) := by simp [hi]
  rw [store_ok h (by simp; omega) this ht, arr_set _ _ _ _ hi]

/-- Copy-constructing elements `i … i+m-1` of a source array at the end of another one. -/
theorem copyLoop_ok {s : St O (Blk V)} {a q c n i m : Nat} {xs ys : List V}
    (hne : a ≠ q) (ha : s.mem a = some (arr c xs)) (hc : xs.length ≤ c)
    (hq : s.mem q = some (arr n ys)) (hi : i = ys.length) (hm : i + m ≤ xs.length)
    (hn : i + m ≤ n) (ht : s.thr = none) :
    forN (fun k => do let v ← load (some a) k; constructAt (some q) k v) i m s =
      .ok () { s with mem := upd s.mem q (some (arr n (ys ++ (xs.drop i).take m))) } := by
  induction m generalizing i s ys with
  | zero => simp [forN]; rw [St.mem_self hq]
  | succ m ih =>
    unfold forN
    have hv : xs[i]? = some xs[i] := by simp
    have h1 := load_arr ha hc hv
    have h2 := constructAt_arr (v := xs[i]) hq hi (by omega) ht
    simp only [M.bind_apply, h1, h2]
    rw [ih (s := { s with mem := upd s.mem q (some (arr n (ys ++ [xs[i]]))) }) (ys := ys ++ [xs[i]])
      (by simp [hne, ha]) (by simp) (by simp [hi]) (by omega) (by omega) ht]
    simp only [upd_upd]
    congr 5
    have : xs.drop i = xs[i] :: xs.drop (i+1) := by simp
    rw [this, List.take_succ_cons, List.append_assoc, List.singleton_append]

/-- Value-constructing elements at the end of an array. -/
theorem fillLoop_ok {s : St O (Blk V)} {q n i m : Nat} {ys : List V} {v : V}
    (hq : s.mem q = some (arr n ys)) (hi : i = ys.length) (hn : i + m ≤ n) (ht : s.thr = none) :
    forN (fun k => constructAt (some q) k v) i m s =
      .ok () { s with mem := upd s.mem q (some (arr n (ys ++ List.replicate m v))) } := by
  induction m generalizing i s ys with
  | zero => simp [forN]; rw [St.mem_self hq]
  | succ m ih =>
    unfold forN
    have h2 := constructAt_arr (v := v) hq hi (by omega) ht
    simp only [M.bind_apply, h2]
    rw [ih (s := { s with mem := upd s.mem q (some (arr n (ys ++ [v]))) }) (ys := ys ++ [v])
      (by simp) (by simp [hi]) (by omega) ht]
    simp only [upd_upd]
    simp [List.replicate_succ]

/-- Assigning elements `0 … m-1` of a source array (possibly the same one) to a target array. -/
theorem assignLoop_ok {s : St O (Blk V)} {a q c n i m : Nat} {xs ys : List V}
    (ha : s.mem a = some (arr c xs)) (hc : xs.length ≤ c)
    (hq : s.mem q = some (arr n ys)) (hn : ys.length ≤ n) (hm : i + m ≤ xs.length)
    (hm' : i + m ≤ ys.length) (hsame : a = q → xs = ys)
    (hpre : ys.take i = xs.take i) (ht : s.thr = none) :
    forN (fun k => do let v ← load (some a) k; store (some q) k v) i m s =
      .ok () { s with mem := upd s.mem q (some (arr n (xs.take (i+m) ++ ys.drop (i+m)))) } := by
  induction m generalizing i s xs ys c with
  | zero =>
    simp [forN]
    rw [← hpre]; simp
    rw [St.mem_self hq]
  | succ m ih =>
    unfold forN
    have hv : xs[i]? = some xs[i] := by simp
    have h1 := load_arr ha hc hv
    have h2 := store_arr (i := i) (v := xs[i]) hq (by omega) hn ht
    simp only [M.bind_apply, h1, h2]
    by_cases haq : a = q
    · have hxy := hsame haq
      subst hxy
      subst haq
      have e : xs.set i xs[i] = xs := by simp
      rw [e]
      have hc' : c = n := by
        rw [ha] at hq; simp at hq
        have := congrArg Blk.len hq; simpa using this
      subst hc'
      rw [St.mem_self hq]
      rw [ih (i := i+1) ha hc hq hn (by omega) (by omega) (by simp) rfl ht]
      congr 7 <;> omega
    · rw [ih (s := { s with mem := upd s.mem q (some (arr n (ys.set i xs[i]))) }) (i := i+1) (c := c) (xs := xs)
        (ys := ys.set i xs[i])
        (by simp [haq, ha]) hc (by simp) (by simpa using hn) (by omega) (by simp; omega)
        (fun h => absurd h haq) ?_ ht]
      · simp only [upd_upd]
        have e1 : i + (m + 1) = i + 1 + m := by omega
        have e2 : (ys.set i xs[i]).drop (i+1+m) = ys.drop (i+1+m) := by
          rw [List.drop_set_of_lt (by omega)]
        rw [e1, e2]
      · have hi : i < ys.length := by omega
        apply List.ext_getElem?
        intro j
        have hp : ∀ j : Nat, (ys.take i)[j]? = (xs.take i)[j]? := by rw [hpre]; simp
        have := hp j
        grind

end Cest
