import Verif.Cctype.Model
import Verif.Str.Props
/-
Property C65: isalnum and isupper.
-/
namespace Cest.Cctype
open Cest

variable {st : Str.SSt Int8} {σ : Nat → Option (Str.SV Int8)}

theorem find_ok (W : Str.SW charTraits st σ) {x : Nat} {s : Str.SV Int8} (hx : σ x = some s) (ch : Int32)
    (n i : Nat) (h : i + n = s.val.length) :
    ∃ j, find x ch i n st = .ok j st ∧ (j ≠ s.val.length ↔ ch ∈ (s.val.drop i).map Int8.toInt32) := by
  induction n generalizing i with
  | zero =>
    have : i = s.val.length := by omega
    exact ⟨i, rfl, by simp [this]⟩
  | succ n ih =>
    have hi : i < s.val.length := by omega
    have hg := Str.get_spec (i := i) (c := s.val[i]) W hx (by
      rw [List.getElem?_append_left hi]; simp [hi])
    rw [List.drop_eq_getElem_cons hi]
    by_cases hc : (s.val[i]).toInt32 = ch
    · refine ⟨i, ?_, ?_⟩
      · simp only [find, M.bind_apply, hg, hc, if_true, M.pure_apply]
      · constructor
        · intro _; rw [List.map_cons, hc]; exact List.mem_cons_self
        · intro _; omega
    · obtain ⟨j, h1, h2⟩ := ih (i + 1) (by omega)
      refine ⟨j, ?_, ?_⟩
      · simp only [find, M.bind_apply, hg, hc, if_false]; exact h1
      · rw [h2, List.map_cons, List.mem_cons]
        constructor
        · exact .inr
        · rintro (h | h)
          · exact absurd h.symm hc
          · exact h

theorem classify_ok (W : Str.SW charTraits st σ) {x : Nat} (hx : σ x = none) (lit : String)
    (hl : (0 : Int8) ∉ lit.toList.map (fun c => Int8.ofNat c.toNat)) (yes ch : Int32) :
    ∃ st', classify x lit yes ch st =
        .ok (if ch ∈ (lit.toList.map (fun c => Int8.ofNat c.toNat)).map Int8.toInt32 then yes else 0) st' ∧
      Str.SW charTraits st' σ := by
  obtain ⟨st1, s, h1, W1, h2⟩ := Str.ctorC_spec (t := charTraits) W hx (Str.Sees.ext st (literal lit) 0)
    (by simp [literal, charTraits])
  have hv : s.val = lit.toList.map (fun c => Int8.ofNat c.toNat) := by
    rw [h2, List.drop_zero, literal, List.takeWhile_append_of_pos]
    · simp [charTraits]
    · intro a ha
      simp only [decide_eq_true_eq]
      intro hc; subst hc; exact hl ha
  have hs : upd σ x (some s) x = some s := by simp
  obtain ⟨j, h3, h4⟩ := find_ok W1 hs ch s.val.length 0 (by simp)
  obtain ⟨st2, h5, W2⟩ := Str.dtor_spec W1 hs
  refine ⟨st2, ?_, ?_⟩
  · simp only [classify, M.bind_apply, h1]
    rw [Str.size_spec W1 hs]
    simp only []
    rw [h3]
    simp only []
    rw [h5]
    simp only [M.pure_apply, List.drop_zero, hv] at h4 ⊢
    simp only [h4]
  · rw [upd_upd, upd_eq_self hx] at W2
    exact W2

/-- The letters and digits, as numbers. -/
theorem alnum_codes : ("0123456789ABCDEFGHIJKLMNOPQRSTUVWXYZabcdefghijklmnopqrstuvwxyz".toList.map
      (fun c => Int8.ofNat c.toNat)).map Int8.toInt32 =
    ((List.range 10).map (48 + ·) ++ ((List.range 26).map (65 + ·) ++ (List.range 26).map (97 + ·))).map Int32.ofNat := by
  decide

theorem upper_codes : ("ABCDEFGHIJKLMNOPQRSTUVWXYZ".toList.map
      (fun c => Int8.ofNat c.toNat)).map Int8.toInt32 = ((List.range 26).map (65 + ·)).map Int32.ofNat := by
  decide

theorem mem_range_ofNat (a n : Nat) (h : a + n < 2 ^ 31) (ch : Int32) :
    (∃ k, k < n ∧ Int32.ofNat (a + k) = ch) ↔ (a : Int) ≤ ch.toInt ∧ ch.toInt < a + n := by
  constructor
  · rintro ⟨k, hk, rfl⟩
    rw [Int32.toInt_ofNat_of_lt (by omega)]
    omega
  · rintro ⟨h1, h2⟩
    refine ⟨(ch.toInt - a).toNat, by omega, ?_⟩
    apply Int32.toInt_inj.1
    rw [Int32.toInt_ofNat_of_lt (by omega)]
    omega

/-- C65.  In any state of the program, `isalnum(ch)` returns 8 if `ch` is the code of a digit, an upper-case
or a lower-case letter, and 0 for every other `int`; it leaves no storage behind. -/
theorem C65_isalnum_correct (W : Str.SW charTraits st σ) {x : Nat} (hx : σ x = none) (ch : Int32) :
    ∃ st', isalnum x ch st = .ok (if (48 ≤ ch.toInt ∧ ch.toInt ≤ 57) ∨ (65 ≤ ch.toInt ∧ ch.toInt ≤ 90) ∨
        (97 ≤ ch.toInt ∧ ch.toInt ≤ 122) then 8 else 0) st' ∧ Str.SW charTraits st' σ := by
  obtain ⟨st', h1, h2⟩ := classify_ok W hx "0123456789ABCDEFGHIJKLMNOPQRSTUVWXYZabcdefghijklmnopqrstuvwxyz"
    (by decide) 8 ch
  refine ⟨st', ?_, h2⟩
  simp only [isalnum]
  rw [h1]
  congr 1
  have key : ch ∈ ("0123456789ABCDEFGHIJKLMNOPQRSTUVWXYZabcdefghijklmnopqrstuvwxyz".toList.map
      (fun c => Int8.ofNat c.toNat)).map Int8.toInt32 ↔
      ((48 ≤ ch.toInt ∧ ch.toInt ≤ 57) ∨ (65 ≤ ch.toInt ∧ ch.toInt ≤ 90) ∨ (97 ≤ ch.toInt ∧ ch.toInt ≤ 122)) := by
    rw [alnum_codes]
    simp only [List.map_append, List.map_map, List.mem_append, List.mem_map, List.mem_range, Function.comp]
    rw [mem_range_ofNat 48 10 (by decide), mem_range_ofNat 65 26 (by decide), mem_range_ofNat 97 26 (by decide)]
    omega
  simp only [key]

/-- C65.  `isupper(ch)` returns 256 if `ch` is the code of an upper-case letter, and 0 for every other
`int`. -/
theorem C65_isupper_correct (W : Str.SW charTraits st σ) {x : Nat} (hx : σ x = none) (ch : Int32) :
    ∃ st', isupper x ch st = .ok (if 65 ≤ ch.toInt ∧ ch.toInt ≤ 90 then 256 else 0) st' ∧
      Str.SW charTraits st' σ := by
  obtain ⟨st', h1, h2⟩ := classify_ok W hx "ABCDEFGHIJKLMNOPQRSTUVWXYZ" (by decide) 256 ch
  refine ⟨st', ?_, h2⟩
  simp only [isupper]
  rw [h1]
  congr 1
  have key : ch ∈ ("ABCDEFGHIJKLMNOPQRSTUVWXYZ".toList.map (fun c => Int8.ofNat c.toNat)).map Int8.toInt32 ↔
      (65 ≤ ch.toInt ∧ ch.toInt ≤ 90) := by
    rw [upper_codes]
    simp only [List.map_map, List.mem_map, List.mem_range, Function.comp]
    rw [mem_range_ofNat 65 26 (by decide)]
    omega
  simp only [key]

/-- C65 for a whole program: from the start, for every `int`, nothing stays allocated. -/
theorem C65_isalnum_isupper_program (ch : Int32) :
    ∃ st, (do let a ← isalnum 0 ch; let b ← isupper 0 ch; return (a, b) : Str.SM Int8 _) St.init =
        .ok (if (48 ≤ ch.toInt ∧ ch.toInt ≤ 57) ∨ (65 ≤ ch.toInt ∧ ch.toInt ≤ 90) ∨
            (97 ≤ ch.toInt ∧ ch.toInt ≤ 122) then 8 else 0,
          if 65 ≤ ch.toInt ∧ ch.toInt ≤ 90 then 256 else 0) st ∧ ∀ b, st.mem b = none := by
  obtain ⟨st1, h1, W1⟩ := C65_isalnum_correct (x := 0) (World.init (I := Str.iface charTraits)) rfl ch
  obtain ⟨st2, h2, W2⟩ := C65_isupper_correct (x := 0) W1 rfl ch
  refine ⟨st2, ?_, World.empty_mem W2 (fun _ => rfl)⟩
  simp only [M.bind_apply, h1, h2, M.pure_apply]

/-- EOF (-1) and a value outside `char` that agrees with 'A' in its low byte are not letters; 'Z' is. -/
example : ∃ st, (do let a ← isalnum 0 (-1); let b ← isupper 0 (-1); return (a, b) : Str.SM Int8 _) St.init =
    .ok (0, 0) st := (C65_isalnum_isupper_program (-1)).imp fun _ h => h.1
example : ∃ st, (do let a ← isalnum 0 321; let b ← isupper 0 321; return (a, b) : Str.SM Int8 _) St.init =
    .ok (0, 0) st := (C65_isalnum_isupper_program 321).imp fun _ h => h.1
example : ∃ st, (do let a ← isalnum 0 90; let b ← isupper 0 90; return (a, b) : Str.SM Int8 _) St.init =
    .ok (8, 256) st := (C65_isalnum_isupper_program 90).imp fun _ h => h.1

end Cest.Cctype
