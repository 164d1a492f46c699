import Verif.Stream.Wide
import Verif.Stream.Props
/-
C146: streams of characters some of which look like the end of the file.

C58 to C63 assume that no character's `to_int_type` is `eof()`, which is so for `char`.  For `wchar_t` it is not:
`wchar_t(-1)` is converted to `WEOF`.  Here nothing is assumed about the characters, and `str(s)` is described for
strings with terminators, too.
-/
namespace Cest.Stream.Props
open Cest Cest.Stream
set_option linter.unusedSectionVars false
variable {V : Type} [DecidableEq V] {t : Traits V}

/-- C146.  Every program, with any type of characters: no undefined behaviour, and the observations are those of the
specification. -/
theorem C146_programs {ops : List (Op V)} {e : Env V} {outs : List (Out V)}
    (h : specRunW t.nul t.eofLike Env.none ops = some (e, outs)) : ∃ st, runOps t ops SSt.init = .ok outs st := by
  obtain ⟨σ, st, h1, -⟩ := run_refinesW Inv.init h
  exact ⟨st, h1⟩

theorem specStepW_narrow {nul : V} {eofLike : V → Bool} (he : ∀ c, eofLike c = false) {e : Env V} {op : Op V}
    {r : Env V × Out V} (h : specStep nul e op = some r) : specStepW nul eofLike e op = some r := by
  cases op with
  | get x a i =>
    simp only [specStep] at h
    simp only [specStepW, getW_same fun _ c _ => he c]
    exact h
  | unget x =>
    simp only [specStep] at h
    simp only [specStepW, ungetW_same fun _ _ _ c _ => he c]
    exact h
  | setStr x y =>
    simp only [specStep] at h
    simp only [specStepW]
    split at h
    · rename_i s l h1 h2
      split at h
      · rename_i m h3
        split at h
        · cases h
        · rename_i hn
          have ht : l.takeWhile (fun a => decide (a ≠ nul)) = l := takeWhile_all _ (by
            intro a ha
            simp only [ne_eq, decide_not, Bool.not_eq_eq_eq_not, Bool.not_true, decide_eq_false_iff_not]
            rintro rfl
            exact hn ha)
          simp only [h1, h2, h3, ht]
          rw [h3] at h
          exact h
      · cases h
    · cases h
  | _ => exact h

/-- Where no character looks like the end of the file, the specification is the one of C58 to C63. -/
theorem C146_narrow {nul : V} {eofLike : V → Bool} (he : ∀ c, eofLike c = false) {ops : List (Op V)} :
    ∀ {e : Env V} {r : Env V × List (Out V)}, specRun nul e ops = some r → specRunW nul eofLike e ops = some r := by
  induction ops with
  | nil => intro e r h; exact h
  | cons op ops ih =>
    intro e r h
    simp only [specRun] at h
    simp only [specRunW]
    split at h
    · cases h
    · rename_i e1 o1 h1
      rw [specStepW_narrow he h1]
      split at h
      · cases h
      · rename_i e2 os h2
        simp only [ih h2]
        exact h

theorem specRunW_cons (nul : V) (eofLike : V → Bool) (e : Env V) (op : Op V) (ops : List (Op V)) :
    specRunW nul eofLike e (op :: ops) = match specStepW nul eofLike e op with
      | none => none
      | some (e', o) => match specRunW nul eofLike e' ops with
        | none => none
        | some (e'', os) => some (e'', o :: os) := rfl

theorem specRunW_append {nul : V} {eofLike : V → Bool} {p q : List (Op V)} :
    ∀ {e e1 : Env V} {os : List (Out V)}, specRunW nul eofLike e p = some (e1, os) →
      ∀ {e2 : Env V} {os2 : List (Out V)}, specRunW nul eofLike e1 q = some (e2, os2) →
      specRunW nul eofLike e (p ++ q) = some (e2, os ++ os2) := by
  induction p with
  | nil => intro e e1 os h e2 os2 h2; simp [specRunW] at h; obtain ⟨rfl, rfl⟩ := h; simpa using h2
  | cons op ops ih =>
    intro e e1 os h e2 os2 h2
    simp only [specRunW] at h
    simp only [List.cons_append, specRunW]
    split at h
    · cases h
    · rename_i e3 o3 h3
      split at h
      · cases h
      · rename_i e4 o4 h4
        cases h
        simp only [ih h4 h2, List.cons_append]

/-- `get` on a stream that has failed. -/
theorem gets_failed (nul : V) (eofLike : V → Bool) (x a : Nat) (k : Nat) : ∀ (e : Env V) (s : Strm V) (c : V),
    e.strm x = some s → e.arr a = some [c] → s.mask = ⟨false, false, false⟩ → s.state = ⟨false, true, true⟩ →
    ∃ e', specRunW nul eofLike e (gets x a k) = some (e', getsOut c [] k) := by
  induction k with
  | zero => intro e s c _ _ _ _; exact ⟨e, rfl⟩
  | succ k ih =>
    intro e s c hx ha hm hs
    obtain ⟨e', h⟩ := ih _ { s with count := 0 } c
      (show ({ e with strm := put e.strm x (some { s with count := 0 }),
                      arr := put e.arr a (some [c]) } : Env V).strm x = _ by simp [put])
      (by simp [put]) hm hs
    refine ⟨e', ?_⟩
    simp only [gets, getsOut, List.cons_append, List.nil_append] at h ⊢
    simp [specRunW_cons, specStepW, specStep, hx, ha, getW, hs, isGood, hm, outcome, meets, put, blit, refused] at h ⊢
    rw [← hs] at *
    rw [h]

theorem gets_specW (nul : V) (eofLike : V → Bool) (x a : Nat) (k : Nat) : ∀ (e : Env V) (s : Strm V) (c : V),
    e.strm x = some s → e.arr a = some [c] → s.mask = ⟨false, false, false⟩ → s.state = ⟨false, false, false⟩ →
    ∃ e', specRunW nul eofLike e (gets x a k) =
      some (e', getsOut c ((s.content.drop s.pos).takeWhile fun d => !eofLike d) k) := by
  induction k with
  | zero => intro e s c _ _ _ _; exact ⟨e, by simp only [gets, specRunW, getsOut]⟩
  | succ k ih =>
    intro e s c hx ha hm hs
    cases hc : s.content[s.pos]? with
    | none =>
      have hlen : s.content.length ≤ s.pos := by simpa using hc
      have hd : s.content.drop s.pos = [] := List.drop_eq_nil_of_le hlen
      obtain ⟨e', h⟩ := gets_failed nul eofLike x a k _ { s with state := ⟨false, true, true⟩, count := 0 } c
        (show ({ e with strm := put e.strm x (some { s with state := ⟨false, true, true⟩, count := 0 }),
                        arr := put e.arr a (some [c]) } : Env V).strm x = _ by simp [put])
        (by simp [put]) hm rfl
      refine ⟨e', ?_⟩
      simp only [hd, gets, getsOut, List.takeWhile_nil, List.cons_append, List.nil_append] at h ⊢
      simp [specRunW_cons, specStepW, specStep, hx, ha, getW, hs, isGood, hc, hm, outcome, meets, put, blit] at h ⊢
      rw [h]
    | some d =>
      have hlen : s.pos < s.content.length := by
        have := List.getElem?_eq_some_iff.1 hc; exact this.1
      have hd : s.content.drop s.pos = d :: s.content.drop (s.pos + 1) := by
        rw [List.drop_eq_getElem_cons hlen]; congr 1
        have := List.getElem?_eq_some_iff.1 hc; exact this.2
      cases hq : eofLike d with
      | true =>
        obtain ⟨e', h⟩ := gets_failed nul eofLike x a k _ { s with pos := s.pos + 1, state := ⟨false, true, true⟩, count := 0 } c
          (show ({ e with strm := put e.strm x (some { s with pos := s.pos + 1, state := ⟨false, true, true⟩, count := 0 }),
                          arr := put e.arr a (some [c]) } : Env V).strm x = _ by simp [put])
          (by simp [put]) hm rfl
        refine ⟨e', ?_⟩
        rw [hd, List.takeWhile_cons_of_neg (by simp [hq])]
        simp only [gets, getsOut, List.cons_append, List.nil_append] at h ⊢
        simp [specRunW_cons, specStepW, specStep, hx, ha, getW, hs, isGood, hc, hq, hm, outcome, meets, put, blit] at h ⊢
        rw [h]
      | false =>
        obtain ⟨e', h⟩ := ih _ { s with pos := s.pos + 1, count := 1 } d
          (show ({ e with strm := put e.strm x (some { s with pos := s.pos + 1, count := 1 }),
                          arr := put e.arr a (some [d]) } : Env V).strm x = _ by simp [put])
          (by simp [put]) hm hs
        refine ⟨e', ?_⟩
        rw [hd, List.takeWhile_cons_of_pos (by simp [hq])]
        simp only [gets, getsOut, List.cons_append, List.nil_append] at h ⊢
        simp [specRunW_cons, specStepW, specStep, hx, ha, getW, hs, isGood, hc, hq, hm, outcome, meets, put, blit] at h ⊢
        rw [h]

/-- C146.  An `istringstream` delivers through `get` the characters before the first one that looks like the end of the
file, and no others. -/
theorem C146_get_delivers_prefix (l : List V) (m : Mode) (c : V) (k : Nat) :
    ∃ st, runOps t ([.newArr 0 l, .newStr 0 0 l.length, .newISs 0 0 m, .delStr 0, .newArr 1 [c]] ++ gets 0 1 k)
      SSt.init = .ok ([.unit, .unit, .unit, .unit, .unit] ++ getsOut c (l.takeWhile fun d => !t.eofLike d) k) st := by
  obtain ⟨e, h⟩ := gets_specW t.nul t.eofLike 0 1 k
    { arr := put (put (fun _ => none) 0 (some l)) 1 (some [c]), str := put (put (fun _ => none) 0 (some l)) 0 none,
      strm := put (fun _ => none) 0 (some (fresh l { m with inn := true } false)) }
    (fresh l { m with inn := true } false) c (by simp [put]) (by simp [put]) rfl rfl
  refine C146_programs (e := e) (specRunW_append ?_ (show _ = some (e, getsOut c _ k) by rw [h]; rfl))
  simp [specRunW, specStepW, specStep, Env.none, put]

theorem C146_obs {ops : List (Op V)} {outs : List (Out V)}
    (h : (specRunW t.nul t.eofLike Env.none ops).map Prod.snd = some outs) :
    ∃ st, runOps t ops SSt.init = .ok outs st := by
  cases h1 : specRunW t.nul t.eofLike Env.none ops with
  | none => rw [h1] at h; cases h
  | some r => rw [h1] at h; cases h; exact C146_programs h1

/-- C146.  `read` delivers all characters, also those that look like the end of the file; `unget` then fails if the last
one does, although it has stepped back, as the next `read` shows. -/
theorem C146_read_delivers_all (l : List V) (d : V) (m : Mode) (w : List V) (hw : w.length = l.length + 1) (c : V) :
    ∃ st, runOps t [.newArr 0 (l ++ [d]), .newStr 0 0 (l.length + 1), .newISs 0 0 m, .newArr 1 w,
      .read 0 1 0 (l.length + 1), .vals 1, .gcount 0, .rdstate 0,
      .unget 0, .rdstate 0, .clear 0 ⟨false, false, false⟩, .newArr 2 [c], .read 0 2 0 1, .vals 2] SSt.init =
      .ok [.unit, .unit, .unit, .unit, .unit, .vals (l ++ [d]), .nat (l.length + 1), .bits ⟨false, false, false⟩,
        .unit, .bits ⟨t.eofLike d, false, false⟩, .unit, .unit, .unit, .vals [d]] st := by
  refine C146_obs ?_
  have e0 : (l ++ [d]).take (l.length + 1) = l ++ [d] := List.take_of_length_le (by simp)
  have e1 : w.drop (l.length + 1) = [] := List.drop_eq_nil_of_le (by omega)
  have e2 : ((l ++ [d]).drop l.length) = [d] := by simp
  cases hd : t.eofLike d <;>
  simp [specRunW, specStepW, specStep, Env.none, put, fresh, readS, isGood, outcome, meets, blit, hw, ungetW, hd,
    cleared, e0, e1, e2]

/-- Numbers as characters; 9 looks like the end of the file. -/
def natW : Traits Nat := ⟨⟨0, fun a b => decide (a < b), false⟩, fun c => c == 9⟩

/-- C146.  C58's claim that `get` delivers all characters is not true of all types of characters: of 7, 9, 8 only 7 is
delivered, and the second `get` reports the end of the file. -/
theorem C146_get_delivers_refuted : ¬ ∀ (t : Traits Nat) (l : List Nat) (m : Mode) (c k : Nat),
    ∃ st, runOps t ([.newArr 0 l, .newStr 0 0 l.length, .newISs 0 0 m, .delStr 0, .newArr 1 [c]] ++ gets 0 1 k)
      SSt.init = .ok ([.unit, .unit, .unit, .unit, .unit] ++ getsOut c l k) st := by
  intro h
  obtain ⟨st, h1⟩ := h natW [7, 9, 8] ⟨false, false, false, false⟩ 0 2
  obtain ⟨st2, h2⟩ := C146_get_delivers_prefix (t := natW) [7, 9, 8] ⟨false, false, false, false⟩ 0 2
  rw [h1] at h2
  simp [natW, getsOut] at h2

/-- C146.  One such character in the middle: `get` stops there, after `clear` it goes on behind it. -/
example : ∃ st, runOps natW [.newArr 0 [7, 9, 8], .newStr 0 0 3, .newISs 0 0 ⟨false, false, false, false⟩,
    .newArr 1 [0], .get 0 1 0, .vals 1, .get 0 1 0, .rdstate 0, .get 0 1 0, .vals 1,
    .clear 0 ⟨false, false, false⟩, .get 0 1 0, .vals 1, .rdstate 0] SSt.init =
    .ok [.unit, .unit, .unit, .unit, .unit, .vals [7], .unit, .bits ⟨false, true, true⟩, .unit, .vals [7],
      .unit, .unit, .vals [8], .bits ⟨false, false, false⟩] st :=
  C146_obs (by decide)

/-- Stepping back over it fails, and the second step is refused until `clear`. -/
example : ∃ st, runOps natW [.newArr 0 [7, 9, 8], .newStr 0 0 3, .newISs 0 0 ⟨false, false, false, false⟩,
    .newArr 1 [0, 0], .read 0 1 0 2, .unget 0, .rdstate 0, .unget 0, .rdstate 0, .clear 0 ⟨false, false, false⟩,
    .read 0 1 0 2, .vals 1] SSt.init =
    .ok [.unit, .unit, .unit, .unit, .unit, .unit, .bits ⟨true, false, false⟩, .unit, .bits ⟨true, false, true⟩,
      .unit, .unit, .vals [9, 8]] st :=
  C146_obs (by decide)

/-- `str(s)` cuts a string with a terminator. -/
example : ∃ st, runOps natW [.newArr 0 [7, 0, 8], .newStr 0 0 3, .newISs 0 0 ⟨false, false, false, false⟩,
    .setStr 0 0, .newArr 1 [5, 5, 5], .read 0 1 0 3, .vals 1, .gcount 0] SSt.init =
    .ok [.unit, .unit, .unit, .unit, .unit, .unit, .vals [7, 5, 5], .nat 1] st :=
  C146_obs (by decide)

/-- The programs of C58 are programs here, too. -/
example : (specRunW 0 (fun _ => false) Env.none demoQ).map Prod.snd = (specRun 0 Env.none demoQ).map Prod.snd := by
  cases h : specRun 0 Env.none demoQ with
  | none => exact absurd h (by decide)
  | some r => rw [C146_narrow (fun _ => rfl) h]

end Cest.Stream.Props
