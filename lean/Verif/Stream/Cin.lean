import Verif.Stream.Props
/-
cest::cin (C116).

`iostream.hpp` defines `basic_stringbuf cin(string("cin"))` in namespace `impl` and `istream cin(&impl::cin)`;
`cstdio.hpp` defines `stdin` as `&cest::cin`.  The model has no standard input: none of the code below reads one.
-/
namespace Cest.Stream.Props
open Cest Cest.Stream
set_option linter.unusedSectionVars false
variable {V : Type} [DecidableEq V] {t : Traits V}

/-- Name of the stream object `cest::cin` (iostream.hpp:20); cstdio.hpp:16 `stdin` points to it. -/
def cinId : Nat := 0

/-- iostream.hpp:14, 20: static initialisation of `impl::cin` and `cest::cin`.  `lit` is the string literal
`"cin"` with its terminator; the temporary string is built from it (string.hpp:62-63), copied into the
stringbuf with the default mode `in | out` (sstream.hpp:47-52) and destroyed. -/
def startup (t : Traits V) (lit : List V) : SM V Unit := do
  lift (Str.ctorC t.toTraits tmpId (.ext lit 0))
  M.onThrow (ctorStr t cinId tmpId ⟨true, true, false, false⟩ false) (lift (Str.dtor tmpId))
  lift (Str.dtor tmpId)

/-- A program that includes iostream.hpp and then executes `ops`. -/
def runMain (t : Traits V) (lit : List V) (ops : List (Op V)) : SM V (List (Out V)) := do
  startup t lit
  runOps t ops

/-- What the program may rely on when the text `input` is on its standard input: `cin` is an open input
stream delivering `input`, nothing else is in scope. -/
def Env.withInput (input : List V) : Env V :=
  ⟨fun _ => none, fun _ => none, put (fun _ => none) cinId (some (fresh input ⟨true, true, false, false⟩ false))⟩

/-- The claim: for every program and every text on standard input, reading `cin` reads that text. -/
def C116_full_statement (t : Traits V) (lit : List V) : Prop :=
  ∀ (input : List V) (ops : List (Op V)) (e : Env V) (outs : List (Out V)),
    specRun t.nul (Env.withInput input) ops = some (e, outs) →
    ∃ st, runMain t lit ops SSt.init = .ok outs st

theorem startup_ok (lit name : List V) (hl : lit = name ++ [t.nul]) (hn : t.nul ∉ name) :
    ∃ σ st, startup t lit SSt.init = .ok () st ∧ Inv t σ st (Env.withInput name) := by
  have I := Inv.init (t := t)
  have htk : lit.takeWhile (fun c => decide (c ≠ t.nul)) = name := by
    have h := takeWhile_all (fun c => decide (c ≠ t.nul)) (l := name) (by
      intro a ha
      simp only [decide_eq_true_eq]
      exact fun h => hn (h ▸ ha))
    rw [hl, List.takeWhile_append, h]
    simp
  have hne : bufId cinId ≠ tmpId := by simp [bufId, tmpId]
  obtain ⟨s1, sv1, h1, h2, h3⟩ := Str.ctorC_spec I.world (x := tmpId) rfl (Str.Sees.ext _ lit 0) (by
    simp [hl])
  have hv : sv1.val = name := by
    rw [h3]
    simpa using htk
  obtain ⟨s2, o', sv', g1, g2, g3⟩ := ctorStr_ok (t := t) (x := cinId)
    (st := { (SSt.init : SSt V) with strs := s1 }) (σ := upd (fun _ => none) tmpId (some sv1)) (sv := sv1) h2
    (by simp [hne]) rfl (y := tmpId) (by simp) ⟨true, true, false, false⟩ false
  obtain ⟨s3, k1, k2⟩ := Str.dtor_spec g2 (x := tmpId) (s := sv1) (by simp [Ne.symm hne])
  have e : upd (upd (upd (fun _ => none) tmpId (some sv1)) (bufId cinId) (some sv')) tmpId none =
      upd (fun _ => (none : Option (Str.SV V))) (bufId cinId) (some sv') := by
    funext z
    simp only [upd_apply]
    by_cases hz : z = tmpId
    · subst hz; simp [Ne.symm hne]
    · simp [hz]
  rw [e] at k2
  refine ⟨upd (fun _ => none) (bufId cinId) (some sv'), { (SSt.init : SSt V) with strs := s3, ios := upd (SSt.init : SSt V).ios cinId (some o') }, ?_, ?_⟩
  · simp only [startup, M.bind_apply]
    rw [lift_ok h1]
    simp only []
    rw [M.onThrow_of_ok g1]
    simp only []
    rw [lift_ok (by exact k1)]
  · have R : Rep (upd (fun _ => none) (bufId cinId) (some sv')) cinId o'
        (fresh name ⟨true, true, false, false⟩ false) := by
      rw [← hv, ← e]
      exact g3.frame (by simp [hne])
    exact I.buf k2 R

/-- **C116 (what happens).** Whatever is on the standard input, every program observes exactly what it would
observe if the three characters of "cin" (more generally, the literal in iostream.hpp) were there. -/
theorem C116_cin_reads_its_name_partial (he : ∀ c, t.eofLike c = false) (name : List V) (hn : t.nul ∉ name)
    (ops : List (Op V)) (e : Env V) (outs : List (Out V))
    (h : specRun t.nul (Env.withInput name) ops = some (e, outs)) :
    ∃ st, runMain t (name ++ [t.nul]) ops SSt.init = .ok outs st := by
  obtain ⟨σ, st, h1, I⟩ := startup_ok (t := t) (name ++ [t.nul]) name rfl hn
  obtain ⟨_, st', h2, _⟩ := run_refines he I h
  exact ⟨st', by simp only [runMain, M.bind_apply]; rw [h1]; exact h2⟩

/-- The literal `"cin"` in ASCII. -/
def cinLit : List Nat := [99, 105, 110, 0]

example : ∃ st, runMain natT cinLit [.newArr 0 [1, 1, 1, 1, 1], .read 0 0 0 5, .gcount 0, .eof 0, .vals 0] SSt.init =
    .ok [.unit, .unit, .nat 3, .bool true, .vals [99, 105, 110, 1, 1]] st :=
  C116_cin_reads_its_name_partial (t := natT) (fun _ => rfl) [99, 105, 110] (by simp [natT]) _ _ _ rfl

/-- **C116 (violation).** Reading from `cest::cin` does not deliver the standard input. -/
theorem C116_cin_refuted : ¬ C116_full_statement natT cinLit := by
  intro h
  obtain ⟨st, h1⟩ := h [65] [.newArr 0 [1], .get 0 0 0, .vals 0] _ _ rfl
  obtain ⟨st', h2⟩ := C116_cin_reads_its_name_partial (t := natT) (fun _ => rfl) [99, 105, 110] (by simp [natT])
    [.newArr 0 [1], .get 0 0 0, .vals 0] _ _ rfl
  have hl : cinLit = [99, 105, 110] ++ [natT.nul] := rfl
  rw [hl] at h1
  rw [h1] at h2
  injection h2 with h3
  revert h3
  decide

end Cest.Stream.Props
