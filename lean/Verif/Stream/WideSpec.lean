import Verif.Stream.Spec
/-
What a user of cest's input streams sees if some characters look like the end of the file: their `to_int_type` is
`eof()`, as that of `wchar_t(-1)`, which is `WEOF`.  This file does not mention the model.
-/
namespace Cest.Stream
variable {V : Type} [DecidableEq V]

/-- `get`: a character that looks like the end of the file is skipped, and reported as the end of the file. -/
def getW (eofLike : V → Bool) (s : Strm V) : Strm V × Option V :=
  if isGood s.state then
    match s.content[s.pos]? with
    | some c =>
      if eofLike c then ({ s with pos := s.pos + 1, state := ⟨false, true, true⟩, count := 0 }, none)
      else ({ s with pos := s.pos + 1, count := 1 }, some c)
    | none => ({ s with state := ⟨false, true, true⟩, count := 0 }, none)
  else (refused s, none)

/-- `unget`: stepping back over a character that looks like the end of the file is reported as a failure. -/
def ungetW (eofLike : V → Bool) (s : Strm V) : Strm V :=
  let s1 := { s with state := ⟨s.state.bad, false, s.state.fail⟩, count := 0 }
  if meets s1.mask s1.state then s1
  else if isGood s1.state then
    if 0 < s1.pos then
      { s1 with pos := s1.pos - 1
                state := if (s1.content[s1.pos - 1]?).any eofLike then ⟨true, false, false⟩ else s1.state }
    else { s1 with state := ⟨true, false, false⟩ }
  else { s1 with state := ⟨s.state.bad, false, true⟩ }

/-- One statement.  Besides `get` and `unget`, `str(y)` differs from `specStep`: it is described for all strings. -/
def specStepW (nul : V) (eofLike : V → Bool) (e : Env V) : Op V → Option (Env V × Out V)
  | .get x a i => match e.strm x, e.arr a with
    | some s, some l => if i < l.length then
        let r := getW eofLike s
        some ({ e with strm := put e.strm x (some r.1),
                       arr := put e.arr a (some (blit l i r.2.toList)) }, outcome r.1 .unit)
        else none
    | _, _ => none
  | .unget x => match e.strm x with
    | some s => let s' := ungetW eofLike s
      some ({ e with strm := put e.strm x (some s') }, outcome s' .unit)
    | none => none
  | .setStr x y => match e.strm x, e.str y with
    | some s, some l => match s.opened with
      | some m => some ({ e with strm := put e.strm x (some
            { s with content := if m.inn then l.takeWhile (· ≠ nul) else [], pos := 0 }) }, .unit)
      | none => none
    | _, _ => none
  | op => specStep nul e op

/-- A whole program. -/
def specRunW (nul : V) (eofLike : V → Bool) (e : Env V) : List (Op V) → Option (Env V × List (Out V))
  | [] => some (e, [])
  | op :: ops => match specStepW nul eofLike e op with
    | none => none
    | some (e', o) => match specRunW nul eofLike e' ops with
      | none => none
      | some (e'', os) => some (e'', o :: os)

end Cest.Stream
