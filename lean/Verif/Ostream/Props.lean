import Verif.Ostream.Proofs
/-
Property theorems for the output side (properties C94-C100).
-/
namespace Cest.Ostream.Props
open Cest Cest.Ostream
open Cest.Stream (Bits)

variable {A : Type}

/-! A concrete world used by the examples: `cest::cout`, `cest::cerr`, `cest::clog` and one more stream, and
one block of characters. -/

def blkOf (l : List Char) : Blk Char := ⟨l.length, fun i => l[i]?⟩

def demo (l : List Char) (ce : Bool) : W :=
  { st := { objs := fun x => if x < 4 then some ⟨true, ⟨false, false, false⟩, ⟨false, false, false⟩⟩ else none
            mem := upd (fun _ => none) 0 (some (blkOf l)), next := 1, thr := none }
    out := fun _ => Std.fresh, ce := ce }

theorem demo_ready (l ce) : Ready (demo l ce) := by
  refine ⟨rfl, fun a ha => ?_⟩
  have : a ≠ 0 := by simp [demo] at ha; omega
  simp [demo, this]

theorem demo_cstr (l : List Char) (ce) (h : '\x00' ∉ l) :
    CStr (demo (l ++ ['\x00']) ce).st.mem (some (0, 0)) l := by
  refine ⟨0, 0, blkOf (l ++ ['\x00']), rfl, by simp [demo], by simp [blkOf], ?_, by simp [blkOf], h⟩
  intro j hj; simp [blkOf, List.getElem?_append, hj]

/-! ### C94 routing and order -/

/-- C94. At run time, any sequence of insertions and printf calls gives each of the three standard streams
exactly the insertions addressed to the corresponding cest stream, in order; storage, stream objects and
the other streams are unaffected. -/
theorem C94_sequence {fmt : Fmt A} {cs : List (Call A)} {ms : List (Nat × (Std → Std))} {w : W}
    (hce : w.ce = false) (hr : Ready w) (hm : List.Forall₂ (Means fmt w.st.mem) cs ms)
    (ho : ∀ m ∈ ms, ∃ o, w.st.objs m.1 = some o) :
    ∃ w', execAll fmt cs w = .ok () w' ∧ w'.st.mem = w.st.mem ∧ w'.st.objs = w.st.objs ∧
      w'.out 0 = expected 0 ms (w.out 0) ∧ w'.out 1 = expected 1 ms (w.out 1) ∧
      w'.out 2 = expected 2 ms (w.out 2) := by
  obtain ⟨w', h, hs, hk⟩ := execAll_ok hce hr hm ho
  exact ⟨w', h, hs.mem, hs.objs, hk 0 (by decide), hk 1 (by decide), hk 2 (by decide)⟩

/-- `cout << 42 << 'x'; cerr << "ab"; other << 7; printf(fmt, …); clog << endl;` -/
example (fmt : Fmt Unit) (hf : fmt ['a', 'b'] [()] = some ['!']) :
    ∃ w', execAll fmt [.put 0 (.int 42), .put 0 (.chr 'x'), .put 1 (.cstr (some (0, 0))), .put 3 (.int 7),
        .printf (some (0, 0)) [()], .put 2 .endl, .fprintf 1 (some (0, 0)) [()]]
        (demo ['a', 'b', '\x00'] false) = .ok () w' ∧
      (w'.out 0).text = ['4', '2', 'x', '!'] ∧ (w'.out 1).text = ['a', 'b', '!'] ∧
      (w'.out 2).text = ['\n'] := by
  have hc := demo_cstr ['a', 'b'] false (by decide)
  obtain ⟨w', h, _, _, h0, h1, h2⟩ := C94_sequence (fmt := fmt) (w := demo ['a', 'b', '\x00'] false) rfl
    (demo_ready _ _)
    (.cons (.int 0 42) (.cons (.chr 0 'x') (.cons (.cstr 1 _ _ hc) (.cons (.int 3 7)
      (.cons (.printf _ _ _ _ hc hf) (.cons (.endl 2) (.cons (.fprintf 1 _ _ _ _ hc hf (by decide)) .nil)))))))
    (by
      intro m hm
      refine ⟨⟨true, ⟨false, false, false⟩, ⟨false, false, false⟩⟩, ?_⟩
      simp at hm
      rcases hm with rfl | rfl | rfl | rfl | rfl | rfl | rfl <;> simp [demo])
  refine ⟨w', h, ?_, ?_, ?_⟩
  · rw [h0]; decide +kernel
  · rw [h1]; decide +kernel
  · rw [h2]; decide +kernel

/-- C94. Insertions into a stream other than the three cause no output at all. -/
theorem C94_other_stream {fmt : Fmt A} {c : Call A} {m : Nat × (Std → Std)} {w : W} (hce : w.ce = false)
    (hr : Ready w) (hm : Means fmt w.st.mem c m) (ho : ∃ o, w.st.objs m.1 = some o) (hx : 3 ≤ m.1) :
    ∃ w', c.exec fmt w = .ok () w' ∧ w'.out = w.out := by
  obtain ⟨w', h, _, hout⟩ := exec_ok hce hr hm ho
  exact ⟨w', h, by rw [hout, routed, if_neg (by omega)]⟩

example : ∃ w', Call.exec (A := Unit) (fun _ _ => none) (.put 3 (.int 7)) (demo [] false) = .ok () w' ∧
    w'.out = (demo [] false).out :=
  C94_other_stream rfl (demo_ready _ _) (.int 3 7) ⟨_, rfl⟩ (by decide)

/-- C94. During constant evaluation every output call, whatever its arguments, leaves the whole state
unchanged. -/
theorem C94_constant_evaluation (fmt : Fmt A) (cs : List (Call A)) (w : W) (hce : w.ce = true)
    (ho : ∀ c ∈ cs, ∃ o, w.st.objs c.target = some o) : execAll fmt cs w = .ok () w := by
  have h0 : constEval w = .ok true w := by simp [constEval, hce]
  induction cs with
  | nil => rfl
  | cons c cs ih =>
    have ih := ih (fun c hc => ho c (by simp [hc]))
    obtain ⟨o, hob⟩ := ho c (by simp)
    have h1 : c.exec fmt w = .ok () w := by
      cases c with
      | put x a =>
        cases a <;>
          simp only [Call.exec, putInt, putUint, putChar, putCstr, putStr, putEndl, M.bind_apply,
            getOs_ok (x := x) hob, runtimeOstream_ce hce]
      | printf0 p => simp [Call.exec, Ostream.printf0, h0]
      | printf p xs => simp [Call.exec, Ostream.printf, h0]
      | fprintf0 x p => simp [Call.exec, Ostream.fprintf0, h0]
      | fprintf x p xs => simp [Call.exec, Ostream.fprintf, h0]
    simp only [execAll, M.bind_apply, h1, ih]

example : execAll (A := Unit) (fun _ _ => none) [.put 0 (.cstr none), .printf none [()], .put 3 .endl]
    (demo [] true) = .ok () (demo [] true) :=
  C94_constant_evaluation _ _ _ rfl (by
    intro c hc; simp at hc; rcases hc with rfl | rfl | rfl <;> exact ⟨_, rfl⟩)

/-! ### C95 manipulators -/

/-- C95 is violated: `cest::cout << cest::hex << 255` prints `255`; the standard stream prints `ff`. -/
theorem C95_hex_refuted : ∃ w w' : W, w.ce = false ∧ w.st.objs 0 ≠ none ∧ (w.out 0) = Std.fresh ∧
    (do putManip 0 .hex; putInt 0 255 : OM Unit) w = .ok () w' ∧
    (w'.out 0).text = ['2', '5', '5'] ∧
    (Std.int 255 (Std.setBase .hex Std.fresh)).text = ['f', 'f'] := by
  refine ⟨demo [] false, { demo [] false with out := routed 0 (Std.int 255) (demo [] false).out }, rfl,
    by simp [demo], rfl, ?_, by decide +kernel, by decide +kernel⟩
  have ho : (demo [] false).st.objs 0 = some ⟨true, ⟨false, false, false⟩, ⟨false, false, false⟩⟩ := rfl
  simp only [putManip, manip, putInt, M.bind_apply, getOs_ok ho, M.pure_apply]
  exact runtimeOstream_ok rfl rfl

/-- C95, the part that holds: a manipulator does nothing at all, so it agrees with the standard one exactly
when the standard stream already has that base. -/
theorem C95_manip_partial (w : W) (x : Nat) (b : Base) (o : OS) (ho : w.st.objs x = some o) :
    putManip x b w = .ok () w ∧ ((w.out x).base = b ↔ Std.setBase b (w.out x) = w.out x) := by
  constructor
  · simp [putManip, manip, getOs_ok ho]
  · constructor
    · rintro rfl; rfl
    · intro h; rw [← h]; rfl

example : putManip 1 .dec (demo [] false) = .ok () (demo [] false) ∧
    Std.setBase .dec ((demo [] false).out 1) = (demo [] false).out 1 :=
  have h := C95_manip_partial (demo [] false) 1 .dec ⟨true, ⟨false, false, false⟩, ⟨false, false, false⟩⟩ rfl
  ⟨h.1, h.2.1 rfl⟩

/-! ### C96 failed streams -/

/-- C96 is violated: after `cest::cout.setstate(failbit)` an insertion still produces output; a standard
stream in that state accepts nothing. -/
theorem C96_failed_refuted : ∃ w w' : W, w.ce = false ∧ w.out 0 = Std.fresh ∧
    (do setstate 0 ⟨false, false, true⟩; putChar 0 'x' : OM Unit) w = .ok () w' ∧
    (∃ o, w'.st.objs 0 = some o ∧ o.state.fail = true) ∧ (w'.out 0).text = ['x'] ∧
    (Std.puts ['x'] (Std.setFail Std.fresh)).text = [] := by
  let w1 : W := { demo [] false with st := { (demo [] false).st with
    objs := upd (demo [] false).st.objs 0 (some ⟨true, ⟨false, false, true⟩, ⟨false, false, false⟩⟩) } }
  have h1 : setstate 0 ⟨false, false, true⟩ (demo [] false) = .ok () w1 := by
    have ho : (demo [] false).st.objs 0 = some ⟨true, ⟨false, false, false⟩, ⟨false, false, false⟩⟩ := rfl
    have hs : lift (setObj 0 ⟨true, ⟨false, false, true⟩, ⟨false, false, false⟩⟩) (demo [] false) = .ok () w1 :=
      lift_ok (setObj_some ho)
    simp only [setstate, clear, M.bind_apply, getOs_ok ho]
    simp [hs]
  have ho : w1.st.objs 0 = some ⟨true, ⟨false, false, true⟩, ⟨false, false, false⟩⟩ := by simp [w1]
  refine ⟨demo [] false, { w1 with out := routed 0 (Std.puts ['x']) w1.out }, rfl, rfl, ?_, ⟨_, ho, rfl⟩,
    by decide +kernel, by decide +kernel⟩
  simp only [M.bind_apply, h1, putChar, getOs_ok ho]
  exact runtimeOstream_ok rfl rfl

/-- C96, the part that holds: whatever the state of the cest stream, an insertion is accepted exactly as the
standard stream accepts it (so as it should be while both are good), and no insertion changes the stream's
own state. -/
theorem C96_good_partial (fmt : Fmt A) (w : W) (c : Call A) (m : Nat × (Std → Std)) (o : OS)
    (hce : w.ce = false) (hr : Ready w) (hm : Means fmt w.st.mem c m) (ho : w.st.objs m.1 = some o)
    (hx : m.1 < 3) :
    ∃ w', c.exec fmt w = .ok () w' ∧ w'.out m.1 = m.2 (w.out m.1) ∧ w'.st.objs = w.st.objs := by
  obtain ⟨w', h, hs, hout⟩ := exec_ok hce hr hm ⟨o, ho⟩
  exact ⟨w', h, by rw [hout, routed, if_pos hx]; simp, hs.objs⟩

example : ∃ w', Call.exec (A := Unit) (fun _ _ => none) (.put 2 (.chr 'q')) (demo [] false) = .ok () w' ∧
    w'.out 2 = Std.puts ['q'] Std.fresh ∧ w'.st.objs = (demo [] false).st.objs :=
  C96_good_partial _ _ _ (2, Std.puts ['q']) _ rfl (demo_ready _ _) (.chr 2 'q') rfl (by decide)

/-- C96. `setstate` adds bits, `clear` replaces the state (badbit stays when there is no buffer), nothing else
changes; `ios_failure` is thrown exactly when the new state meets the exception mask. -/
theorem C96_setstate_clear (w : W) (x : Nat) (o : OS) (ho : w.st.objs x = some o) (b : Bits) :
    let put (st : Bits) : W := { w with st := { w.st with objs := upd w.st.objs x (some { o with state := st }) } }
    let fin (st : Bits) : Res W Unit :=
      if (o.exc.bad && st.bad) || (o.exc.eof && st.eof) || (o.exc.fail && st.fail)
      then .throw .iosFailure (put st) else .ok () (put st)
    clear x b w = fin ⟨b.bad || !o.rdbuf, b.eof, b.fail⟩ ∧
    setstate x b w = fin ⟨(o.state.bad || b.bad) || !o.rdbuf, o.state.eof || b.eof, o.state.fail || b.fail⟩ := by
  have h : ∀ b : Bits, clear x b w =
      (if (o.exc.bad && (b.bad || !o.rdbuf)) || (o.exc.eof && b.eof) || (o.exc.fail && b.fail)
      then .throw .iosFailure { w with st := { w.st with
        objs := upd w.st.objs x (some { o with state := ⟨b.bad || !o.rdbuf, b.eof, b.fail⟩ }) } }
      else .ok () { w with st := { w.st with
        objs := upd w.st.objs x (some { o with state := ⟨b.bad || !o.rdbuf, b.eof, b.fail⟩ }) } }) := by
    intro b
    have e : (if o.rdbuf then b else ⟨true, b.eof, b.fail⟩ : Bits) = ⟨b.bad || !o.rdbuf, b.eof, b.fail⟩ := by
      cases o.rdbuf <;> simp
    have hs : lift (setObj x { o with state := ⟨b.bad || !o.rdbuf, b.eof, b.fail⟩ }) w = .ok () { w with st :=
        { w.st with objs := upd w.st.objs x (some { o with state := ⟨b.bad || !o.rdbuf, b.eof, b.fail⟩ }) } } :=
      lift_ok (setObj_some ho)
    simp only [clear, M.bind_apply, getOs_ok ho, e, hs]
    split <;> simp
  refine ⟨h b, ?_⟩
  simp only [setstate, M.bind_apply, getOs_ok ho]
  exact h _

/-- C96. `exceptions(mask)` replaces the mask and examines the state the stream already has: it throws exactly
when that state meets the new mask, and nothing but the mask (and badbit, when there is no buffer) changes. -/
theorem C96_exceptions (w : W) (x : Nat) (o : OS) (ho : w.st.objs x = some o) (e : Bits) :
    let b : Bits := ⟨o.state.bad || !o.rdbuf, o.state.eof, o.state.fail⟩
    let w' : W := { w with st := { w.st with objs := upd w.st.objs x (some ⟨o.rdbuf, b, e⟩) } }
    exceptions x e w =
      if (e.bad && b.bad) || (e.eof && b.eof) || (e.fail && b.fail) then .throw .iosFailure w' else .ok () w' := by
  have hs : lift (setObj x { o with exc := e }) w = .ok () { w with st :=
      { w.st with objs := upd w.st.objs x (some { o with exc := e }) } } := lift_ok (setObj_some ho)
  have h := (C96_setstate_clear { w with st := { w.st with objs := upd w.st.objs x (some { o with exc := e }) } } x
    { o with exc := e } (by simp) o.state).1
  have hu : upd (upd w.st.objs x (some { o with exc := e })) x
      (some ⟨o.rdbuf, ⟨o.state.bad || !o.rdbuf, o.state.eof, o.state.fail⟩, e⟩) =
      upd w.st.objs x (some ⟨o.rdbuf, ⟨o.state.bad || !o.rdbuf, o.state.eof, o.state.fail⟩, e⟩) := by
    funext z; by_cases hz : z = x <;> simp [upd, hz]
  simp only [exceptions, M.bind_apply, getOs_ok ho, hs, h, hu]

/-- A stream that has failed throws as soon as its mask asks for it; a good one does not. -/
example : ∃ w w', setstate 0 ⟨false, false, true⟩ (demo [] false) = .ok () w ∧
    exceptions 0 ⟨true, false, true⟩ w = .throw .iosFailure w' := by
  have h1 := (C96_setstate_clear (demo [] false) 0 _ rfl ⟨false, false, true⟩).2
  exact ⟨_, _, h1, C96_exceptions _ 0 ⟨true, ⟨false, false, true⟩, ⟨false, false, false⟩⟩ rfl ⟨true, false, true⟩⟩
example : ∃ w', exceptions 0 ⟨true, false, true⟩ (demo [] false) = .ok () w' :=
  ⟨_, C96_exceptions _ 0 ⟨true, ⟨false, false, false⟩, ⟨false, false, false⟩⟩ rfl ⟨true, false, true⟩⟩

example : ∃ w', (do setstate 0 ⟨false, true, false⟩; setstate 0 ⟨false, false, true⟩ : OM Unit)
    (demo [] false) = .ok () w' ∧ (w'.st.objs 0).map (·.state) = some ⟨false, true, true⟩ := by
  have h1 := (C96_setstate_clear (demo [] false) 0 _ rfl ⟨false, true, false⟩).2
  refine ⟨?w, ?_, ?_⟩
  case w => exact { demo [] false with st := { (demo [] false).st with
    objs := upd (upd (demo [] false).st.objs 0 (some ⟨true, ⟨false, true, false⟩, ⟨false, false, false⟩⟩)) 0
      (some ⟨true, ⟨false, true, true⟩, ⟨false, false, false⟩⟩) } }
  · refine (M.bind_of_ok h1).trans ?_
    exact (C96_setstate_clear _ 0 ⟨true, ⟨false, true, false⟩, ⟨false, false, false⟩⟩ rfl ⟨false, false, true⟩).2
  · rfl

/-! ### C97 strings -/

/-- C97. What inserting a string prints, for every string: its characters up to the first terminator. -/
theorem C97_string_output (w : W) (x : Nat) (o : OS) (l : List Char) (hce : w.ce = false)
    (ho : w.st.objs x = some o) (hx : x < 3) :
    ∃ w', putStr x l w = .ok () w' ∧ w'.st = w.st ∧
      w'.out x = Std.puts (l.takeWhile (· ≠ '\x00')) (w.out x) ∧ ∀ k ≠ x, w'.out k = w.out k := by
  refine ⟨{ w with out := routed x (Std.puts (l.takeWhile (· ≠ '\x00'))) w.out }, ?_, rfl, ?_, ?_⟩
  · simp only [putStr, M.bind_apply, getOs_ok ho]
    refine runtimeOstream_ok hce ?_
    simp only [M.bind_apply, scan_str]; rfl
  · simp [routed, hx]
  · intro k hk; simp [routed, hx, hk]

example : ∃ w', putStr 0 ['a', '\x00', 'b'] (demo [] false) = .ok () w' ∧ w'.out 0 = Std.puts ['a'] Std.fresh := by
  obtain ⟨w', h, _, h2, _⟩ := C97_string_output (demo [] false) 0 _ ['a', '\x00', 'b'] rfl rfl (by decide)
  exact ⟨w', h, by rw [h2]; decide +kernel⟩

/-- C97 is violated for strings containing a terminator. -/
theorem C97_embedded_terminator_refuted : ¬ ∀ (w : W) (o : OS) (l : List Char), w.ce = false →
    w.st.objs 0 = some o → ∃ w', putStr 0 l w = .ok () w' ∧ w'.out 0 = Std.puts l (w.out 0) := by
  intro h
  obtain ⟨w', h1, h2⟩ := h (demo [] false) _ ['a', '\x00', 'b'] rfl rfl
  obtain ⟨w'', h3, _, h4, _⟩ := C97_string_output (demo [] false) 0 _ ['a', '\x00', 'b'] rfl rfl (by decide)
  rw [h1] at h3; cases h3
  rw [h2] at h4
  revert h4; decide +kernel

/-- C97 for strings without a terminator: all characters are printed. -/
theorem C97_string_partial (w : W) (x : Nat) (o : OS) (l : List Char) (hce : w.ce = false)
    (ho : w.st.objs x = some o) (hx : x < 3) (hl : '\x00' ∉ l) :
    ∃ w', putStr x l w = .ok () w' ∧ w'.st = w.st ∧ w'.out x = Std.puts l (w.out x) := by
  obtain ⟨w', h1, h2, h3, _⟩ := C97_string_output w x o l hce ho hx
  exact ⟨w', h1, h2, by rw [h3, takeWhile_all hl]⟩

example : ∃ w', putStr 1 ['h', 'i'] (demo [] false) = .ok () w' ∧ w'.st = (demo [] false).st ∧
    w'.out 1 = Std.puts ['h', 'i'] Std.fresh :=
  C97_string_partial (demo [] false) 1 _ _ rfl rfl (by decide) (by decide)

/-! ### C98 flush -/

/-- C98 is violated: `cest::cout << 'x'; cest::cout.flush();` leaves the character unflushed. -/
theorem C98_flush_refuted : ∃ w w' : W, w.ce = false ∧ w.out 0 = Std.fresh ∧
    (do putChar 0 'x'; flush 0 : OM Unit) w = .ok () w' ∧ (w'.out 0).text = ['x'] ∧
    (w'.out 0).flushed = 0 ∧ (Std.flush (Std.puts ['x'] Std.fresh)).flushed = 1 := by
  refine ⟨demo [] false, { demo [] false with out := routed 0 (Std.puts ['x']) (demo [] false).out }, rfl, rfl,
    ?_, by decide +kernel, by decide +kernel, by decide +kernel⟩
  have ho : (demo [] false).st.objs 0 = some ⟨true, ⟨false, false, false⟩, ⟨false, false, false⟩⟩ := rfl
  have h1 : putChar 0 'x' (demo [] false) =
      .ok () { demo [] false with out := routed 0 (Std.puts ['x']) (demo [] false).out } := by
    simp only [putChar, M.bind_apply, getOs_ok ho]; exact runtimeOstream_ok rfl rfl
  simp only [M.bind_apply, h1]
  have ho' : ({ demo [] false with out := routed 0 (Std.puts ['x']) (demo [] false).out } : W).st.objs 0 =
    some ⟨true, ⟨false, false, false⟩, ⟨false, false, false⟩⟩ := rfl
  simp [flush, pubsync, sync, getOs_ok ho']

/-- C98, the part that holds: `flush()` on any live stream, with or without buffer and whatever its state
and exception mask, never fails and changes nothing; `endl` does flush, leaving every character written so
far flushed. -/
theorem C98_flush_partial (w : W) (x : Nat) (o : OS) (ho : w.st.objs x = some o) :
    flush x w = .ok () w ∧
    (w.ce = false → x < 3 → (w.out x).good = true →
      ∃ w', putEndl x w = .ok () w' ∧ (w'.out x).text = (w.out x).text ++ ['\n'] ∧
        (w'.out x).flushed = (w'.out x).text.length) := by
  constructor
  · by_cases hb : o.rdbuf = true
    · simp [flush, getOs_ok ho, hb, pubsync, sync]
    · simp [flush, getOs_ok ho, hb]
  · intro hce hx hg
    refine ⟨{ w with out := routed x Std.endl w.out }, ?_, ?_, ?_⟩
    · simp only [putEndl, M.bind_apply, getOs_ok ho]; exact runtimeOstream_ok hce rfl
    · simp [routed, hx, Std.endl, Std.puts, Std.flush, hg]
    · simp [routed, hx, Std.endl, Std.puts, Std.flush, hg]

example : ∃ w', putEndl 2 (demo [] false) = .ok () w' ∧ (w'.out 2).text = ['\n'] ∧
    (w'.out 2).flushed = (w'.out 2).text.length :=
  (C98_flush_partial (demo [] false) 2 _ rfl).2 rfl (by decide) rfl

/-! ### C99 printf -/

/-- C99. `printf` with arguments: at run time it prints the conversion and returns its length; a failed
conversion returns a negative number and prints nothing; in constant evaluation it returns 0. -/
theorem C99_printf (fmt : Fmt A) (w : W) (p : CP) (l : List Char) (xs : List A) (hp : CStr w.st.mem p l) :
    (w.ce = false → ∀ t, fmt l xs = some t →
      printf fmt p xs w = .ok t.length { w with out := upd w.out 0 (Std.puts t (w.out 0)) }) ∧
    (w.ce = false → fmt l xs = none → ∃ r, printf fmt p xs w = .ok r w ∧ r < 0) ∧
    (w.ce = true → printf fmt p xs w = .ok 0 w) := by
  refine ⟨fun hce t ht => ?_, fun hce ht => ⟨-1, ?_, by decide⟩, fun hce => ?_⟩
  · simp [printf, constEval, hce, cString_ok hp, ht, stdPrintf, std]
  · simp [printf, constEval, hce, cString_ok hp, ht, stdPrintf]
  · simp [printf, constEval, hce]

example (fmt : Fmt Nat) (hf : fmt ['%', 'd'] [5] = some ['5']) :
    printf fmt (some (0, 0)) [5] (demo ['%', 'd', '\x00'] false) =
      .ok 1 { demo ['%', 'd', '\x00'] false with
        out := upd (demo ['%', 'd', '\x00'] false).out 0 (Std.puts ['5'] Std.fresh) } :=
  (C99_printf fmt _ _ _ _ (demo_cstr ['%', 'd'] false (by decide))).1 rfl _ hf

/-- C99 without arguments, the part that holds: a format without `%` is printed and its length returned, as
the C function would (`unescape` gives the text the C function prints). -/
theorem C99_noargs_partial (w : W) (p : CP) (l : List Char) (hp : CStr w.st.mem p l) (hce : w.ce = false)
    (hl : '%' ∉ l) : unescape l = some l ∧
    printf0 p w = .ok l.length { w with out := upd w.out 0 (Std.puts l (w.out 0)) } := by
  constructor
  · clear hp
    induction l with
    | nil => rfl
    | cons c l ih =>
      have hc : c ≠ '%' := fun e => hl (by simp [e])
      unfold unescape
      split
      · simp_all
      · simp_all
      · simp_all
      · simp_all
  · simp [printf0, constEval, hce, cString_ok hp, stdPrintf, std]

example : unescape ['o', 'k'] = some ['o', 'k'] ∧ printf0 (some (0, 0)) (demo ['o', 'k', '\x00'] false) =
    .ok 2 { demo ['o', 'k', '\x00'] false with
      out := upd (demo ['o', 'k', '\x00'] false).out 0 (Std.puts ['o', 'k'] Std.fresh) } :=
  C99_noargs_partial _ _ _ (demo_cstr ['o', 'k'] false (by decide)) rfl (by decide)

/-- C99 is violated by `printf("5%%")`: two percent signs are printed and 3 is returned; C's `printf` prints
`5%`. -/
theorem C99_percent_refuted : ∃ (w w' : W) (p : CP), CStr w.st.mem p ['5', '%', '%'] ∧ w.ce = false ∧
    w.out 0 = Std.fresh ∧ unescape ['5', '%', '%'] = some ['5', '%'] ∧
    printf0 p w = .ok 3 w' ∧ (w'.out 0).text = ['5', '%', '%'] := by
  have hp := demo_cstr ['5', '%', '%'] false (by decide)
  refine ⟨demo ['5', '%', '%', '\x00'] false, ?w, some (0, 0), hp, rfl, rfl, by decide +kernel, ?_, ?_⟩
  · exact { demo ['5', '%', '%', '\x00'] false with
      out := upd (demo ['5', '%', '%', '\x00'] false).out 0 (Std.puts ['5', '%', '%'] Std.fresh) }
  · have h0 : constEval (demo ['5', '%', '%', '\x00'] false) =
      .ok false (demo ['5', '%', '%', '\x00'] false) := rfl
    simp only [printf0, M.bind_apply, h0, Bool.not_false, if_true]
    rfl
  · decide +kernel

/-! ### C100 fprintf -/

/-- C100, the part that holds: when the conversion succeeds and contains no terminator, `fprintf` with
arguments sends it to the named stream, returns its length, and leaves no storage behind. -/
theorem C100_fprintf_partial (fmt : Fmt A) (w : W) (x : Nat) (o : OS) (p : CP) (l t : List Char)
    (xs : List A) (hce : w.ce = false) (hr : Ready w) (ho : w.st.objs x = some o) (hp : CStr w.st.mem p l)
    (hf : fmt l xs = some t) (ht : '\x00' ∉ t) :
    ∃ w', fprintf fmt (some x) p xs w = .ok t.length w' ∧ w'.st.mem = w.st.mem ∧
      w'.st.objs = w.st.objs ∧ (x < 3 → w'.out x = Std.puts t (w.out x)) ∧ ∀ k ≠ x, w'.out k = w.out k := by
  refine ⟨_, fprintf_ok hce hr ho hp hf ht, rfl, rfl, ?_, ?_⟩
  · intro hx; simp [routed, hx]
  · intro k hk; unfold routed; split <;> simp [hk]

example (fmt : Fmt Nat) (hf : fmt ['%', 'd'] [5] = some ['5']) :
    ∃ w', fprintf fmt stderrPtr (some (0, 0)) [5] (demo ['%', 'd', '\x00'] false) = .ok 1 w' ∧
      w'.st.mem = (demo ['%', 'd', '\x00'] false).st.mem ∧ w'.out 1 = Std.puts ['5'] Std.fresh := by
  obtain ⟨w', h1, h2, _, h3, _⟩ := C100_fprintf_partial fmt (demo ['%', 'd', '\x00'] false) 1 _ (some (0, 0))
    ['%', 'd'] ['5'] [5] rfl (demo_ready _ _) rfl (demo_cstr ['%', 'd'] false (by decide)) hf (by decide)
  exact ⟨w', h1, h2, h3 (by decide)⟩

/-- C100. `fprintf(stdout, …)` and `fprintf(stderr, …)` write to standard output and standard error and to nothing
else (same conditions). -/
theorem C100_stdout_stderr_partial (fmt : Fmt A) (w : W) (o : OS) (p : CP) (l t : List Char)
    (xs : List A) (hce : w.ce = false) (hr : Ready w) (ho : ∀ x < 3, w.st.objs x = some o) (hp : CStr w.st.mem p l)
    (hf : fmt l xs = some t) (ht : '\x00' ∉ t) :
    (∃ w', fprintf fmt stdoutPtr p xs w = .ok t.length w' ∧ w'.out = upd w.out 0 (Std.puts t (w.out 0))) ∧
    (∃ w', fprintf fmt stderrPtr p xs w = .ok t.length w' ∧ w'.out = upd w.out 1 (Std.puts t (w.out 1))) :=
  ⟨⟨_, fprintf_ok hce hr (ho 0 (by decide)) hp hf ht, rfl⟩, ⟨_, fprintf_ok hce hr (ho 1 (by decide)) hp hf ht, rfl⟩⟩

/-- C100. If the allocation of the buffer fails, the exception leaves everything as it was. -/
theorem C100_alloc_failure (fmt : Fmt A) (w : W) (stream : Option Nat) (p : CP) (l : List Char)
    (xs : List A) (hce : w.ce = false) (hthr : w.st.thr = some 0) (hp : CStr w.st.mem p l) :
    fprintf fmt stream p xs w = .throw .badAlloc { w with st := { w.st with thr := none } } := by
  have h0 : constEval w = .ok false w := by simp [constEval, hce]
  have h1 : ∃ n, snprintf fmt none 0 p xs w = .ok n w := by
    cases hf : fmt l xs with
    | none => exact ⟨-1, by simp [snprintf, cString_ok hp, hf]⟩
    | some t => exact ⟨t.length, by simp [snprintf, cString_ok hp, hf]⟩
  obtain ⟨n, h1⟩ := h1
  have h2 : lift (allocArr (n + 1).toNat) w = .throw .badAlloc { w with st := { w.st with thr := none } } := by
    simp [lift, allocArr, allocC, tick, hthr]
  simp only [fprintf, M.bind_apply, h0, Bool.not_false, if_true, h1, h2]

example : fprintf (A := Nat) (fun _ _ => some ['z']) stdoutPtr (some (0, 0)) [1]
    { demo ['%', 'd', '\x00'] false with st := { (demo ['%', 'd', '\x00'] false).st with thr := some 0 } } =
    .throw .badAlloc { demo ['%', 'd', '\x00'] false with
      st := { (demo ['%', 'd', '\x00'] false).st with thr := none } } :=
  C100_alloc_failure _ _ _ _ ['%', 'd'] _ rfl rfl (demo_cstr ['%', 'd'] false (by decide))

/-- C100 is violated for conversions that contain a terminator, such as `fprintf(stdout, "%c", 0)`: the
reported count exceeds the number of characters written. -/
theorem C100_terminator_refuted (fmt : Fmt Nat) (hf : fmt ['%', 'c'] [0] = some ['\x00']) :
    ∃ (w w' : W) (p : CP), CStr w.st.mem p ['%', 'c'] ∧ Ready w ∧ w.ce = false ∧ w.out 0 = Std.fresh ∧
      fprintf fmt stdoutPtr p [0] w = .ok 1 w' ∧ (w'.out 0).text = [] := by
  let w0 := demo ['%', 'c', '\x00'] false
  have hp : CStr w0.st.mem (some (0, 0)) ['%', 'c'] := demo_cstr ['%', 'c'] false (by decide)
  have h0 : constEval w0 = .ok false w0 := rfl
  have h1 : snprintf fmt none 0 (some (0, 0)) [0] w0 = .ok (1 : Int) w0 := by
    simp only [snprintf, M.bind_apply, cString_ok hp, hf]; rfl
  let w1 : W := { w0 with st := { w0.st with mem := upd w0.st.mem 1 (some ⟨2, fun _ => none⟩), next := 2 } }
  have h2 : lift (allocArr (((1 : Int) + 1).toNat)) w0 = .ok 1 w1 := rfl
  have hp1 : CStr w1.st.mem (some (0, 0)) ['%', 'c'] := by
    obtain ⟨a, i, b, e, hb, hrest⟩ := hp
    cases e
    exact ⟨0, 0, b, rfl, by simpa [w1, w0] using hb, hrest⟩
  let t : List Char := ['\x00', '\x00']
  let b2 : Blk Char := ⟨2, fun i => if i < t.length then t[i]? else none⟩
  let w2 : W := { w1 with st := { w1.st with mem := upd w1.st.mem 1 (some b2) } }
  have h3 : snprintf fmt (some 1) (((1 : Int) + 1).toNat) (some (0, 0)) [0] w1 = .ok (1 : Int) w2 := by
    simp only [snprintf, M.bind_apply, cString_ok hp1, hf]; rfl
  have h4 : putCstr 0 (some (1, 0)) w2 = .ok () { w2 with out := routed 0 (Std.puts []) w2.out } := by
    refine putCstr_ok (o := ⟨true, ⟨false, false, false⟩, ⟨false, false, false⟩⟩) rfl rfl ?_
    exact ⟨1, 0, b2, rfl, rfl, by decide, by simp, rfl, by simp⟩
  let w3 : W := { w2 with out := routed 0 (Std.puts []) w2.out }
  have h5 : lift (freeC 1) w3 = .ok () { w3 with st := { w3.st with mem := upd w3.st.mem 1 none } } := rfl
  refine ⟨w0, ?w, some (0, 0), hp, demo_ready _ _, rfl, rfl, ?_, ?_⟩
  · exact { w3 with st := { w3.st with mem := upd w3.st.mem 1 none } }
  · unfold fprintf
    refine (M.bind_of_ok h0).trans ?_
    refine (congrFun (if_pos rfl) _).trans ?_
    refine (M.bind_of_ok h1).trans ?_
    refine (M.bind_of_ok h2).trans ?_
    refine (M.bind_of_ok h3).trans ?_
    refine (M.bind_of_ok (show deref stdoutPtr w2 = .ok 0 w2 from rfl)).trans ?_
    refine (M.bind_of_ok h4).trans ?_
    exact (M.bind_of_ok h5).trans rfl
  · rfl

/-- C100 is violated when the conversion fails: the empty buffer is read as a C string, which is undefined
behaviour, where C's function returns a negative number. -/
theorem C100_error_refuted (fmt : Fmt Nat) (hf : fmt ['%', 'd'] [0] = none) :
    ∃ (w : W) (p : CP), CStr w.st.mem p ['%', 'd'] ∧ Ready w ∧ w.ce = false ∧
      fprintf fmt stdoutPtr p [0] w = .ub .oob := by
  have hp := demo_cstr ['%', 'd'] false (by decide)
  let w0 := demo ['%', 'd', '\x00'] false
  have h0 : constEval w0 = .ok false w0 := rfl
  have h1 : ∀ (b : Option Nat) (w : W), CStr w.st.mem (some (0, 0)) ['%', 'd'] →
      snprintf fmt b 0 (some (0, 0)) [0] w = .ok (-1 : Int) w := by
    intro b w h
    simp only [snprintf, M.bind_apply, cString_ok h, hf]; rfl
  let w1 : W := { w0 with st := { w0.st with mem := upd w0.st.mem 1 (some ⟨0, fun _ => none⟩), next := 2 } }
  have h2 : lift (allocArr (((-1 : Int) + 1).toNat)) w0 = .ok 1 w1 := rfl
  have hp1 : CStr w1.st.mem (some (0, 0)) ['%', 'd'] := by
    obtain ⟨a, i, b, e, hb, hrest⟩ := hp
    cases e
    exact ⟨0, 0, b, rfl, by simpa [w1, w0] using hb, hrest⟩
  refine ⟨w0, some (0, 0), hp, demo_ready _ _, rfl, ?_⟩
  unfold fprintf
  refine (M.bind_of_ok h0).trans ?_
  refine (congrFun (if_pos rfl) _).trans ?_
  refine (M.bind_of_ok (h1 _ _ hp)).trans ?_
  refine (M.bind_of_ok h2).trans ?_
  refine (M.bind_of_ok (h1 _ _ hp1)).trans ?_
  rfl

/-- C100 is violated by the overload without arguments: the text is written but the returned count is 0. -/
theorem C100_noargs_refuted : ∃ (w w' : W) (p : CP), CStr w.st.mem p ['h', 'i'] ∧ w.ce = false ∧
    w.out 0 = Std.fresh ∧ fprintf0 stdoutPtr p w = .ok 0 w' ∧ (w'.out 0).text = ['h', 'i'] := by
  have hp := demo_cstr ['h', 'i'] false (by decide)
  refine ⟨demo ['h', 'i', '\x00'] false, ?w, some (0, 0), hp, rfl, rfl, ?_, ?_⟩
  · exact { demo ['h', 'i', '\x00'] false with
      out := routed 0 (Std.puts ['h', 'i']) (demo ['h', 'i', '\x00'] false).out }
  · have h0 : constEval (demo ['h', 'i', '\x00'] false) = .ok false (demo ['h', 'i', '\x00'] false) := rfl
    have h1 := putCstr_ok (x := 0) (w := demo ['h', 'i', '\x00'] false) rfl rfl hp
    unfold fprintf0
    refine (M.bind_of_ok h0).trans ?_
    refine (congrFun (if_pos rfl) _).trans ?_
    refine (M.bind_of_ok (show deref stdoutPtr (demo ['h', 'i', '\x00'] false) = .ok 0 _ from rfl)).trans ?_
    exact (M.bind_of_ok h1).trans rfl
  · decide +kernel

end Cest.Ostream.Props
