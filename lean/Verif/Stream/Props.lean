import Verif.Stream.Refine
/-
Properties C58–C64 and C86: input string streams, fmemopen, fread, fclose.

Programs are those of Verif/Stream/Spec.lean.  `he` says that no character converts to `eof()`, which holds
for `char`.  Each theorem speaks about the observations a program makes after an arbitrary program prefix.
-/
namespace Cest.Stream.Props
open Cest Cest.Stream
set_option linter.unusedSectionVars false
variable {V : Type} [DecidableEq V] {t : Traits V}

/-- Every program that respects the preconditions of the interface runs without undefined behaviour and
observes exactly what the specification says. -/
theorem stream_program (he : ∀ c, t.eofLike c = false) (ops : List (Op V)) (e : Env V) (outs : List (Out V))
    (h : specRun t.nul Env.none ops = some (e, outs)) :
    ∃ st, runOps t ops SSt.init = .ok outs st := by
  obtain ⟨_, st, h1, _⟩ := run_refines he Inv.init h
  exact ⟨st, h1⟩

/-- If at the end no stream and no string is alive, no storage is left allocated. -/
theorem stream_no_leak (he : ∀ c, t.eofLike c = false) (ops : List (Op V)) (e : Env V) (outs : List (Out V))
    (h : specRun t.nul Env.none ops = some (e, outs))
    (hx : ∀ x, e.strm x = none) (hy : ∀ y, e.str y = none) :
    ∃ st, runOps t ops SSt.init = .ok outs st ∧ (∀ x, st.ios x = none) ∧ (∀ b, st.strs.mem b = none) := by
  obtain ⟨σ, st, h1, I⟩ := run_refines he Inv.init h
  refine ⟨st, h1, fun x => (I.dom x (hx x)).1, World.empty_mem I.world ?_⟩
  intro i
  obtain h0 | ⟨y, h0⟩ | ⟨x, h0⟩ : i = tmpId ∨ (∃ y, i = strId y) ∨ ∃ x, i = bufId x := by
    simp only [tmpId, strId, bufId]
    by_cases h0 : i = 0
    · exact .inl h0
    · by_cases h1 : i % 2 = 1
      · exact .inr (.inl ⟨i / 2, by omega⟩)
      · exact .inr (.inr ⟨i / 2 - 1, by omega⟩)
  · subst h0; exact I.tmp
  · subst h0; exact I.nosv (hy y)
  · subst h0; exact (I.dom x (hx x)).2

example : ∃ st : SSt Nat, runOps ⟨⟨0, fun a b => decide (a < b), false⟩, fun _ => false⟩
    [.newArr 0 [7, 0], .newStr 0 0 2, .newISs 0 0 ⟨true, false, false, false⟩, .delStr 0, .get 0 0 1, .vals 0, .destroy 0]
    SSt.init = .ok [.unit, .unit, .unit, .unit, .unit, .vals [7, 7], .unit] st ∧
    (∀ x, st.ios x = none) ∧ (∀ b, st.strs.mem b = none) :=
  stream_no_leak (fun _ => rfl) _ _ _ rfl
    (by intro x; simp only [put, Env.none]; split <;> rfl) (by intro y; simp only [put, Env.none]; split <;> rfl)

/-! ### Composition of programs -/

theorem put_self {β : Type} (f : Nat → Option β) (x : Nat) (v : Option β) : put f x v x = v := by simp [put]


theorem specRun_append (nul : V) (e : Env V) (p q : List (Op V)) :
    specRun nul e (p ++ q) = match specRun nul e p with
      | none => none
      | some (e1, o1) => match specRun nul e1 q with
        | none => none
        | some (e2, o2) => some (e2, o1 ++ o2) := by
  induction p generalizing e with
  | nil =>
    simp only [List.nil_append, specRun]
    split <;> rename_i h <;> simp [h]
  | cons a p ih =>
    simp only [List.cons_append, specRun]
    cases h1 : specStep nul e a with
    | none => rfl
    | some r =>
      simp only [ih]
      cases h2 : specRun nul r.1 p with
      | none => simp
      | some r2 =>
        simp only []
        cases h3 : specRun nul r2.1 q with
        | none => simp
        | some r3 => simp

theorem then_run (he : ∀ c, t.eofLike c = false) {p q : List (Op V)} {e e' : Env V} {o1 o2 : List (Out V)}
    (hp : specRun t.nul Env.none p = some (e, o1)) (hq : specRun t.nul e q = some (e', o2)) :
    ∃ st, runOps t (p ++ q) SSt.init = .ok (o1 ++ o2) st :=
  stream_program he (p ++ q) e' (o1 ++ o2) (by rw [specRun_append, hp]; simp [hq])

theorem then_obs (he : ∀ c, t.eofLike c = false) {p q : List (Op V)} {e : Env V} {o1 o2 : List (Out V)}
    (hp : specRun t.nul Env.none p = some (e, o1)) (hq : (specRun t.nul e q).map Prod.snd = some o2) :
    ∃ st, runOps t (p ++ q) SSt.init = .ok (o1 ++ o2) st := by
  cases h : specRun t.nul e q with
  | none => rw [h] at hq; cases hq
  | some r =>
    rw [h] at hq
    simp only [Option.map_some, Option.some.injEq] at hq
    subst hq
    exact then_run he hp h

/-- Characters are numbers and the terminator is 0, as for `char`. -/
def natT : Traits Nat := ⟨⟨0, fun a b => decide (a < b), false⟩, fun _ => false⟩

/-! A program used below to show that the hypotheses of the theorems can be met: one character of four has
been read. -/

def demoP : List (Op Nat) := [.newArr 0 [7, 0, 8, 5], .newStr 0 0 4, .newISs 0 0 ⟨false, false, false, false⟩,
  .newArr 1 [9], .newArr 2 [1, 2, 3], .newStr 1 2 2, .get 0 1 0]
def demoS : Strm Nat := ⟨[7, 0, 8, 5], 1, ⟨false, false, false⟩, ⟨false, false, false⟩, 1,
  some ⟨true, false, false, false⟩, false⟩
theorem demo : ∃ e outs, specRun natT.nul Env.none demoP = some (e, outs) ∧ e.strm 0 = some demoS ∧
    e.arr 1 = some [7] ∧ e.arr 2 = some [1, 2, 3] ∧ e.str 1 = some [1, 2] := by
  refine ⟨_, _, rfl, ?_, ?_, ?_, ?_⟩ <;> rfl

/-- The same with the stream put into a failed state by reading too far. -/
def demoQ : List (Op Nat) := demoP ++ [.newArr 3 [0, 0, 0, 0], .read 0 3 0 4]
theorem demo_eof : ∃ e outs s, specRun natT.nul Env.none demoQ = some (e, outs) ∧ e.strm 0 = some s ∧
    s.state = ⟨false, true, true⟩ ∧ s.mask = ⟨false, false, false⟩ ∧ e.arr 3 = some [0, 8, 5, 0] ∧
    e.arr 1 = some [7] ∧ s.opened = some ⟨true, false, false, false⟩ := by
  refine ⟨_, _, ⟨[7, 0, 8, 5], 4, ⟨false, true, true⟩, ⟨false, false, false⟩, 3, some ⟨true, false, false, false⟩, false⟩,
    rfl, ?_, ?_, ?_, ?_, ?_, ?_⟩ <;> rfl

/-! ### C58 -/

/-- `get` into `a[0]`, then look at the array, `gcount()` and the state; `k` times. -/
def gets (x a : Nat) : Nat → List (Op V)
  | 0 => []
  | k+1 => [.get x a 0, .vals a, .gcount x, .rdstate x] ++ gets x a k

/-- What C58 promises: the characters in order, each with count 1 and no bits; then eofbit and failbit,
count 0, and the variable keeps its value. -/
def getsOut (c : V) : List V → Nat → List (Out V)
  | _, 0 => []
  | d :: rest, k+1 => [.unit, .vals [d], .nat 1, .bits ⟨false, false, false⟩] ++ getsOut d rest k
  | [], k+1 => [.unit, .vals [c], .nat 0, .bits ⟨false, true, true⟩] ++ getsOut c [] k

theorem specRun_cons (nul : V) (e : Env V) (op : Op V) (ops : List (Op V)) :
    specRun nul e (op :: ops) = match specStep nul e op with
      | none => none
      | some (e', o) => match specRun nul e' ops with
        | none => none
        | some (e'', os) => some (e'', o :: os) := rfl

theorem gets_spec (nul : V) (x a : Nat) (k : Nat) : ∀ (e : Env V) (s : Strm V) (c : V),
    e.strm x = some s → e.arr a = some [c] → s.mask = ⟨false, false, false⟩ →
    (s.state = ⟨false, false, false⟩ ∨ s.state = ⟨false, true, true⟩ ∧ s.content.drop s.pos = []) →
    ∃ e', specRun nul e (gets x a k) = some (e', getsOut c (s.content.drop s.pos) k) := by
  induction k with
  | zero => intro e s c _ _ _ _; exact ⟨e, by cases h : s.content.drop s.pos <;> rfl⟩
  | succ k ih =>
    intro e s c hx ha hm hs
    rcases hs with hs | ⟨hs, hd⟩
    · cases hc : s.content[s.pos]? with
      | none =>
        have hlen : s.content.length ≤ s.pos := by simpa using hc
        have hd : s.content.drop s.pos = [] := List.drop_eq_nil_of_le hlen
        obtain ⟨e', h⟩ := ih _ { s with state := ⟨false, true, true⟩, count := 0 } c
          (show ({ e with strm := put e.strm x (some { s with state := ⟨false, true, true⟩, count := 0 }),
                          arr := put e.arr a (some [c]) } : Env V).strm x = _ by simp [put])
          (by simp [put]) hm (.inr ⟨rfl, hd⟩)
        refine ⟨e', ?_⟩
        simp only [hd, gets, getsOut, List.cons_append, List.nil_append] at h ⊢
        simp [specRun_cons, specStep, hx, ha, getS, hs, isGood, hc, hm, outcome, meets, put, blit] at h ⊢
        rw [h]
      | some d =>
        have hlen : s.pos < s.content.length := by
          have := List.getElem?_eq_some_iff.1 hc; exact this.1
        have hd : s.content.drop s.pos = d :: s.content.drop (s.pos + 1) := by
          rw [List.drop_eq_getElem_cons hlen]; congr 1
          have := List.getElem?_eq_some_iff.1 hc; exact this.2
        obtain ⟨e', h⟩ := ih _ { s with pos := s.pos + 1, count := 1 } d
          (show ({ e with strm := put e.strm x (some { s with pos := s.pos + 1, count := 1 }),
                          arr := put e.arr a (some [d]) } : Env V).strm x = _ by simp [put])
          (by simp [put]) hm (.inl hs)
        refine ⟨e', ?_⟩
        simp only [hd, gets, getsOut, List.cons_append, List.nil_append] at h ⊢
        simp [specRun_cons, specStep, hx, ha, getS, hs, isGood, hc, hm, outcome, meets, put, blit] at h ⊢
        rw [h]
    · obtain ⟨e', h⟩ := ih _ { s with count := 0 } c
        (show ({ e with strm := put e.strm x (some { s with count := 0 }),
                        arr := put e.arr a (some [c]) } : Env V).strm x = _ by simp [put])
        (by simp [put]) hm (.inr ⟨hs, hd⟩)
      refine ⟨e', ?_⟩
      simp only [hd, gets, getsOut, List.cons_append, List.nil_append] at h ⊢
      simp [specRun_cons, specStep, hx, ha, getS, hs, isGood, hm, outcome, meets, put, blit, refused] at h ⊢
      rw [← hs] at *
      rw [h]

/-- C58.  An `istringstream` made from any string (any characters, terminators included) delivers exactly
its characters through `get`, one per call, and then fails for ever, leaving the variable alone. -/
theorem C58_istringstream_get (he : ∀ c, t.eofLike c = false) (l : List V) (m : Mode) (c : V) (k : Nat) :
    ∃ st, runOps t ([.newArr 0 l, .newStr 0 0 l.length, .newISs 0 0 m, .delStr 0, .newArr 1 [c]] ++ gets 0 1 k)
      SSt.init = .ok ([.unit, .unit, .unit, .unit, .unit] ++ getsOut c l k) st := by
  obtain ⟨e, h⟩ := gets_spec t.nul 0 1 k
    { arr := put (put (fun _ => none) 0 (some l)) 1 (some [c]), str := put (put (fun _ => none) 0 (some l)) 0 none,
      strm := put (fun _ => none) 0 (some (fresh l { m with inn := true } false)) }
    (fresh l { m with inn := true } false) c (by simp [put]) (by simp [put]) rfl (.inl rfl)
  refine then_run he ?_ (show _ = some (e, getsOut c l k) by rw [h]; rfl)
  simp [specRun, specStep, Env.none, put]

example : ∃ st, runOps natT ([.newArr 0 [7, 0, 8], .newStr 0 0 3, .newISs 0 0 ⟨true, false, false, false⟩, .delStr 0,
      .newArr 1 [9]] ++ gets 0 1 4) SSt.init =
    .ok ([.unit, .unit, .unit, .unit, .unit] ++
      [.unit, .vals [7], .nat 1, .bits ⟨false, false, false⟩, .unit, .vals [0], .nat 1, .bits ⟨false, false, false⟩,
       .unit, .vals [8], .nat 1, .bits ⟨false, false, false⟩, .unit, .vals [8], .nat 0, .bits ⟨false, true, true⟩]) st :=
  C58_istringstream_get (t := natT) (fun _ => rfl) [7, 0, 8] ⟨true, false, false, false⟩ 9 4

/-- C58, after any program: whatever the program did before with streams, arrays and strings, `get` on a
good stream delivers the characters not yet read. -/
theorem C58_get_delivers (he : ∀ c, t.eofLike c = false) (p : List (Op V)) (e : Env V) (outs : List (Out V))
    (hp : specRun t.nul Env.none p = some (e, outs)) (x a : Nat) (s : Strm V) (c : V)
    (hx : e.strm x = some s) (ha : e.arr a = some [c]) (hm : s.mask = ⟨false, false, false⟩)
    (hs : s.state = ⟨false, false, false⟩) (k : Nat) :
    ∃ st, runOps t (p ++ gets x a k) SSt.init = .ok (outs ++ getsOut c (s.content.drop s.pos) k) st := by
  obtain ⟨e', h⟩ := gets_spec t.nul x a k e s c hx ha hm (.inl hs)
  exact then_run he hp h

example : ∃ outs st, runOps natT (demoP ++ gets 0 1 5) SSt.init = .ok (outs ++ getsOut 7 [0, 8, 5] 5) st := by
  obtain ⟨e, outs, h, h1, h2, _, _⟩ := demo
  exact ⟨outs, C58_get_delivers (t := natT) (fun _ => rfl) demoP e outs h 0 1 demoS 7 h1 h2 rfl rfl 5⟩

/-! ### C59 -/

/-- A request for characters. -/
inductive Req
  | get
  | read (n : Nat)

def Req.size : Req → Nat
  | .get => 1
  | .read n => n

def Req.op {V : Type} (x a : Nat) : Req → Op V
  | .get => .get x a 0
  | .read n => .read x a 0 n

/-- Each request is followed by a look at the array, `gcount()` and the state. -/
def reqs (x a : Nat) : List Req → List (Op V)
  | [] => []
  | r :: rs => [r.op x a, .vals a, .gcount x, .rdstate x] ++ reqs x a rs

/-- What C59 promises, for a good stream: each request delivers the next characters, as many as there
are; it fails when there are too few; after a failure nothing more is delivered. -/
def reqsOut (l : List V) (rest : List V) : List Req → List (Out V)
  | [] => []
  | r :: rs =>
    let w := rest.take r.size
    let l' := w ++ l.drop w.length
    if w.length < r.size then
      [.unit, .vals l', .nat w.length, .bits ⟨false, true, true⟩] ++
        rs.flatMap fun _ => [.unit, .vals l', .nat 0, .bits ⟨false, true, true⟩]
    else [.unit, .vals l', .nat r.size, .bits ⟨false, false, false⟩] ++ reqsOut l' (rest.drop r.size) rs

/-- The characters delivered by the successive requests, as the program sees them. -/
def delivered : List (Out V) → List V
  | .unit :: .vals l :: .nat n :: .bits _ :: os => l.take n ++ delivered os
  | _ => []

theorem reqs_dead (nul : V) (x a : Nat) (rs : List Req) : ∀ (e : Env V) (s : Strm V) (l : List V),
    e.strm x = some s → e.arr a = some l → s.mask = ⟨false, false, false⟩ →
    s.state = ⟨false, true, true⟩ → (∀ r ∈ rs, r.size ≤ l.length) →
    ∃ e', specRun nul e (reqs x a rs) =
      some (e', rs.flatMap fun _ => [.unit, .vals l, .nat 0, .bits ⟨false, true, true⟩]) := by
  induction rs with
  | nil => intro e s l _ _ _ _ _; exact ⟨e, rfl⟩
  | cons r rs ih =>
    intro e s l hx ha hm hs hl
    obtain ⟨e', h⟩ := ih _ { s with count := 0 } l
      (show ({ e with strm := put e.strm x (some { s with count := 0 }),
                      arr := put e.arr a (some l) } : Env V).strm x = _ by simp [put])
      (by simp [put]) hm hs (fun r' hr => hl r' (by simp [hr]))
    have hr := hl r (by simp)
    refine ⟨e', ?_⟩
    cases r with
    | get =>
      have h0 : 0 < l.length := by simp only [Req.size] at hr; omega
      simp only [reqs, List.cons_append, List.nil_append, Req.op, List.flatMap_cons]
      simp [specRun_cons, specStep, hx, ha, getS, hs, isGood, hm, outcome, meets, put, blit, refused, h0] at h ⊢
      rw [← hs] at *
      rw [h]
    | read n =>
      simp only [Req.size] at hr
      simp only [reqs, List.cons_append, List.nil_append, Req.op, List.flatMap_cons]
      simp [specRun_cons, specStep, hx, ha, readS, hs, isGood, hm, outcome, meets, put, blit, refused, hr] at h ⊢
      rw [← hs] at *
      rw [h]

theorem reqs_spec (nul : V) (x a : Nat) (rs : List Req) : ∀ (e : Env V) (s : Strm V) (l : List V),
    e.strm x = some s → e.arr a = some l → s.mask = ⟨false, false, false⟩ →
    s.state = ⟨false, false, false⟩ → (∀ r ∈ rs, r.size ≤ l.length) →
    ∃ e', specRun nul e (reqs x a rs) = some (e', reqsOut l (s.content.drop s.pos) rs) := by
  induction rs with
  | nil => intro e s l _ _ _ _ _; exact ⟨e, rfl⟩
  | cons r rs ih =>
    intro e s l hx ha hm hs hl
    have hr := hl r (by simp)
    generalize hw : (s.content.drop s.pos).take r.size = w at *
    have hwl : w.length ≤ r.size := by rw [← hw]; simp; omega
    have hlen : (w ++ l.drop w.length).length = l.length := by simp; omega
    by_cases hsh : w.length < r.size
    · obtain ⟨e', h⟩ := reqs_dead nul x a rs
        ({ e with strm := put e.strm x (some { s with pos := s.pos + w.length, count := w.length, state := ⟨false, true, true⟩ }),
                  arr := put e.arr a (some (w ++ l.drop w.length)) } : Env V)
        _ _ (put_self _ _ _) (put_self _ _ _) hm rfl (fun r' hr => by rw [hlen]; exact hl r' (by simp [hr]))
      refine ⟨e', ?_⟩
      simp only [reqsOut, hw, hsh, if_true, reqs, List.cons_append, List.nil_append]
      cases r with
      | get =>
        simp only [Req.size] at hr hsh hw hwl
        have h0 : 0 < l.length := by omega
        have hw0 : w = [] := List.length_eq_zero_iff.1 (by omega)
        subst hw0
        have hc : s.content[s.pos]? = none := by
          have : s.content.length - s.pos = 0 ∨ 1 = 0 := by
            have := congrArg List.length hw
            simp at this; omega
          simp; omega
        simp [specRun_cons, specStep, hx, ha, getS, hs, isGood, hc, hm, outcome, meets, put, blit, h0, Req.op] at h ⊢
        rw [h]
      | read n =>
        simp only [Req.size] at hr hsh hw hwl
        simp [specRun_cons, specStep, hx, ha, readS, hs, isGood, hm, outcome, meets, put, blit, hr, Req.op, hw, hsh] at h ⊢
        rw [h]
    · have hwe : w.length = r.size := by omega
      obtain ⟨e', h⟩ := ih
        ({ e with strm := put e.strm x (some { s with pos := s.pos + r.size, count := r.size }),
                  arr := put e.arr a (some (w ++ l.drop w.length)) } : Env V)
        _ _ (put_self _ _ _) (put_self _ _ _) hm hs (fun r' hr => by rw [hlen]; exact hl r' (by simp [hr]))
      refine ⟨e', ?_⟩
      simp only [reqsOut, hw, hsh, if_false, reqs, List.cons_append, List.nil_append, List.drop_drop]
      cases r with
      | get =>
        simp only [Req.size] at hr hsh hw hwl hwe
        have h0 : 0 < l.length := by omega
        obtain ⟨d, hd⟩ : ∃ d, w = [d] := List.length_eq_one_iff.1 hwe
        subst hd
        have hp : s.pos < s.content.length := by
          have := congrArg List.length hw
          simp only [List.length_take, List.length_drop, List.length_cons, List.length_nil] at this
          omega
        have hc : s.content[s.pos]? = some d := by
          have h2 := congrArg (fun l => l[0]?) hw
          simpa [List.getElem?_take, List.getElem?_drop] using h2
        simp [specRun_cons, specStep, hx, ha, getS, hs, isGood, hc, hm, outcome, meets, put, blit, h0, Req.op, Req.size] at h ⊢
        rw [h]
      | read n =>
        simp only [Req.size] at hr hsh hw hwl hwe
        simp [specRun_cons, specStep, hx, ha, readS, hs, isGood, hm, outcome, meets, put, blit, hr, Req.op, hw, hwe, Req.size] at h ⊢
        rw [h]

theorem delivered_dead (l : List V) (rs : List Req) :
    delivered (rs.flatMap fun _ => [.unit, .vals l, .nat 0, .bits ⟨false, true, true⟩]) = [] := by
  induction rs with
  | nil => rfl
  | cons r rs ih => simp only [List.flatMap_cons, List.cons_append, List.nil_append, delivered, ih]; simp

theorem delivered_reqs (rs : List Req) : ∀ (l rest : List V),
    delivered (reqsOut l rest rs) = rest.take (rs.map Req.size).sum := by
  induction rs with
  | nil => intro l rest; simp [reqsOut, delivered]
  | cons r rs ih =>
    intro l rest
    simp only [reqsOut]
    split
    · rename_i h
      simp only [List.cons_append, List.nil_append, delivered, delivered_dead, List.append_nil]
      rw [List.take_append_of_le_length (by simp), List.take_length]
      simp only [List.length_take] at h
      rw [List.take_of_length_le (by omega), List.take_of_length_le (by simp; omega)]
    · rename_i h
      simp only [List.length_take] at h
      simp only [List.cons_append, List.nil_append, delivered, ih]
      rw [List.take_append_of_le_length (by simp; omega), List.take_take, Nat.min_self]
      simp only [List.map_cons, List.sum_cons]
      rw [List.take_add]

/-- C59.  On a good stream, any sequence of `read(a, n)` and `get` (each fitting into the array) behaves
as promised, and what is delivered is, in order, the prefix of the unread characters of the requested
length. -/
theorem C59_read_delivers (he : ∀ c, t.eofLike c = false) (p : List (Op V)) (e : Env V) (outs : List (Out V))
    (hp : specRun t.nul Env.none p = some (e, outs)) (x a : Nat) (s : Strm V) (l : List V)
    (hx : e.strm x = some s) (ha : e.arr a = some l) (hm : s.mask = ⟨false, false, false⟩)
    (hs : s.state = ⟨false, false, false⟩) (rs : List Req) (hl : ∀ r ∈ rs, r.size ≤ l.length) :
    ∃ os st, runOps t (p ++ reqs x a rs) SSt.init = .ok (outs ++ os) st ∧
      os = reqsOut l (s.content.drop s.pos) rs ∧
      delivered os = (s.content.drop s.pos).take (rs.map Req.size).sum := by
  obtain ⟨e', h⟩ := reqs_spec t.nul x a rs e s l hx ha hm hs hl
  obtain ⟨st, h2⟩ := then_run he hp h
  exact ⟨_, st, h2, rfl, delivered_reqs rs l _⟩

example : ∃ outs os st, runOps natT (demoP ++ reqs 0 2 [.read 2, .get, .read 3, .get]) SSt.init = .ok (outs ++ os) st ∧
    delivered os = [0, 8, 5] ∧ os = [.unit, .vals [0, 8, 3], .nat 2, .bits ⟨false, false, false⟩,
      .unit, .vals [5, 8, 3], .nat 1, .bits ⟨false, false, false⟩, .unit, .vals [5, 8, 3], .nat 0, .bits ⟨false, true, true⟩,
      .unit, .vals [5, 8, 3], .nat 0, .bits ⟨false, true, true⟩] := by
  obtain ⟨e, outs, h, h1, _, h2, _⟩ := demo
  obtain ⟨os, st, g1, g2, g3⟩ := C59_read_delivers (t := natT) (fun _ => rfl) demoP e outs h 0 2 demoS [1, 2, 3] h1 h2 rfl rfl
    [.read 2, .get, .read 3, .get] (by simp [Req.size])
  exact ⟨outs, os, st, g1, g3, g2⟩

/-! ### C60 -/

/-- C60.  After a successful `get`, `unget` and another `get` deliver the same character again. -/
theorem C60_unget_undoes_get (he : ∀ c, t.eofLike c = false) (p : List (Op V)) (e : Env V) (outs : List (Out V))
    (hp : specRun t.nul Env.none p = some (e, outs)) (x a : Nat) (s : Strm V) (c d : V)
    (hx : e.strm x = some s) (ha : e.arr a = some [c])
    (hs : s.state = ⟨false, false, false⟩) (hd : s.content[s.pos]? = some d) :
    ∃ st, runOps t (p ++ [.get x a 0, .vals a, .unget x, .rdstate x, .get x a 0, .vals a, .gcount x]) SSt.init =
      .ok (outs ++ [.unit, .vals [d], .unit, .bits ⟨false, false, false⟩, .unit, .vals [d], .nat 1]) st := by
  refine then_obs he hp ?_
  simp [specRun, specStep, hx, ha, getS, ungetS, isGood, hs, hd, outcome, meets, put, blit]

example : ∃ outs st, runOps natT (demoP ++ [.get 0 1 0, .vals 1, .unget 0, .rdstate 0, .get 0 1 0, .vals 1, .gcount 0])
    SSt.init = .ok (outs ++ [.unit, .vals [0], .unit, .bits ⟨false, false, false⟩, .unit, .vals [0], .nat 1]) st := by
  obtain ⟨e, outs, h, h1, h2, _, _⟩ := demo
  exact ⟨outs, C60_unget_undoes_get (t := natT) (fun _ => rfl) demoP e outs h 0 1 demoS 7 0 h1 h2 rfl rfl⟩

/-- C60.  At the beginning, `unget` sets badbit and moves nothing: after `clear`, reading starts from the
first character. -/
theorem C60_unget_at_beginning (he : ∀ c, t.eofLike c = false) (p : List (Op V)) (e : Env V) (outs : List (Out V))
    (hp : specRun t.nul Env.none p = some (e, outs)) (x a : Nat) (s : Strm V) (c : V) (m : Mode)
    (hx : e.strm x = some s) (ha : e.arr a = some [c]) (hb : s.opened = some m)
    (hm : s.mask = ⟨false, false, false⟩) (hs : s.state = ⟨false, false, false⟩) (h0 : s.pos = 0) (k : Nat) :
    ∃ st, runOps t (p ++ ([.unget x, .rdstate x, .gcount x, .clear x ⟨false, false, false⟩] ++ gets x a k))
      SSt.init = .ok (outs ++ ([.unit, .bits ⟨true, false, false⟩, .nat 0, .unit] ++ getsOut c s.content k)) st := by
  obtain ⟨e', h⟩ := gets_spec t.nul x a k
    { e with strm := (put (put e.strm x (some { s with state := ⟨true, false, false⟩, count := 0 })) x (some { s with state := ⟨false, false, false⟩, count := 0 })) }
    { s with state := ⟨false, false, false⟩, count := 0 } c (by simp [put]) ha hm (.inl rfl)
  refine then_run he hp (e' := e') ?_
  rw [specRun_append]
  simp [specRun, specStep, hx, ungetS, isGood, hs, outcome, meets, put, h0, hm, cleared, hb] at h ⊢
  rw [h]

example : ∃ st, runOps natT ([.newArr 0 [7, 8], .newStr 0 0 2, .newISs 0 0 ⟨true, false, false, false⟩, .newArr 1 [9]] ++
      ([.unget 0, .rdstate 0, .gcount 0, .clear 0 ⟨false, false, false⟩] ++ gets 0 1 3)) SSt.init =
    .ok ([.unit, .unit, .unit, .unit] ++ ([.unit, .bits ⟨true, false, false⟩, .nat 0, .unit] ++ getsOut 9 [7, 8] 3)) st :=
  C60_unget_at_beginning (t := natT) (fun _ => rfl) _ _ _ rfl 0 1 (fresh [7, 8] ⟨true, false, false, false⟩ false) 9
    ⟨true, false, false, false⟩ rfl rfl rfl rfl rfl rfl 3

/-- C60.  `unget` on any stream that has a buffer, whatever its state (default mask): eofbit is cleared; the
other bits stay; if none of them was set the stream steps back one character (or, at the beginning,
becomes bad), otherwise it does not move and failbit is set. -/
theorem C60_unget_state (he : ∀ c, t.eofLike c = false) (p : List (Op V)) (e : Env V) (outs : List (Out V))
    (hp : specRun t.nul Env.none p = some (e, outs)) (x a : Nat) (s : Strm V) (c : V) (m : Mode)
    (hx : e.strm x = some s) (ha : e.arr a = some [c]) (hb : s.opened = some m)
    (hm : s.mask = ⟨false, false, false⟩) (k : Nat) :
    ∃ st, runOps t (p ++ ([.unget x, .rdstate x, .gcount x, .clear x ⟨false, false, false⟩] ++ gets x a k))
      SSt.init = .ok (outs ++ ([.unit,
        .bits (if s.state.bad || s.state.fail then ⟨s.state.bad, false, true⟩
               else if s.pos = 0 then ⟨true, false, false⟩ else ⟨false, false, false⟩), .nat 0, .unit] ++
        getsOut c (s.content.drop (if s.state.bad || s.state.fail then s.pos else s.pos - 1)) k)) st := by
  obtain ⟨e', h⟩ := gets_spec t.nul x a k
    { e with strm := (put (put e.strm x (some (ungetS s))) x (some { ungetS s with state := ⟨false, false, false⟩ })) }
    { ungetS s with state := ⟨false, false, false⟩ } c (by simp [put]) ha
    (by simp only [ungetS]; split <;> (try split) <;> (try split) <;> exact hm) (.inl rfl)
  have e1 : (ungetS s).content = s.content := by
    simp only [ungetS]; split <;> (try split) <;> (try split) <;> rfl
  have e4 : (ungetS s).count = 0 := by
    simp only [ungetS]; split <;> (try split) <;> (try split) <;> rfl
  have e5 : (ungetS s).opened = some m := by
    simp only [ungetS]; split <;> (try split) <;> (try split) <;> exact hb
  have e6 : (ungetS s).mask = ⟨false, false, false⟩ := by
    simp only [ungetS]; split <;> (try split) <;> (try split) <;> exact hm
  have e2 : (ungetS s).state = (if s.state.bad || s.state.fail then ⟨s.state.bad, false, true⟩
               else if s.pos = 0 then ⟨true, false, false⟩ else ⟨false, false, false⟩) := by
    rcases hst : s.state with ⟨b, f, g⟩
    cases b <;> cases g <;> simp [ungetS, hm, meets, isGood, hst]
    by_cases h0 : s.pos = 0
    · simp [h0]
    · simp [h0, Nat.pos_of_ne_zero h0]
  have e3 : (ungetS s).pos = (if s.state.bad || s.state.fail then s.pos else s.pos - 1) := by
    rcases hst : s.state with ⟨b, f, g⟩
    cases b <;> cases g <;> simp [ungetS, hm, meets, isGood, hst]
    by_cases h0 : s.pos = 0
    · simp [h0]
    · simp [Nat.pos_of_ne_zero h0]
  refine then_run he hp (e' := e') ?_
  rw [specRun_append]
  simp only [e1, e3] at h
  simp [specRun, specStep, hx, outcome, meets, put, e6, cleared, e5, e4, e2, e1, e3] at h ⊢
  rw [h]

example : ∃ outs os st, runOps natT (demoQ ++ ([.unget 0, .rdstate 0, .gcount 0, .clear 0 ⟨false, false, false⟩] ++ gets 0 1 1))
    SSt.init = .ok (outs ++ ([.unit, .bits ⟨false, false, true⟩, .nat 0, .unit] ++ os)) st := by
  obtain ⟨e, outs, s, h, h1, h2, h3, _, h5, h6⟩ := demo_eof
  obtain ⟨st, g⟩ := C60_unget_state (t := natT) (fun _ => rfl) demoQ e outs h 0 1 s 7 _ h1 h5 h6 h3 1
  rw [h2] at g
  exact ⟨outs, _, st, g⟩

/-! ### C61 -/

/-- C61.  The observers report exactly the bits. -/
theorem C61_state_observers (he : ∀ c, t.eofLike c = false) (p : List (Op V)) (e : Env V) (outs : List (Out V))
    (hp : specRun t.nul Env.none p = some (e, outs)) (x : Nat) (s : Strm V) (hx : e.strm x = some s) :
    ∃ st, runOps t (p ++ [.rdstate x, .good x, .eof x, .fail x, .bool x, .not x]) SSt.init =
      .ok (outs ++ [.bits s.state, .bool (decide (s.state = ⟨false, false, false⟩)), .bool s.state.eof,
        .bool (s.state.bad || s.state.fail), .bool (!(s.state.bad || s.state.fail)),
        .bool (s.state.bad || s.state.fail)]) st := by
  refine then_run he hp (e' := e) ?_
  rcases hst : s.state with ⟨b, f, g⟩
  simp [specRun, specStep, hx, isGood, hst]
  cases b <;> cases f <;> cases g <;> rfl

/-- C61.  `setstate` adds the given bits and removes none. -/
theorem C61_setstate_adds (he : ∀ c, t.eofLike c = false) (p : List (Op V)) (e : Env V) (outs : List (Out V))
    (hp : specRun t.nul Env.none p = some (e, outs)) (x : Nat) (s : Strm V) (hx : e.strm x = some s) (b : Bits) :
    ∃ r st, runOps t (p ++ [.setstate x b, .rdstate x]) SSt.init =
      .ok (outs ++ [r, .bits ⟨s.state.bad || b.bad, s.state.eof || b.eof, s.state.fail || b.fail⟩]) st := by
  refine ⟨_, then_obs he hp (o2 := [outcome ({ s with state :=
        ⟨s.state.bad || b.bad, s.state.eof || b.eof, s.state.fail || b.fail⟩ } : Strm V) .unit, _]) ?_⟩
  simp [specRun, specStep, hx, put]

/-- C61.  `clear(b)` sets exactly `b`, plus badbit if the stream has no buffer. -/
theorem C61_clear_sets (he : ∀ c, t.eofLike c = false) (p : List (Op V)) (e : Env V) (outs : List (Out V))
    (hp : specRun t.nul Env.none p = some (e, outs)) (x : Nat) (s : Strm V) (hx : e.strm x = some s) (b : Bits) :
    ∃ r st, runOps t (p ++ [.clear x b, .rdstate x]) SSt.init =
      .ok (outs ++ [r, .bits ⟨b.bad || decide (s.opened = none), b.eof, b.fail⟩]) st := by
  refine ⟨_, then_obs he hp (o2 := [outcome (cleared s b) .unit, _]) ?_⟩
  by_cases h : s.opened = none
  · simp [specRun, specStep, hx, put, cleared, h]
  · simp [specRun, specStep, hx, put, cleared, h]

example : ∃ outs st, runOps natT (demoQ ++ [.rdstate 0, .good 0, .eof 0, .fail 0, .bool 0, .not 0]) SSt.init =
    .ok (outs ++ [.bits ⟨false, true, true⟩, .bool false, .bool true, .bool true, .bool false, .bool true]) st := by
  obtain ⟨e, outs, s, h, h1, h2, _⟩ := demo_eof
  obtain ⟨st, g⟩ := C61_state_observers (t := natT) (fun _ => rfl) demoQ e outs h 0 s h1
  rw [h2] at g
  exact ⟨outs, st, g⟩

example : ∃ outs r st, runOps natT (demoQ ++ [.setstate 0 ⟨true, false, true⟩, .rdstate 0]) SSt.init =
    .ok (outs ++ [r, .bits ⟨true, true, true⟩]) st := by
  obtain ⟨e, outs, s, h, h1, h2, _⟩ := demo_eof
  obtain ⟨r, st, g⟩ := C61_setstate_adds (t := natT) (fun _ => rfl) demoQ e outs h 0 s h1 ⟨true, false, true⟩
  rw [h2] at g
  exact ⟨outs, r, st, g⟩

example : ∃ r st, runOps natT ([.newNull 3] ++ [.clear 3 ⟨false, true, false⟩, .rdstate 3]) SSt.init =
    .ok ([.unit] ++ [r, .bits ⟨true, true, false⟩]) st :=
  C61_clear_sets (t := natT) (fun _ => rfl) _ _ _ rfl 3
    ⟨[], 0, ⟨true, false, false⟩, ⟨false, false, false⟩, 0, none, false⟩ rfl ⟨false, true, false⟩

/-- C61.  While some bit is set, any sequence of `get` and `read` transfers nothing: the array is unchanged,
`gcount()` is 0 and the bits stay (failbit is added). -/
theorem C61_not_good_transfers_nothing (he : ∀ c, t.eofLike c = false) (p : List (Op V)) (e : Env V)
    (outs : List (Out V)) (hp : specRun t.nul Env.none p = some (e, outs)) (x a : Nat) (s : Strm V) (l : List V)
    (hx : e.strm x = some s) (ha : e.arr a = some l) (hm : s.mask = ⟨false, false, false⟩)
    (hs : s.state ≠ ⟨false, false, false⟩) (rs : List Req) (hl : ∀ r ∈ rs, r.size ≤ l.length) :
    ∃ st, runOps t (p ++ reqs x a rs) SSt.init =
      .ok (outs ++ rs.flatMap fun _ => [.unit, .vals l, .nat 0, .bits ⟨s.state.bad, s.state.eof, true⟩]) st := by
  have key : ∀ (rs : List Req) (e : Env V) (s : Strm V), e.strm x = some s → e.arr a = some l →
      s.mask = ⟨false, false, false⟩ → isGood s.state = false → (∀ r ∈ rs, r.size ≤ l.length) →
      ∃ e', specRun t.nul e (reqs x a rs) =
        some (e', rs.flatMap fun _ => [.unit, .vals l, .nat 0, .bits ⟨s.state.bad, s.state.eof, true⟩]) := by
    intro rs
    induction rs with
    | nil => intro e s _ _ _ _ _; exact ⟨e, rfl⟩
    | cons r rs ih =>
      intro e s hx ha hm hs hl
      obtain ⟨e', h⟩ := ih { e with strm := put e.strm x (some (refused s)), arr := put e.arr a (some l) }
        (refused s) (by simp [put]) (by simp [put]) hm (by simp [refused, isGood])
        (fun r' hr => hl r' (by simp [hr]))
      have hr := hl r (by simp)
      refine ⟨e', ?_⟩
      cases r with
      | get =>
        have h0 : 0 < l.length := by simp only [Req.size] at hr; omega
        simp only [reqs, List.cons_append, List.nil_append, Req.op, List.flatMap_cons]
        simp [specRun_cons, specStep, hx, ha, getS, hs, hm, outcome, meets, put, blit, refused, h0] at h ⊢
        rw [h]
      | read n =>
        simp only [Req.size] at hr
        simp only [reqs, List.cons_append, List.nil_append, Req.op, List.flatMap_cons]
        simp [specRun_cons, specStep, hx, ha, readS, hs, hm, outcome, meets, put, blit, refused, hr] at h ⊢
        rw [h]
  obtain ⟨e', h⟩ := key rs e s hx ha hm (by
    rcases hst : s.state with ⟨b, f, g⟩
    rw [hst] at hs
    revert hs
    cases b <;> cases f <;> cases g <;> simp [isGood]) hl
  exact then_run he hp h

example : ∃ outs st, runOps natT (demoQ ++ reqs 0 3 [.get, .read 4]) SSt.init =
    .ok (outs ++ [.unit, .vals [0, 8, 5, 0], .nat 0, .bits ⟨false, true, true⟩,
      .unit, .vals [0, 8, 5, 0], .nat 0, .bits ⟨false, true, true⟩]) st := by
  obtain ⟨e, outs, s, h, h1, h2, h3, h4, _⟩ := demo_eof
  obtain ⟨st, g⟩ := C61_not_good_transfers_nothing (t := natT) (fun _ => rfl) demoQ e outs h 0 3 s _ h1 h4 h3
    (by rw [h2]; simp) [.get, .read 4] (by simp [Req.size])
  rw [h2] at g
  exact ⟨outs, st, g⟩

/-! ### C62 -/

/-- The statements that may throw. -/
def mayThrow (x : Nat) : Op V → Prop
  | .get y _ _ | .read y _ _ _ | .unget y | .clear y _ | .setstate y _ | .setMask y _ | .fread y _ _ _ => y = x
  | _ => False

/-- C62.  A statement on stream `x` that may throw does so exactly if, afterwards, the state and the
exception mask have a bit in common. -/
theorem C62_throws_iff (he : ∀ c, t.eofLike c = false) (p : List (Op V)) (x : Nat) (op : Op V) (hop : mayThrow x op)
    (e : Env V) (outs : List (Out V)) (hp : specRun t.nul Env.none (p ++ [op]) = some (e, outs)) :
    ∃ os r b m st, runOps t (p ++ [op] ++ [.rdstate x, .mask x]) SSt.init =
        .ok (os ++ [r, .bits b, .bits m]) st ∧
      (r = .failure ↔ (b.bad && m.bad || b.eof && m.eof || b.fail && m.fail) = true) := by
  have hp' := hp
  rw [specRun_append] at hp'
  cases h1 : specRun t.nul Env.none p with
  | none => rw [h1] at hp'; cases hp'
  | some r1 =>
    obtain ⟨e1, o1⟩ := r1
    rw [h1] at hp'
    simp only [specRun] at hp'
    cases h2 : specStep t.nul e1 op with
    | none => simp [h2] at hp'
    | some r2 =>
      obtain ⟨e2, o⟩ := r2
      simp [h2] at hp'
      obtain ⟨h3, h4⟩ := hp'
      subst h3
      subst h4
      have key : ∃ s : Strm V, e2.strm x = some s ∧ ∃ o', o' ≠ .failure ∧ o = outcome s o' := by
        cases op <;> simp only [mayThrow] at hop <;> (try exact hop.elim) <;> subst hop <;>
          simp only [specStep] at h2 <;> split at h2 <;> (try cases h2) <;>
          (try (split at h2 <;> cases h2)) <;> exact ⟨_, by simp [put], _, by simp, rfl⟩
      obtain ⟨s, hs, o', ho', rfl⟩ := key
      obtain ⟨st, hst⟩ := then_run he hp (q := [.rdstate x, .mask x]) (e' := e2)
        (o2 := [.bits s.state, .bits s.mask]) (by simp [specRun, specStep, hs])
      refine ⟨o1, outcome s o', s.state, s.mask, st, ?_, ?_⟩
      · rw [hst]; simp
      · simp only [outcome, meets, Bool.and_comm s.mask.bad, Bool.and_comm s.mask.eof, Bool.and_comm s.mask.fail]
        split
        · rename_i h; simp [h]
        · rename_i h; simp [h, ho']

/-- Both cases occur: `setstate(eofbit)` throws with mask eofbit and does not with mask badbit. -/
example : ∃ st, runOps natT [.newIS 0, .setMask 0 ⟨false, true, false⟩, .setstate 0 ⟨false, true, false⟩, .rdstate 0,
    .mask 0] SSt.init = .ok [.unit, .unit, .failure, .bits ⟨false, true, false⟩, .bits ⟨false, true, false⟩] st :=
  stream_program (t := natT) (fun _ => rfl) _ _ _ rfl
example : ∃ st, runOps natT [.newIS 0, .setMask 0 ⟨true, false, false⟩, .setstate 0 ⟨false, true, false⟩, .rdstate 0,
    .mask 0] SSt.init = .ok [.unit, .unit, .unit, .bits ⟨false, true, false⟩, .bits ⟨true, false, false⟩] st :=
  stream_program (t := natT) (fun _ => rfl) _ _ _ rfl
example : mayThrow 0 (.setstate 0 ⟨false, true, false⟩ : Op Nat) ∧
    ∃ e outs, specRun natT.nul Env.none ([.newIS 0, .setMask 0 ⟨false, true, false⟩] ++
      [.setstate 0 ⟨false, true, false⟩]) = some (e, outs) := ⟨rfl, _, _, rfl⟩

/-- C62.  A stream starts with the empty mask, which never makes anything throw: without a call of
`exceptions(e)` no program sees an exception. -/
theorem C62_default_mask_never_throws (he : ∀ c, t.eofLike c = false) (p : List (Op V)) (e : Env V)
    (outs : List (Out V)) (hp : specRun t.nul Env.none p = some (e, outs))
    (hno : ∀ op ∈ p, ∀ x b, op ≠ .setMask x b) :
    ∃ st, runOps t p SSt.init = .ok outs st ∧ .failure ∉ outs := by
  obtain ⟨st, h⟩ := stream_program he p e outs hp
  refine ⟨st, h, ?_⟩
  have key : ∀ (p : List (Op V)) (e0 e : Env V) (outs : List (Out V)), specRun t.nul e0 p = some (e, outs) →
      (∀ op ∈ p, ∀ x b, op ≠ .setMask x b) → (∀ x s, e0.strm x = some s → s.mask = ⟨false, false, false⟩) →
      .failure ∉ outs := by
    intro p
    induction p with
    | nil => intro e0 e outs hp _ _; cases hp; simp
    | cons op p ih =>
      intro e0 e outs hp hno hm
      simp only [specRun] at hp
      split at hp
      · cases hp
      · rename_i e1 o1 h1
        split at hp
        · cases hp
        · rename_i e2 os h2
          cases hp
          have k : o1 ≠ .failure ∧ ∀ x s, e1.strm x = some s → s.mask = ⟨false, false, false⟩ := by
            have hout : ∀ (s : Strm V) (o : Out V), s.mask = ⟨false, false, false⟩ → o ≠ .failure →
                outcome s o ≠ .failure := by
              intro s o h1 h2; simp [outcome, meets, h1, h2]
            have hput : ∀ (x : Nat) (s' : Strm V), s'.mask = ⟨false, false, false⟩ →
                ∀ z s, put e0.strm x (some s') z = some s → s.mask = ⟨false, false, false⟩ := by
              intro x s' h z s hz
              simp only [put] at hz
              split at hz
              · cases hz; exact h
              · exact hm z s hz
            have hdel : ∀ (x : Nat), ∀ z s, put e0.strm x none z = some s → s.mask = ⟨false, false, false⟩ := by
              intro x z s hz
              simp only [put] at hz
              split at hz
              · cases hz
              · exact hm z s hz
            have hg : ∀ s : Strm V, (getS s).1.mask = s.mask := by
              intro s; simp only [getS]; split <;> (try split) <;> rfl
            have hr : ∀ (s : Strm V) n, (readS s n).1.mask = s.mask := by
              intro s n; simp only [readS]; split <;> rfl
            have hu : ∀ s : Strm V, (ungetS s).mask = s.mask := by
              intro s; simp only [ungetS]; split <;> (try split) <;> (try split) <;> rfl
            cases op <;> simp only [specStep] at h1 <;> (try split at h1) <;> (try cases h1) <;>
              (try split at h1) <;> (try cases h1) <;> (try split at h1) <;> (try cases h1)
            all_goals first
              | exact (hno _ List.mem_cons_self _ _ rfl).elim
              | exact ⟨by simp, hm⟩
              | exact ⟨by simp, hput _ _ rfl⟩
              | exact ⟨by simp, hdel _⟩
              | refine ⟨hout _ _ ?_ (by simp), hput _ _ ?_⟩ <;> dsimp only [cleared] <;> exact hm _ _ (by assumption)
              | exact ⟨by simp, hput _ _ (by dsimp only; exact hm _ _ (by assumption))⟩
              | exact ⟨hout _ _ ((hg _).trans (hm _ _ (by assumption))) (by simp), hput _ _ ((hg _).trans (hm _ _ (by assumption)))⟩
              | exact ⟨hout _ _ ((hr _ _).trans (hm _ _ (by assumption))) (by simp), hput _ _ ((hr _ _).trans (hm _ _ (by assumption)))⟩
              | exact ⟨hout _ _ ((hu _).trans (hm _ _ (by assumption))) (by simp), hput _ _ ((hu _).trans (hm _ _ (by assumption)))⟩
          have := ih e1 _ os h2 (fun op' h' => hno op' (by simp [h'])) k.2
          simp [this, Ne.symm k.1]
  exact key p Env.none e outs hp hno (fun x s h => by cases h)

example : ∃ st outs, runOps natT demoQ SSt.init = .ok outs st ∧ .failure ∉ outs := by
  obtain ⟨e, outs, s, h, _⟩ := demo_eof
  obtain ⟨st, g⟩ := C62_default_mask_never_throws (t := natT) (fun _ => rfl) demoQ e outs h (by simp [demoQ, demoP])
  exact ⟨st, outs, g⟩

/-! ### C63 -/

/-- The full statement of C63: after any program, `x.str(y)` makes a good stream opened for input deliver
the characters of `y` from the start. -/
def C63_full (t : Traits V) : Prop :=
  ∀ (p : List (Op V)) (e : Env V) (outs : List (Out V)), specRun t.nul Env.none p = some (e, outs) →
  ∀ (x y a : Nat) (s : Strm V) (l : List V) (c : V) (m : Mode),
    e.strm x = some s → e.str y = some l → e.arr a = some [c] → s.opened = some m → m.inn = true →
    s.mask = ⟨false, false, false⟩ → s.state = ⟨false, false, false⟩ → ∀ k,
    ∃ st, runOps t (p ++ (.setStr x y :: gets x a k)) SSt.init = .ok (outs ++ (.unit :: getsOut c l k)) st

theorem runOps_append (p q : List (Op V)) (st : SSt V) :
    runOps t (p ++ q) st = (do let o1 ← runOps t p; let o2 ← runOps t q; return o1 ++ o2 : SM V _) st := by
  induction p generalizing st with
  | nil =>
    simp only [List.nil_append, runOps, M.bind_apply, M.pure_apply]
    cases runOps t q st <;> rfl
  | cons op p ih =>
    simp only [List.cons_append, runOps, M.bind_apply]
    cases h : runOp t op st with
    | ok o st1 =>
      simp only [ih, M.bind_apply]
      cases runOps t p st1 with
      | ok o1 st2 =>
        simp only [M.pure_apply]
        cases runOps t q st2 <;> simp
      | _ => rfl
    | _ => rfl

/-- What `x.str(y)` really does: the stream delivers `y` up to its first terminator. -/
theorem C63_str_truncates (he : ∀ c, t.eofLike c = false) (p : List (Op V)) (e : Env V) (outs : List (Out V))
    (hp : specRun t.nul Env.none p = some (e, outs)) (x y a : Nat) (s : Strm V) (l : List V) (c : V) (m : Mode)
    (hx : e.strm x = some s) (hy : e.str y = some l) (ha : e.arr a = some [c]) (ho : s.opened = some m)
    (hi : m.inn = true) (hm : s.mask = ⟨false, false, false⟩) (hs : s.state = ⟨false, false, false⟩) (k : Nat) :
    ∃ st, runOps t (p ++ (.setStr x y :: gets x a k)) SSt.init =
      .ok (outs ++ (.unit :: getsOut c (l.takeWhile (· ≠ t.nul)) k)) st := by
  obtain ⟨σ, st, h1, I⟩ := run_refines he Inv.init hp
  obtain ⟨o, r1, r2⟩ := I.rep x s hx
  obtain ⟨sv, h4, h5⟩ := I.sv hy
  obtain ⟨ss, o', sv', g1, g2, g3⟩ := setStr_ok (t := t) I.world r1 r2 ho h4
  have I2 := I.buf g2 g3
  obtain ⟨e', h⟩ := gets_spec t.nul x a k
    ({ e with strm := put e.strm x (some { s with content := if m.inn then sv.val.takeWhile (· ≠ t.nul) else [], pos := 0 }) } : Env V)
    _ c (put_self _ _ _) ha hm (.inl hs)
  obtain ⟨_, st3, h6, _⟩ := run_refines he I2 h
  refine ⟨st3, ?_⟩
  rw [runOps_append]
  simp only [M.bind_apply, h1, runOps, runOp]
  rw [g1]
  simp only [M.pure_apply]
  rw [h6]
  simp [hi, h5]

/-- C63 for strings without an embedded terminator.  (Missing: strings that contain one, where the claim is
false, see `C63_str_restarts_refuted`.) -/
theorem C63_str_restarts_partial (he : ∀ c, t.eofLike c = false) (p : List (Op V)) (e : Env V) (outs : List (Out V))
    (hp : specRun t.nul Env.none p = some (e, outs)) (x y a : Nat) (s : Strm V) (l : List V) (c : V) (m : Mode)
    (hx : e.strm x = some s) (hy : e.str y = some l) (ha : e.arr a = some [c]) (ho : s.opened = some m)
    (hi : m.inn = true) (hm : s.mask = ⟨false, false, false⟩) (hs : s.state = ⟨false, false, false⟩)
    (hn : t.nul ∉ l) (k : Nat) :
    ∃ st, runOps t (p ++ (.setStr x y :: gets x a k)) SSt.init = .ok (outs ++ (.unit :: getsOut c l k)) st := by
  have h := C63_str_truncates he p e outs hp x y a s l c m hx hy ha ho hi hm hs k
  rwa [takeWhile_all _ (by
    intro d hd
    simp only [decide_eq_true_eq]
    intro hc; subst hc; exact hn hd)] at h

example : ∃ outs st, runOps natT (demoP ++ (.setStr 0 1 :: gets 0 1 3)) SSt.init =
    .ok (outs ++ (.unit :: getsOut 7 [1, 2] 3)) st := by
  obtain ⟨e, outs, h, h1, h2, _, h3⟩ := demo
  exact ⟨outs, C63_str_restarts_partial (t := natT) (fun _ => rfl) demoP e outs h 0 1 1 demoS [1, 2] 7 _ h1 h3 h2 rfl rfl rfl
    rfl (by simp [natT]) 3⟩

/-- C63 fails: `str()` loses everything from an embedded terminator on. -/
theorem C63_str_restarts_refuted : ¬ C63_full natT := by
  intro h
  have hp : specRun (0 : Nat) Env.none [.newArr 0 [7, 0, 8], .newStr 0 0 3, .newIS 0, .newArr 1 [9]] =
      some (⟨put (put (fun _ => none) 0 (some [7, 0, 8])) 1 (some [9]), put (fun _ => none) 0 (some [7, 0, 8]),
        put (fun _ => none) 0 (some (fresh [] ⟨true, false, false, false⟩ false))⟩,
        [.unit, .unit, .unit, .unit]) := by
    simp [specRun, specStep, Env.none, put]
  obtain ⟨st, h1⟩ := h _ _ _ hp 0 0 1 _ [7, 0, 8] 9 ⟨true, false, false, false⟩ rfl rfl rfl rfl rfl rfl rfl 2
  obtain ⟨st2, h2⟩ := C63_str_truncates (t := natT) (fun _ => rfl) _ _ _ hp 0 0 1 _ [7, 0, 8] 9
    ⟨true, false, false, false⟩ rfl rfl rfl rfl rfl rfl rfl 2
  rw [h1] at h2
  injection h2 with h3 _
  simp [getsOut, natT] at h3

/-! ### C64 -/

/-- A sequence of `fread(a, 1, n, x)`, each followed by a look at the array. -/
def freads (x a : Nat) : List Nat → List (Op V)
  | [] => []
  | n :: ns => [.fread x a 0 n, .vals a] ++ freads x a ns

/-- What C64 promises: each call returns and stores as many of the next bytes as there are; after a short
count, 0. -/
def freadsOut (l rest : List V) : List Nat → List (Out V)
  | [] => []
  | n :: ns =>
    let w := rest.take n
    let l' := w ++ l.drop w.length
    [.nat w.length, .vals l'] ++
      if w.length < n then ns.flatMap fun _ => [.nat 0, .vals l'] else freadsOut l' (rest.drop n) ns

/-- The bytes received, as the program sees them. -/
def received : List (Out V) → List V
  | .nat n :: .vals l :: os => l.take n ++ received os
  | _ => []

/-- The counts returned. -/
def counts : List (Out V) → List Nat
  | .nat n :: .vals _ :: os => n :: counts os
  | _ => []

theorem freads_dead (nul : V) (x a : Nat) (ns : List Nat) : ∀ (e : Env V) (s : Strm V) (l : List V),
    e.strm x = some s → e.arr a = some l → s.mask = ⟨false, false, false⟩ →
    s.state = ⟨false, true, true⟩ → (∀ n ∈ ns, n ≤ l.length) →
    ∃ e', specRun nul e (freads x a ns) = some (e', ns.flatMap fun _ => [.nat 0, .vals l]) ∧
      (∃ s', e'.strm x = some s' ∧ s'.heap = s.heap) ∧ (∀ z, z ≠ x → e'.strm z = e.strm z) ∧ e'.str = e.str := by
  induction ns with
  | nil => intro e s l hx _ _ _ _; exact ⟨e, rfl, ⟨s, hx, rfl⟩, fun _ _ => rfl, rfl⟩
  | cons n ns ih =>
    intro e s l hx ha hm hs hl
    obtain ⟨e', h, h2, h3, h4⟩ := ih
      ({ e with strm := put e.strm x (some { s with count := 0 }), arr := put e.arr a (some l) } : Env V)
      { s with count := 0 } l (put_self _ _ _) (put_self _ _ _) hm hs (fun r' hr => hl r' (by simp [hr]))
    have hr := hl n (by simp)
    refine ⟨e', ?_, h2, ?_, h4⟩
    · simp only [freads, List.cons_append, List.nil_append, List.flatMap_cons]
      simp [specRun_cons, specStep, hx, ha, readS, hs, isGood, hm, outcome, meets, put, blit, refused, hr] at h ⊢
      rw [← hs] at *
      rw [h]
    · intro z hz; rw [h3 z hz]; simp [put, hz]

theorem freads_spec (nul : V) (x a : Nat) (ns : List Nat) : ∀ (e : Env V) (s : Strm V) (l : List V),
    e.strm x = some s → e.arr a = some l → s.mask = ⟨false, false, false⟩ →
    s.state = ⟨false, false, false⟩ → (∀ n ∈ ns, n ≤ l.length) →
    ∃ e', specRun nul e (freads x a ns) = some (e', freadsOut l (s.content.drop s.pos) ns) ∧
      (∃ s', e'.strm x = some s' ∧ s'.heap = s.heap) ∧ (∀ z, z ≠ x → e'.strm z = e.strm z) ∧ e'.str = e.str := by
  induction ns with
  | nil => intro e s l hx _ _ _ _; exact ⟨e, rfl, ⟨s, hx, rfl⟩, fun _ _ => rfl, rfl⟩
  | cons n ns ih =>
    intro e s l hx ha hm hs hl
    have hr := hl n (by simp)
    generalize hw : (s.content.drop s.pos).take n = w at *
    have hwl : w.length ≤ n := by rw [← hw]; simp; omega
    have hlen : (w ++ l.drop w.length).length = l.length := by simp; omega
    by_cases hsh : w.length < n
    · obtain ⟨e', h, h2, h3, h4⟩ := freads_dead nul x a ns
        ({ e with strm := put e.strm x (some { s with pos := s.pos + w.length, count := w.length, state := ⟨false, true, true⟩ }),
                  arr := put e.arr a (some (w ++ l.drop w.length)) } : Env V)
        _ _ (put_self _ _ _) (put_self _ _ _) hm rfl (fun r' hr => by rw [hlen]; exact hl r' (by simp [hr]))
      refine ⟨e', ?_, h2, ?_, h4⟩
      · simp only [freadsOut, hw, hsh, if_true, freads, List.cons_append, List.nil_append]
        simp [specRun_cons, specStep, hx, ha, readS, hs, isGood, hm, outcome, meets, put, blit, hr, hw, hsh] at h ⊢
        rw [h]
      · intro z hz; rw [h3 z hz]; simp [put, hz]
    · have hwe : w.length = n := by omega
      obtain ⟨e', h, h2, h3, h4⟩ := ih
        ({ e with strm := put e.strm x (some { s with pos := s.pos + n, count := n }),
                  arr := put e.arr a (some (w ++ l.drop w.length)) } : Env V)
        _ _ (put_self _ _ _) (put_self _ _ _) hm hs (fun r' hr => by rw [hlen]; exact hl r' (by simp [hr]))
      refine ⟨e', ?_, h2, ?_, h4⟩
      · simp only [freadsOut, hw, hsh, if_false, freads, List.cons_append, List.nil_append, List.drop_drop]
        simp [specRun_cons, specStep, hx, ha, readS, hs, isGood, hm, outcome, meets, put, blit, hr, hw, hwe] at h ⊢
        rw [h]
      · intro z hz; rw [h3 z hz]; simp [put, hz]

theorem received_dead (l : List V) (ns : List Nat) :
    received (ns.flatMap fun _ => [.nat 0, .vals l]) = [] := by
  induction ns with
  | nil => rfl
  | cons r rs ih => simp only [List.flatMap_cons, List.cons_append, List.nil_append, received, ih]; simp

theorem received_freads (ns : List Nat) : ∀ (l rest : List V),
    received (freadsOut l rest ns) = rest.take ns.sum := by
  induction ns with
  | nil => intro l rest; simp [freadsOut, received]
  | cons n ns ih =>
    intro l rest
    simp only [freadsOut]
    split
    · rename_i h
      simp only [List.cons_append, List.nil_append, received, received_dead, List.append_nil]
      rw [List.take_append_of_le_length (by simp), List.take_length]
      simp only [List.length_take] at h
      rw [List.take_of_length_le (by omega), List.take_of_length_le (by simp; omega)]
    · rename_i h
      simp only [List.length_take] at h
      simp only [List.cons_append, List.nil_append, received, ih]
      rw [List.take_append_of_le_length (by simp), List.take_length]
      simp only [List.sum_cons]
      rw [List.take_add]

theorem counts_freads (ns : List Nat) : ∀ (l rest : List V),
    counts (freadsOut l rest ns) = ns ∨ received (freadsOut l rest ns) = rest := by
  induction ns with
  | nil => intro l rest; exact .inl rfl
  | cons n ns ih =>
    intro l rest
    have hrec := received_freads (n :: ns) l rest
    by_cases h : (rest.take n).length < n
    · right
      rw [hrec]
      simp only [List.length_take] at h
      rw [List.take_of_length_le (by simp; omega)]
    · have hl : (rest.take n).length = n := by simp only [List.length_take] at h ⊢; omega
      rcases ih (rest.take n ++ l.drop n) (rest.drop n) with h1 | h1
      · left
        simp only [freadsOut, List.cons_append, List.nil_append, counts, hl, Nat.lt_irrefl, if_false, h1]
      · right
        rw [received_freads] at h1
        rw [hrec, List.sum_cons, List.take_add, h1, List.take_append_drop]

/-- C64.  Any buffer (terminators included), opened with `fmemopen` and read with any sequence of `fread`s
that fit the destination: each call returns and stores as promised; together they receive a prefix of the
buffer of the requested length; unless every count was full, they receive the whole buffer; and after
`fclose` nothing is left allocated. -/
theorem C64_fmemopen_fread_fclose (he : ∀ c, t.eofLike c = false) (l : List V) (n : Nat) (hn : n ≤ l.length)
    (buf : List V) (ns : List Nat) (hb : ∀ k ∈ ns, k ≤ buf.length) :
    ∃ os st, runOps t ([.newArr 0 l, .fmemopen 0 0 n, .newArr 1 buf] ++ (freads 0 1 ns ++ [.fclose 0])) SSt.init =
        .ok ([.unit, .unit, .unit] ++ (os ++ [.nat 0])) st ∧
      os = freadsOut buf (l.take n) ns ∧
      received os = (l.take n).take ns.sum ∧
      (counts os = ns ∨ received os = l.take n) ∧
      (∀ x, st.ios x = none) ∧ (∀ b, st.strs.mem b = none) := by
  obtain ⟨e', h, ⟨s', h2, h5⟩, h3, h4⟩ := freads_spec t.nul 0 1 ns
    ⟨put (put (fun _ => none) 0 (some l)) 1 (some buf), fun _ => none,
      put (fun _ => none) 0 (some (fresh (l.take n) ⟨true, true, false, false⟩ true))⟩
    (fresh (l.take n) ⟨true, true, false, false⟩ true) buf (by simp [put]) (by simp [put]) rfl rfl hb
  have hrun : specRun t.nul Env.none ([.newArr 0 l, .fmemopen 0 0 n, .newArr 1 buf] ++
      (freads 0 1 ns ++ [.fclose 0])) = some ({ e' with strm := put e'.strm 0 none },
        [.unit, .unit, .unit] ++ (freadsOut buf (l.take n) ns ++ [.nat 0])) := by
    rw [specRun_append]
    have h1 : specRun t.nul Env.none [.newArr 0 l, .fmemopen 0 0 n, .newArr 1 buf] =
      some (⟨put (put (fun _ => none) 0 (some l)) 1 (some buf), fun _ => none,
      put (fun _ => none) 0 (some (fresh (l.take n) ⟨true, true, false, false⟩ true))⟩, [.unit, .unit, .unit]) := by
      simp [specRun, specStep, Env.none, put, hn]
    rw [h1]
    simp only []
    rw [specRun_append, h]
    simp only [specRun, specStep, h2, h5]
    rfl
  obtain ⟨st, g1, g2, g3⟩ := stream_no_leak he _ _ _ hrun
    (by
      intro x
      by_cases hx : x = 0
      · subst hx; simp [put]
      · simp only [put, hx, if_false]
        rw [h3 x hx]; simp [put, hx])
    (by intro y; show e'.str y = none; rw [h4])
  exact ⟨_, st, g1, rfl, received_freads ns buf _, counts_freads ns buf _, g2, g3⟩

example : ∃ st, runOps natT ([.newArr 0 [7, 0, 8, 5], .fmemopen 0 0 3, .newArr 1 [1, 1]] ++ (freads 0 1 [2, 2, 1] ++
      [.fclose 0])) SSt.init =
    .ok ([.unit, .unit, .unit] ++ ([.nat 2, .vals [7, 0], .nat 1, .vals [8, 0], .nat 0, .vals [8, 0]] ++ [.nat 0])) st := by
  obtain ⟨os, st, h, h1, _⟩ := C64_fmemopen_fread_fclose (t := natT) (fun _ => rfl) [7, 0, 8, 5] 3 (by simp) [1, 1] [2, 2, 1]
    (by simp)
  rw [h1] at h
  exact ⟨st, h⟩

/-! ### C86 -/

/-- C86 fails everywhere: preparing formatted input (`sentry(is)`, skipping white space) never succeeds.  On
any good stream with the default mask it sets badbit and failbit, although there may be input. -/
theorem C86_skipws_sentry_never_ok (he : ∀ c, t.eofLike c = false) (p : List (Op V)) (e : Env V)
    (outs : List (Out V)) (hp : specRun t.nul Env.none p = some (e, outs)) (x : Nat) (s : Strm V)
    (hx : e.strm x = some s) (hm : s.mask = ⟨false, false, false⟩) (hs : s.state = ⟨false, false, false⟩) :
    ∃ st st', runOps t p SSt.init = .ok outs st ∧ sentryWs t x st = .ok false st' ∧
      rdstate x st' = .ok ⟨true, false, true⟩ st' := by
  obtain ⟨σ, st, h1, I⟩ := run_refines he Inv.init hp
  obtain ⟨o, r1, r2⟩ := I.rep x s hx
  have hg : o.state = Bits.none := by rw [r2.state, hs]; rfl
  have he0 : o.exc = Bits.none := by rw [r2.exc, hm]; rfl
  obtain ⟨m, sv, _, hrd, _, _, hsv, hA⟩ := r2.good_buf (by rw [hs]; rfl)
  obtain ⟨_, hmem, _⟩ := Str.get_rep I.world hsv
  obtain ⟨r, hr⟩ := sgetc_ok (t := t) r1 hA hmem
  obtain ⟨o1, ho1⟩ : ∃ o1, o1 = { o with state := o.state.or Bits.badbit } := ⟨_, rfl⟩
  have hb1 : isGood o1.state = false := by rw [ho1, hg]; rfl
  refine ⟨st, { st with ios := upd (upd st.ios x (some o1)) x (some { o1 with state := o1.state.or Bits.failbit }) }, h1, ?_, ?_⟩
  · simp only [sentryWs, M.bind_apply, good_ok r1]
    rw [if_pos (by rw [hg]; rfl)]
    simp only [M.bind_apply, hr, getIos_some r1]
    rw [← ho1, setIos_some r1]
    simp only [he0]
    rw [if_neg (by simp [Bits.and, Bits.none])]
    simp only [M.bind_apply]
    rw [good_ok (o := o1) (by simp)]
    simp only [hb1]
    rw [if_neg (by simp)]
    simp only [M.bind_apply]
    rw [setstate_ok (o := o1) (by simp) _ (.inl (by rw [ho1]; exact hrd))]
    have hx1 : o1.exc = Bits.none := by rw [ho1]; exact he0
    simp [fin, hx1, meets, Bits.none]
  · rw [rdstate_ok (o := { o1 with state := o1.state.or Bits.failbit }) (by simp)]
    simp [ho1, hg, Bits.or, Bits.none, Bits.badbit, Bits.failbit]

example : ∃ outs st st', runOps natT demoP SSt.init = .ok outs st ∧ sentryWs natT 0 st = .ok false st' ∧
    rdstate 0 st' = .ok ⟨true, false, true⟩ st' := by
  obtain ⟨e, outs, h, h1, _⟩ := demo
  exact ⟨outs, C86_skipws_sentry_never_ok (t := natT) (fun _ => rfl) demoP e outs h 0 demoS h1 rfl rfl⟩

/-- The part of C86 that holds: preparing unformatted input (`sentry(is, true)`, nothing is skipped) succeeds
on a good stream and changes nothing; on any other stream it adds failbit, and throws exactly if the mask
meets the new state.  Missing: the sentry that skips white space, refuted above. -/
theorem C86_noskipws_sentry_partial (he : ∀ c, t.eofLike c = false) (p : List (Op V)) (e : Env V)
    (outs : List (Out V)) (hp : specRun t.nul Env.none p = some (e, outs)) (x : Nat) (s : Strm V)
    (hx : e.strm x = some s) :
    ∃ st, runOps t p SSt.init = .ok outs st ∧
      (s.state = ⟨false, false, false⟩ → sentry x st = .ok true st) ∧
      (s.state ≠ ⟨false, false, false⟩ → ∃ st', rdstate x st' = .ok ⟨s.state.bad, s.state.eof, true⟩ st' ∧
        (∀ y, y ≠ x → st'.ios y = st.ios y) ∧ st'.strs = st.strs ∧ st'.arr = st.arr ∧
        if s.mask.bad = true ∧ s.state.bad = true ∨ s.mask.eof = true ∧ s.state.eof = true ∨ s.mask.fail = true
        then sentry x st = .throw .iosFailure st' else sentry x st = .ok false st') := by
  obtain ⟨σ, st, h1, I⟩ := run_refines he Inv.init hp
  obtain ⟨o, r1, r2⟩ := I.rep x s hx
  have hst := r2.state
  have hex := r2.exc
  refine ⟨st, h1, fun hs => sentry_good r1 (by rw [hst, hs]; rfl), fun hs => ?_⟩
  have hg : isGood o.state = false := by
    rw [hst]
    revert hs
    rcases s.state with ⟨a, b, c⟩
    cases a <;> cases b <;> cases c <;> simp [isGood]
  refine ⟨{ st with ios := upd st.ios x (some { o with state := o.state.or Bits.failbit }) }, ?_, ?_, rfl, rfl, ?_⟩
  · rw [rdstate_ok (o := { o with state := o.state.or Bits.failbit }) (by simp)]
    simp [hst, Bits.or, Bits.failbit]
  · intro y hy
    simp [upd_apply, hy]
  · rw [sentry_bad r1 hg r2.bad]
    simp only [fin, meets, hst, hex, Bits.or, Bits.failbit]
    rcases s.state with ⟨a, b, c⟩
    rcases s.mask with ⟨a', b', c'⟩
    cases a <;> cases b <;> cases c <;> cases a' <;> cases b' <;> cases c' <;> simp

example : ∃ outs st, runOps natT demoP SSt.init = .ok outs st ∧ sentry 0 st = .ok true st := by
  obtain ⟨e, outs, h, h1, _⟩ := demo
  obtain ⟨st, h2, h3, _⟩ := C86_noskipws_sentry_partial (t := natT) (fun _ => rfl) demoP e outs h 0 demoS h1
  exact ⟨outs, st, h2, h3 rfl⟩

end Cest.Stream.Props
