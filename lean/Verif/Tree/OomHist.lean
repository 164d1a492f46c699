import Verif.Tree.Cost
import Verif.Tree.Generic
import Verif.Tree.OomRun
/-
Lemmas for C139: what the functions of cest::set and cest::map leave when an allocation fails.
-/
namespace Cest.Tree
open Cest
variable {V K : Type} [DecidableEq K] {g : Cfg V K} {st : TSt V} {σ : Nat → Option (Seq V)}

theorem thr_none {s : TSt V} (h : s.thr = none) : ({ s with thr := none } : TSt V) = s := by
  cases s; simp_all

/-- A computation that creates nothing is not disturbed by the countdown. -/
theorem calm {α : Type} {w : Nat} {m : TM V α} (h : NCost w m 0) {s s' : TSt V} {a : α} (hs : s.thr = none)
    (hm : m s = .ok a s') (hn : s'.next = s.next) (t : Option Nat) :
    m { s with thr := t } = .ok a { s' with thr := t } := by
  obtain ⟨h1, c, h2, h3⟩ := h s hs
  rw [hm] at h1 h3
  cases t with
  | none =>
    rw [thr_none hs, hm]
    exact congrArg _ (thr_none (show s'.thr = none from h1)).symm
  | some k =>
    have := (h2 a s' hm).2
    rw [hn] at this
    have c0 : c = 0 := by simp at this; omega
    subst c0
    exact h3 k

theorem insert_oom (W : TW g st σ) (hg : g.Lawful) {x : Nat} {s : Seq V} (hx : σ x = some s) (v : V)
    (hl : lookup g s (g.key v) = none) {fuel : Nat} (hf : s.length < fuel) :
    insert g fuel x v { st with thr := some 0 } = .throw .badAlloc st := by
  obtain ⟨t, ho, ht⟩ := W_rep W hx
  have hlook : T.look g (g.key v) t = none := by
    rw [T.look_eq hg (by rw [ht.toL]; exact ht.sorted), ht.toL]; exact hl
  have hpre : Pre st (.root x) none t := ⟨⟨_, ho, rfl⟩, ht.repr, ht.nodup, by simp [Ref.owner]⟩
  have hh := ht.height
  have := depth_le s.length
  have := ins_badAlloc (x := x) hpre hlook fuel (by omega)
  simp only [arm] at this
  rw [thr_none W.thr] at this
  simp only [insert, M.bind_apply, this]

theorem setRef_arm {n : Ref} {q q'} {s : TSt V} (h : At s n q) :
    ∃ s', setRef n q' s = .ok () s' ∧ s'.thr = s.thr ∧ (∀ a, s.mem a = some none → s'.mem a = some none) := by
  refine ⟨_, setRef_at h, by cases n <;> rfl, ?_⟩
  intro a ha
  cases n with
  | root y => exact ha
  | left b | right b | par b =>
    obtain ⟨nd, h1, -⟩ := h
    have : a ≠ b := by rintro rfl; rw [h1] at ha; cases ha
    simp [wr, h1, this, ha]

omit [DecidableEq K] in
/-- With two operations that succeed, the insertion of a new key fails. -/
theorem ins_two {x : Nat} {v : V} (hfr : ∀ q, st.mem q ≠ none → q < st.next) :
    ∀ {t : T V} {n par}, Pre st n par t → T.look g (g.key v) t = none →
    ∀ f, t.height < f → ∃ e s, ins g x v f n par (arm st (some 2)) = .throw e s := by
  intro t
  induction t with
  | nil =>
    intro n par h hl f hf
    obtain ⟨f, rfl⟩ : ∃ f', f = f' + 1 := ⟨f - 1, by omega⟩
    have hat : At (⟨st.objs, upd st.mem st.next (some none), st.next + 1, some 1⟩ : TSt V) n none := by
      have h0 := h.at_
      have hlt : ∀ a nd, st.mem a = some nd → a ≠ st.next := fun a nd ha => by
        have := hfr a (by rw [ha]; simp); omega
      cases n with
      | root y => exact h0
      | left b | right b | par b =>
        obtain ⟨nd, h1, h2⟩ := h0
        exact ⟨nd, by simp [hlt b _ h1, h1], h2⟩
    obtain ⟨s', h1, h2, h3⟩ := setRef_arm (q' := some st.next) hat
    have h4 := h3 st.next (by simp)
    simp only at h2
    refine ⟨.elem, { s' with thr := none }, ?_⟩
    simp only [ins, M.bind_apply, getRef_arm h.at_, T.rt_nil]
    simp [allocNode, allocC, tick, arm, h1, constructNode, getC, h4, h2]
  | node c l a w r ih1 ih2 =>
    intro n par h hl f hf
    obtain ⟨f, rfl⟩ : ∃ f', f = f' + 1 := ⟨f - 1, by omega⟩
    simp only [T.height] at hf
    have e1 : getX (some a) (arm st (some 2)) = .ok w (arm st (some 2)) := by
      have := h.repr.1
      simp [getX, getN, arm, this]
    simp only [ins, M.bind_apply, getRef_arm h.at_, T.rt_node, e1]
    simp only [T.look] at hl
    split at hl
    · rename_i hlt
      rw [if_pos (show g.lt v w = true from hlt)]
      obtain ⟨e, s, hs⟩ := ih1 h.left hl f (by omega)
      exact ⟨e, s, by simp only [M.bind_apply, hs]⟩
    · rename_i hlt
      split at hl
      · rename_i hgt
        rw [if_neg (show ¬ g.lt v w = true from hlt), if_pos (show g.lt w v = true from hgt)]
        obtain ⟨e, s, hs⟩ := ih2 h.right hl f (by omega)
        exact ⟨e, s, by simp only [M.bind_apply, hs]⟩
      · cases hl

/-- A new element takes exactly three operations that may throw. -/
theorem insert_three (W : TW g st σ) (hg : g.Lawful) {x : Nat} {s : Seq V} (hx : σ x = some s) (v : V)
    (hl : lookup g s (g.key v) = none) {fuel : Nat} (hf : s.length < fuel) {p : Option Nat × Bool} {st' : TSt V}
    (h : insert g fuel x v st = .ok p st') (hn : st'.next = st.next + 1) (k : Nat) :
    insert g fuel x v { st with thr := some (k + 3) } = .ok p { st' with thr := some k } := by
  obtain ⟨h1, c, h2, h3⟩ := insert_cost g fuel x v st W.thr
  have hc := (h2 _ _ h).2
  rw [hn] at hc
  have hc : c ≤ 3 := by push_cast at hc; omega
  rw [h] at h3
  by_cases c3 : c = 3
  · subst c3; exact h3 k
  · exfalso
    obtain ⟨t, ho, ht⟩ := W_rep W hx
    have hlook : T.look g (g.key v) t = none := by
      rw [T.look_eq hg (by rw [ht.toL]; exact ht.sorted), ht.toL]; exact hl
    have hpre : Pre st (.root x) none t := ⟨⟨_, ho, rfl⟩, ht.repr, ht.nodup, by simp [Ref.owner]⟩
    have hh := ht.height
    have := depth_le s.length
    obtain ⟨e, s', hs⟩ := ins_two (g := g) (x := x) (v := v)
      (fun q hq => Nat.lt_of_not_le fun hle => hq (W.fresh q hle)) hpre hlook fuel (by omega)
    have h4 := h3 (2 - c)
    rw [show 2 - c + c = 2 by omega] at h4
    have h5 : insert g fuel x v { st with thr := some 2 } = .throw e s' := by
      simp only [insert, M.bind_apply]
      have : ins g x v fuel (.root x) none { st with thr := some 2 } = .throw e s' := hs
      rw [this]
    rw [h5] at h4
    cases h4

/-- Copying elements until there is no storage for the next one. -/
theorem copyLoop_oom (hg : g.Lawful) {x y : Nat} (hxy : x ≠ y) {t₂ : List (Nat × V)} :
    ∀ {st : TSt V} {σ} {t₁ : List (Nat × V)} {n₀ : Nat} (j : Nat), j < t₂.length → TW g st σ →
      σ y = some (t₁ ++ t₂) → σ x = some (number n₀ (t₁.map Prod.snd)) → st.next = n₀ + t₁.length →
    ∃ st', (∀ fuel f, (t₁ ++ t₂).length < fuel → t₂.length < f →
        copyLoop g fuel x f (hd t₂) { st with thr := some (3 * j) } = .throw .badAlloc st') ∧
      TW g st' (upd σ x (some (number n₀ ((t₁ ++ t₂.take j).map Prod.snd)))) ∧
      st'.next = n₀ + t₁.length + j := by
  induction t₂ with
  | nil => intro st σ t₁ n₀ j hj; simp at hj
  | cons e t₂ ih =>
    obtain ⟨a, v⟩ := e
    intro st σ t₁ n₀ j hj W hy hx hn
    have hs : T.Sorted g (t₁ ++ (a, v) :: t₂) := by
      obtain ⟨t, _, h⟩ := W_rep W hy; exact h.sorted
    rw [T.sorted_append] at hs
    have hall : ∀ d ∈ number n₀ (t₁.map Prod.snd), g.lt d.2 v = true := by
      intro d hd
      have : d.2 ∈ (number n₀ (t₁.map Prod.snd)).map Prod.snd := List.mem_map_of_mem hd
      rw [number_snd] at this
      obtain ⟨e, he, h2⟩ := List.mem_map.1 this
      rw [← h2]; exact hs.2.2 e he (a, v) (by simp)
    obtain ⟨h1, h2⟩ := insSorted_last (g := g) (e := (st.next, v)) hg hall
    have hlen : (number n₀ (t₁.map Prod.snd)).length = t₁.length := by rw [number_length, List.length_map]
    have e0 : ∀ t, getX (some a) { st with thr := t } = .ok v { st with thr := t } := fun t =>
      calm (w := 3) (getX_cost _) W.thr (deref_spec W hy) rfl t
    cases j with
    | zero =>
      refine ⟨st, ?_, by simpa [hx] using (show TW g st (upd σ x (σ x)) by rw [upd_self]; exact W), by simpa using hn⟩
      intro fuel f hfuel hf
      obtain ⟨f, rfl⟩ : ∃ f', f = f' + 1 := ⟨f - 1, by omega⟩
      simp only [hd, List.head?_cons, Option.map_some, copyLoop, M.bind_apply, e0, Nat.mul_zero,
        insert_oom W hg hx v h2 (fuel := fuel) (by rw [hlen]; simp at hfuel; omega)]
    | succ j =>
      obtain ⟨st1, e1, W1, n1⟩ := insert_new hg W hx v h2
      have hx1 : insSorted g (number n₀ (t₁.map Prod.snd)) (st.next, v) =
          number n₀ ((t₁ ++ [(a, v)]).map Prod.snd) := by
        rw [h1, List.map_append, List.map_singleton, number_append, hn]; simp
      rw [hx1] at W1
      have hy1 : upd σ x (some (number n₀ ((t₁ ++ [(a, v)]).map Prod.snd))) y =
          some (t₁ ++ (a, v) :: t₂) := by simp [Ne.symm hxy, hy]
      obtain ⟨st2, e2, W2, n2⟩ := ih (t₁ := t₁ ++ [(a, v)]) j (by simpa using hj) W1 (by rw [hy1]; simp)
        (upd_same _ _ _) (by rw [n1, hn]; simp; omega)
      refine ⟨st2, ?_, ?_, by simp at n2; omega⟩
      · intro fuel f hfuel hf
        obtain ⟨f, rfl⟩ : ∃ f', f = f' + 1 := ⟨f - 1, by omega⟩
        have d0 : (number n₀ (t₁.map Prod.snd)).length < fuel := by
          rw [hlen]; simp at hfuel; omega
        have d1 : depth (number n₀ (t₁.map Prod.snd)).length < fuel := Nat.lt_of_le_of_lt (depth_le _) d0
        have d2 : depth (t₁ ++ (a, v) :: t₂).length ≤ fuel := by
          have := depth_le (t₁ ++ (a, v) :: t₂).length
          omega
        have i1 := calm (w := 3) (inc_cost g fuel (some a)) W1.thr (inc_spec hg W1 hy1 d2) rfl (some (3 * j))
        have r := e2 fuel f (by simpa using hfuel) (by simp at hf; omega)
        have i0 := insert_three W hg hx v h2 d0 (e1 fuel d1) n1 (3 * j)
        simp only [hd, List.head?_cons, Option.map_some, copyLoop, M.bind_apply, e0,
          show 3 * (j + 1) = 3 * j + 3 by omega, i0, i1]
        exact r
      · rw [upd_upd] at W2
        simpa using W2

theorem copyCtor_oom (hg : g.Lawful) (W : TW g st σ) {x y t} (hx : σ x = none) (hy : σ y = some t) {j : Nat}
    (hj : j < t.length) :
    ∃ st', (∀ fuel, t.length < fuel → copyCtor g fuel x y { st with thr := some (3 * j) } = .throw .badAlloc st') ∧
      TW g st' σ ∧ st'.next = st.next + j := by
  have hxy : x ≠ y := by rintro rfl; rw [hx] at hy; cases hy
  obtain ⟨st1, e1, W1, n1⟩ := ctor_spec W hx
  have hy1 : upd σ x (some []) y = some ([] ++ t) := by simp [Ne.symm hxy, hy]
  obtain ⟨st2, e2, W2, n2⟩ := copyLoop_oom hg hxy j hj W1 hy1 (n₀ := st.next) (upd_same _ _ _) (by simp [n1])
  obtain ⟨st3, e3, W3, n3⟩ := dtor_spec W2 (upd_same _ _ _)
  refine ⟨st3, ?_, ?_, by simp at n2; omega⟩
  · intro fuel hf
    have c1 := calm (w := 3) (m := ctor x) (by unfold ctor; exact NCost.newObj _ _) W.thr e1 n1 (some (3 * j))
    have c2 := calm (w := 3) (begin_cost y) W1.thr (begin_spec W1 hy1) rfl (some (3 * j))
    have hd := e3 fuel (by
      have := depth_le (number st.next (([] ++ List.take j t).map Prod.snd)).length
      rw [number_length, List.length_map] at *
      simp at *
      omega)
    simp only [copyCtor, M.bind_apply, c1, M.onThrow, c2, List.nil_append, e2 fuel fuel (by simpa using hf) hf, hd]
  · have : upd (upd (upd σ x (some [])) x (some (number st.next (([] ++ List.take j t).map Prod.snd)))) x none = σ := by
      rw [upd_upd, upd_upd, ← hx, upd_self]
    rw [this] at W3
    exact W3

theorem assign_oom (hg : g.Lawful) (W : TW g st σ) {x y s t} (hxy : x ≠ y) (hx : σ x = some s)
    (hy : σ y = some t) {j : Nat} (hj : j < t.length) :
    ∃ st', (∀ fuel, s.length < fuel → t.length < fuel →
        assign g fuel x y { st with thr := some (3 * j) } = .throw .badAlloc st') ∧
      TW g st' (upd σ x (some (number st.next ((t.map Prod.snd).take j)))) ∧ st'.next = st.next + j := by
  obtain ⟨st1, e1, W1, n1⟩ := clear_spec W hx
  have hy1 : upd σ x (some []) y = some ([] ++ t) := by simp [Ne.symm hxy, hy]
  obtain ⟨st2, e2, W2, n2⟩ := copyLoop_oom hg hxy j hj W1 hy1 (n₀ := st.next) (upd_same _ _ _) (by simp [n1])
  refine ⟨st2, ?_, by simpa [upd_upd, List.map_take] using W2, by simpa using n2⟩
  intro fuel hs hf
  have := depth_le s.length
  have c1 := calm (w := 3) (clear_cost fuel x) W.thr (e1 fuel (by omega)) n1 (some (3 * j))
  have c2 := calm (w := 3) (begin_cost y) W1.thr (begin_spec W1 hy1) rfl (some (3 * j))
  simp only [assign, M.bind_apply, c1, c2, List.nil_append]
  exact e2 fuel fuel (by simpa using hf) hf

/-- What an operation creates and writes, at three and one operations that may throw, bounds what it takes. -/
theorem step_enough (hg : g.Lawful) {its : Its} {e e' : Env V} {op : Op V K} {o : Out V}
    (A : Agree g st its e) (h : specStep g e op = some (e', o)) {k : Nat}
    (hk : 3 * (e'.next - e.next) + writes [op] ≤ k) :
    ∃ F st' its', (∀ fuel, F ≤ fuel → ∃ t, runOp g fuel its op { st with thr := some k } =
        .ok (its', o) { st' with thr := t }) ∧ Agree g st' its' e' := by
  obtain ⟨F, st', its', h1, A'⟩ := step_refines hg A h
  refine ⟨F, st', its', fun fuel hf => ?_, A'⟩
  obtain ⟨-, c, h2, h3⟩ := runOp_cost g fuel its op st A.world.thr
  have h4 := h2 _ _ (h1 fuel hf)
  rw [A.next, A'.next] at h4
  rw [h1 fuel hf] at h3
  have := h3 (k - c)
  rw [Nat.sub_add_cancel (by omega)] at this
  exact ⟨_, this⟩

/-- The identities an operation uses. -/
theorem specStep_next {e e' : Env V} {op : Op V K} {o : Out V}
    (h : specStep g e op = some (e', o)) {k : Nat} (hu : ∀ l, upset g e op k ≠ .caught l)
    (hb : upset g e op k ≠ .broken) : 3 * (e'.next - e.next) + writes [op] ≤ k := by
  cases op with
  | newCopy x y =>
    simp only [specStep] at h; split at h <;> simp at h
    rename_i t hx hy; obtain ⟨rfl, rfl⟩ := h
    simp only [upset, hy, upsetCopy] at hu hb
    simp only [Env.bump, Env.setL, writes]
    split at hu
    · split at hu
      · exact absurd rfl (hu _)
      · rw [if_pos (by assumption), if_neg (by assumption)] at hb; exact absurd rfl hb
    · omega
  | assign x y =>
    simp only [specStep] at h; split at h <;> simp at h
    rename_i s t hx hy; obtain ⟨-, rfl, rfl⟩ := h
    simp only [upset, hy, upsetCopy] at hu hb
    simp only [Env.bump, Env.setL, writes]
    split at hu
    · split at hu
      · exact absurd rfl (hu _)
      · rw [if_pos (by assumption), if_neg (by assumption)] at hb; exact absurd rfl hb
    · omega
  | insert x v j =>
    simp only [specStep] at h; split at h <;> simp at h
    rename_i s hx; obtain ⟨rfl, rfl⟩ := h
    simp only [upset, hx] at hu hb
    simp only [specInsert, writes]
    cases hl : lookup g s (g.key v) with
    | some r => simp [Env.setI]
    | none =>
      rw [hl] at hu hb
      simp only [Env.bump, Env.setI, Env.setL]
      by_cases k0 : k = 0
      · exact absurd (by simp [k0]) (hu e)
      · by_cases k3 : k < 3
        · exact absurd (by simp [k0, k3]) hb
        · omega
  | insertHint x hh v j =>
    simp only [specStep] at h; split at h <;> simp at h
    rename_i s i hx hi; obtain ⟨rfl, rfl⟩ := h
    simp only [upset, hx] at hu hb
    simp only [specInsert, writes]
    cases hl : lookup g s (g.key v) with
    | some r => simp [Env.setI]
    | none =>
      rw [hl] at hu hb
      simp only [Env.bump, Env.setI, Env.setL]
      by_cases k0 : k = 0
      · exact absurd (by simp [k0]) (hu e)
      · by_cases k3 : k < 3
        · exact absurd (by simp [k0, k3]) hb
        · omega
  | write x k' v =>
    simp only [specStep] at h; split at h <;> try simp at h
    split at h <;> try simp at h
    obtain ⟨-, rfl, rfl⟩ := h
    simp only [upset] at hu
    simp only [writes, Env.setL]
    by_cases k0 : k = 0
    · exact absurd (by simp [k0]) (hu e)
    · omega
  | find x k' j =>
    simp only [specStep] at h; split at h <;> try simp at h
    split at h <;> simp at h <;> obtain ⟨rfl, rfl⟩ := h <;> simp [writes, Env.setI]
  | inc x k' =>
    simp only [specStep] at h; split at h <;> try simp at h
    split at h <;> simp at h
    obtain ⟨rfl, rfl⟩ := h; simp [writes, Env.setI]
  | deref x k' =>
    simp only [specStep] at h; split at h <;> try simp at h
    split at h <;> simp at h
    obtain ⟨rfl, rfl⟩ := h; simp [writes]
  | _ =>
    simp only [specStep] at h; split at h <;> simp at h <;> obtain ⟨rfl, rfl⟩ := h <;>
      simp [writes, Env.setI, Env.setL]

/-- One operation that runs out of storage. -/
theorem step_oom (hg : g.Lawful) {its : Its} {e e' l : Env V} {op : Op V K} {o : Out V}
    (A : Agree g st its e) (h : specStep g e op = some (e', o)) {k : Nat} (hu : upset g e op k = .caught l) :
    ∃ F st' ex, (∀ fuel, F ≤ fuel → runOp g fuel its op { st with thr := some k } = .throw ex st') ∧
      Agree g st' its l := by
  have W := A.world
  cases op with
  | newCopy x y =>
    simp only [specStep] at h; split at h <;> simp at h
    rename_i t hx hy
    simp only [upset, hy, upsetCopy] at hu
    split at hu <;> try cases hu
    split at hu <;> cases hu
    rename_i hk h3
    obtain ⟨st', h1, W1, hn⟩ := copyCtor_oom hg W hx hy (j := k / 3) (by omega)
    rw [show 3 * (k / 3) = k by omega] at h1
    exact ⟨t.length + 1, st', .badAlloc, fun f hf => by simp [runOp, h1 f (by omega)], W1, A.its,
      by rw [hn, A.next]; rfl⟩
  | assign x y =>
    simp only [specStep] at h; split at h <;> simp at h
    rename_i s t hx hy; obtain ⟨hxy, -, -⟩ := h
    simp only [upset, hy, upsetCopy] at hu
    split at hu <;> try cases hu
    split at hu <;> cases hu
    rename_i hk h3
    obtain ⟨st', h1, W1, hn⟩ := assign_oom hg W hxy hx hy (j := k / 3) (by omega)
    rw [show 3 * (k / 3) = k by omega] at h1
    rw [A.next] at W1
    exact ⟨s.length + t.length + 1, st', .badAlloc, fun f hf => by simp [runOp, h1 f (by omega) (by omega)], W1,
      A.its, by rw [hn, A.next]; rfl⟩
  | insert x v j =>
    simp only [specStep] at h; split at h <;> simp at h
    rename_i s hx
    simp only [upset, hx] at hu
    cases hl : lookup g s (g.key v) with
    | some r => rw [hl] at hu; cases hu
    | none =>
      rw [hl] at hu
      simp only at hu
      split at hu
      · rename_i k0; cases hu; subst k0
        exact ⟨s.length + 1, st, .badAlloc, fun f hf => by
          simp [runOp, insert_oom W hg hx v hl (show s.length < f by omega)], A⟩
      · split at hu <;> cases hu
  | insertHint x hh v j =>
    simp only [specStep] at h; split at h <;> simp at h
    rename_i s i hx hi
    simp only [upset, hx] at hu
    cases hl : lookup g s (g.key v) with
    | some r => rw [hl] at hu; cases hu
    | none =>
      rw [hl] at hu
      simp only at hu
      split at hu
      · rename_i k0; cases hu; subst k0
        have hi' : getIt its hh { st with thr := some 0 } = .ok (toPtr i) { st with thr := some 0 } := by
          simp [getIt, A.its, hi]
        exact ⟨s.length + 1, st, .badAlloc, fun f hf => by
          simp [runOp, insertHint, hi', insert_oom W hg hx v hl (show s.length < f by omega)], A⟩
      · split at hu <;> cases hu
  | write x k' w =>
    simp only [specStep] at h; split at h <;> try simp at h
    rename_i s a hx hk
    split at h <;> try simp at h
    rename_i v hv
    simp only [upset] at hu
    split at hu <;> cases hu
    rename_i k0; subst k0
    obtain ⟨l, r, rfl⟩ := valOf_some hv
    have hd := deref_spec W hx
    refine ⟨0, st, .elem, fun f _ => ?_, A⟩
    have hi' : getIt its k' { st with thr := some 0 } = .ok (some a) { st with thr := some 0 } := by
      simp [getIt, A.its, hk, toPtr]
    obtain ⟨n, hn⟩ : ∃ n, st.mem a = some (some n) := by
      cases hm : st.mem a with
      | none => simp [getX, getN, getC, hm] at hd
      | some c => cases c with
        | none => simp [getX, getN, getC, hm] at hd
        | some n => exact ⟨n, rfl⟩
    simp [runOp, hi', setX, getN, getC, hn, tick, thr_none W.thr]
  | _ => simp [upset] at hu

theorem runT_refines (hg : g.Lawful) {ops : List (Option Nat × Op V K)} {st : TSt V} {its : Its}
    {e e' : Env V} {os : List (Option (Out V))} (A : Agree g st its e) (h : specRunT g e ops = some (e', os)) :
    ∃ F st' its', (∀ fuel, F ≤ fuel → runT g fuel its ops st = .ok (its', os) st') ∧ Agree g st' its' e' := by
  induction ops generalizing st its e os with
  | nil => simp [specRunT] at h; obtain ⟨rfl, rfl⟩ := h; exact ⟨0, st, its, fun _ _ => rfl, A⟩
  | cons p ops ih =>
    obtain ⟨t, op⟩ := p
    simp only [specRunT] at h
    split at h <;> try simp at h
    rename_i e1 o h1
    -- the operation as the program sees it
    have key : (∀ l, t.elim .none (upset g e op) ≠ .caught l) → t.elim .none (upset g e op) ≠ .broken →
        ∃ F st' its', (∀ fuel, F ≤ fuel → ∃ t', runOp g fuel its op { st with thr := t } =
          .ok (its', o) { st' with thr := t' }) ∧ Agree g st' its' e1 := by
      intro hu hb
      cases t with
      | none =>
        obtain ⟨F, st', its', r, A'⟩ := step_refines hg A h1
        refine ⟨F, st', its', fun fuel hf => ⟨none, ?_⟩, A'⟩
        rw [thr_none A.world.thr, thr_none A'.world.thr]
        exact r fuel hf
      | some k => exact step_enough hg A h1 (specStep_next h1 hu hb)
    split at h
    · rename_i hu
      obtain ⟨r, hr, he⟩ := Option.map_eq_some_iff.1 h
      obtain ⟨e2, os2⟩ := r
      cases he
      obtain ⟨F1, st1, its1, r1, A1⟩ := key (by simp [hu]) (by simp [hu])
      obtain ⟨F2, st2, its2, r2, A2⟩ := ih A1 hr
      refine ⟨max F1 F2, st2, its2, fun fuel hf => ?_, A2⟩
      obtain ⟨t', r1⟩ := r1 fuel (by omega)
      simp only [runT, r1]
      rw [thr_none A1.world.thr]
      simp [r2 fuel (by omega)]
    · rename_i l hu
      obtain ⟨r, hr, he⟩ := Option.map_eq_some_iff.1 h
      obtain ⟨e2, os2⟩ := r
      cases he
      cases t with
      | none => simp at hu
      | some k =>
        obtain ⟨F1, st1, ex, r1, A1⟩ := step_oom hg A h1 hu
        obtain ⟨F2, st2, its2, r2, A2⟩ := ih A1 hr
        refine ⟨max F1 F2, st2, its2, fun fuel hf => ?_, A2⟩
        simp only [runT, r1 fuel (by omega)]
        rw [thr_none A1.world.thr]
        simp [r2 fuel (by omega)]
    · cases h

end Cest.Tree
