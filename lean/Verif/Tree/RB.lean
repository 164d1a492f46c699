import Verif.Tree.Model
import Verif.Tree.Spec
/-
Functional red-black trees whose nodes carry their addresses; used for the proofs only.
-/
namespace Cest.Tree
variable {V K : Type}

inductive T (V : Type) where
  | nil
  | node (c : Color) (l : T V) (a : Nat) (v : V) (r : T V)

namespace T

/-- Address of the root. -/
def rt : T V → Option Nat
  | nil => none
  | node _ _ a _ _ => some a

/-- In-order contents. -/
def toL : T V → List (Nat × V)
  | nil => []
  | node _ l a v r => l.toL ++ (a, v) :: r.toL

def ids (t : T V) : List Nat := t.toL.map Prod.fst

def isR : T V → Bool
  | node .red _ _ _ _ => true
  | _ => false
def lf : T V → T V
  | node _ l _ _ _ => l
  | nil => nil
def rg : T V → T V
  | node _ _ _ _ r => r
  | nil => nil
def black : T V → T V
  | node _ l a v r => node .black l a v r
  | nil => nil
def rotR : T V → T V
  | node c (node c2 A b vb B) a va C => node c2 A b vb (node c B a va C)
  | t => t
def rotL : T V → T V
  | node c A a va (node c2 B b vb C) => node c2 (node c A a va B) b vb C
  | t => t
def mapL (f : T V → T V) : T V → T V
  | node c l a v r => node c (f l) a v r
  | nil => nil
def mapR (f : T V → T V) : T V → T V
  | node c l a v r => node c l a v (f r)
  | nil => nil

/-- Mirrors `rebalance`. -/
def bal (t : T V) : T V :=
  if t.isR then t
  else if t.lf.isR && t.lf.lf.isR then rotR (mapL (mapL black) t)
  else if t.lf.isR && t.lf.rg.isR then rotR (mapL rotL (mapL black t))
  else if t.rg.isR && t.rg.lf.isR then rotL (mapR rotR (mapR black t))
  else if t.rg.isR && t.rg.rg.isR then rotL (mapR (mapR black) t)
  else t

/-- Mirrors `ins`. -/
def ins (g : Cfg V K) (n : Nat) (v : V) : T V → T V
  | nil => node .red nil n v nil
  | node c l a w r =>
    if g.lt v w then bal (node c (ins g n v l) a w r)
    else if g.lt w v then bal (node c l a w (ins g n v r))
    else node c l a w r

/-- Where the search for `k` ends. -/
def look (g : Cfg V K) (k : K) : T V → Option (Nat × V)
  | nil => none
  | node _ l a w r =>
    if g.comp k (g.key w) then look g k l
    else if g.comp (g.key w) k then look g k r
    else some (a, w)

def height : T V → Nat
  | nil => 0
  | node _ l _ _ r => max l.height r.height + 1

@[simp] theorem rt_nil : (nil : T V).rt = none := rfl
@[simp] theorem rt_node {c l a v r} : (node c l a v r : T V).rt = some a := rfl
@[simp] theorem toL_nil : (nil : T V).toL = [] := rfl
@[simp] theorem toL_node {c l a v r} : (node c l a v r : T V).toL = l.toL ++ (a, v) :: r.toL := rfl
@[simp] theorem ids_nil : (nil : T V).ids = [] := rfl
@[simp] theorem ids_node {c l a v r} : (node c l a v r : T V).ids = l.ids ++ a :: r.ids := by
  simp [ids]

@[simp] theorem isR_nil : (nil : T V).isR = false := rfl
@[simp] theorem isR_red {l a v r} : (node .red l a v r : T V).isR = true := rfl
@[simp] theorem isR_blk {l a v r} : (node .black l a v r : T V).isR = false := rfl
@[simp] theorem lf_nil : (nil : T V).lf = nil := rfl
@[simp] theorem rg_nil : (nil : T V).rg = nil := rfl
@[simp] theorem lf_node {c l a v r} : (node c l a v r : T V).lf = l := rfl
@[simp] theorem rg_node {c l a v r} : (node c l a v r : T V).rg = r := rfl
@[simp] theorem black_node {c l a v r} : (node c l a v r : T V).black = node .black l a v r := rfl
@[simp] theorem mapL_node {f c l a v r} : mapL f (node c l a v r : T V) = node c (f l) a v r := rfl
@[simp] theorem mapR_node {f c l a v r} : mapR f (node c l a v r : T V) = node c l a v (f r) := rfl
@[simp] theorem rotR_node {c c2 A b vb B a va C} : rotR (node c (node c2 A b vb B) a va C : T V) =
    node c2 A b vb (node c B a va C) := rfl
@[simp] theorem rotL_node {c c2 A b vb B a va C} : rotL (node c A a va (node c2 B b vb C) : T V) =
    node c2 (node c A a va B) b vb C := rfl

theorem toL_black (t : T V) : t.black.toL = t.toL := by cases t <;> rfl
theorem toL_rotR (t : T V) : t.rotR.toL = t.toL := by
  unfold rotR; split <;> simp
theorem toL_rotL (t : T V) : t.rotL.toL = t.toL := by
  unfold rotL; split <;> simp
theorem toL_mapL {f : T V → T V} (hf : ∀ t, (f t).toL = t.toL) (t : T V) : (mapL f t).toL = t.toL := by
  cases t <;> simp [mapL, hf]
theorem toL_mapR {f : T V → T V} (hf : ∀ t, (f t).toL = t.toL) (t : T V) : (mapR f t).toL = t.toL := by
  cases t <;> simp [mapR, hf]

theorem toL_bal (t : T V) : t.bal.toL = t.toL := by
  unfold bal
  split
  · rfl
  split
  · rw [toL_rotR, toL_mapL (toL_mapL toL_black)]
  split
  · rw [toL_rotR, toL_mapL toL_rotL, toL_mapL toL_black]
  split
  · rw [toL_rotL, toL_mapR toL_rotR, toL_mapR toL_black]
  split
  · rw [toL_rotL, toL_mapR (toL_mapR toL_black)]
  · rfl

/-! ### Red-black invariants -/

/-- Red-black trees with root colour and black height. -/
inductive RB : T V → Color → Nat → Prop
  | nil : RB nil .black 0
  | red {l a v r n} : RB l .black n → RB r .black n → RB (node .red l a v r) .red n
  | black {l a v r n c1 c2} : RB l c1 n → RB r c2 n → RB (node .black l a v r) .black (n+1)

/-- A red-black tree, except that a red root may have one red child. -/
def Infra (t : T V) (n : Nat) : Prop :=
  (∃ c, RB t c n) ∨ ∃ l a v r c1 c2, t = node .red l a v r ∧ RB l c1 n ∧ RB r c2 n ∧
    (c1 = .black ∨ c2 = .black)

theorem RB.isR {t : T V} {c n} (h : RB t c n) : t.isR = (c == .red) := by
  cases h <;> rfl

theorem RB.not_red_red {t : T V} {c n} (h : RB t c n) :
    (t.isR && t.lf.isR) = false ∧ (t.isR && t.rg.isR) = false := by
  cases h with
  | nil => exact ⟨rfl, rfl⟩
  | red h1 h2 => simp [h1.isR, h2.isR]
  | black h1 h2 => simp

/-- Without red-red violations below, nothing is rebalanced. -/
theorem bal_id {c : Color} {l : T V} {a v r c1 c2 n m} (hl : RB l c1 n) (hr : RB r c2 m) :
    bal (node c l a v r) = node c l a v r := by
  have h1 := hl.not_red_red
  have h2 := hr.not_red_red
  unfold bal
  simp only [lf_node, rg_node, h1.1, h1.2, h2.1, h2.2]
  split <;> simp

theorem RB.cases_red {t : T V} {n} (h : RB t .red n) :
    ∃ l a v r, t = node .red l a v r ∧ RB l .black n ∧ RB r .black n := by
  cases h with
  | red h1 h2 => exact ⟨_, _, _, _, rfl, h1, h2⟩

theorem RB.isR_black {t : T V} {n} (h : RB t .black n) : t.isR = false := by
  rw [h.isR]; rfl

/-- Rebalancing a black node whose left child may violate. -/
theorem bal_left {l : T V} {a v r c n} (hl : Infra l n) (hr : RB r c n) :
    ∃ c', RB (bal (node .black l a v r)) c' (n+1) := by
  rcases hl with ⟨c', hl⟩ | ⟨A, b, vb, B, c1, c2, rfl, hA, hB, hc⟩
  · rw [bal_id hl hr]; exact ⟨_, .black hl hr⟩
  · cases c1 with
    | red =>
      obtain ⟨A1, d, vd, A2, rfl, h1, h2⟩ := hA.cases_red
      refine ⟨.red, ?_⟩
      simp [bal]
      exact .red (.black h1 h2) (.black hB hr)
    | black =>
      cases c2 with
      | red =>
        obtain ⟨B1, d, vd, B2, rfl, h1, h2⟩ := hB.cases_red
        refine ⟨.red, ?_⟩
        simp [bal, hA.isR_black]
        exact .red (.black hA h1) (.black h2 hr)
      | black =>
        rw [bal_id (.red hA hB) hr]; exact ⟨_, .black (.red hA hB) hr⟩

/-- Rebalancing a black node whose right child may violate. -/
theorem bal_right {l : T V} {a v r c n} (hl : RB l c n) (hr : Infra r n) :
    ∃ c', RB (bal (node .black l a v r)) c' (n+1) := by
  have nr' : ¬ (l.isR = true ∧ l.lf.isR = true) ∧ ¬ (l.isR = true ∧ l.rg.isR = true) := by
    have := hl.not_red_red; simpa using this
  rcases hr with ⟨c', hr⟩ | ⟨A, b, vb, B, c1, c2, rfl, hA, hB, hc⟩
  · rw [bal_id hl hr]; exact ⟨_, .black hl hr⟩
  · cases c1 with
    | red =>
      obtain ⟨A1, d, vd, A2, rfl, h1, h2⟩ := hA.cases_red
      refine ⟨.red, ?_⟩
      simp [bal, nr']
      exact .red (.black hl h1) (.black h2 hB)
    | black =>
      cases c2 with
      | red =>
        obtain ⟨B1, d, vd, B2, rfl, h1, h2⟩ := hB.cases_red
        refine ⟨.red, ?_⟩
        simp [bal, nr', hA.isR_black]
        exact .red (.black hl hA) (.black h1 h2)
      | black =>
        rw [bal_id hl (.red hA hB)]; exact ⟨_, .black hl (.red hA hB)⟩

theorem ins_rb (g : Cfg V K) (k : Nat) (x : V) {t : T V} {c n} (h : RB t c n) :
    Infra (ins g k x t) n ∧ (c = .black → ∃ c', RB (ins g k x t) c' n) := by
  induction h with
  | nil => exact ⟨Or.inl ⟨_, .red .nil .nil⟩, fun _ => ⟨_, .red .nil .nil⟩⟩
  | @red l a v r n h1 h2 ih1 ih2 =>
    refine ⟨?_, by simp⟩
    simp only [ins]
    split
    · obtain ⟨c', h'⟩ := ih1.2 rfl
      simp only [bal, isR_red, if_true]
      exact Or.inr ⟨_, _, _, _, _, _, rfl, h', h2, Or.inr rfl⟩
    · split
      · obtain ⟨c', h'⟩ := ih2.2 rfl
        simp only [bal, isR_red, if_true]
        exact Or.inr ⟨_, _, _, _, _, _, rfl, h1, h', Or.inl rfl⟩
      · exact Or.inl ⟨_, .red h1 h2⟩
  | @black l a v r n c1 c2 h1 h2 ih1 ih2 =>
    have key : ∃ c', RB (ins g k x (node .black l a v r)) c' (n+1) := by
      simp only [ins]
      split
      · exact bal_left ih1.1 h2
      · split
        · exact bal_right h1 ih2.1
        · exact ⟨_, .black h1 h2⟩
    exact ⟨Or.inl key, fun _ => key⟩

theorem black_rb {t : T V} {n} (h : Infra t n) : ∃ m, RB t.black .black m := by
  rcases h with ⟨c, h⟩ | ⟨A, b, vb, B, c1, c2, rfl, hA, hB, hc⟩
  · cases h with
    | nil => exact ⟨_, .nil⟩
    | red h1 h2 => exact ⟨_, .black h1 h2⟩
    | black h1 h2 => exact ⟨_, .black h1 h2⟩
  · exact ⟨_, .black hA hB⟩

/-! ### Balance -/

theorem RB.size_ge {t : T V} {c n} (h : RB t c n) : 2 ^ n ≤ t.toL.length + 1 := by
  induction h with
  | nil => simp
  | red h1 h2 ih1 ih2 => simp; omega
  | black h1 h2 ih1 ih2 => simp [Nat.pow_succ]; omega

theorem RB.height_le {t : T V} {c n} (h : RB t c n) :
    t.height ≤ 2 * n + (if c = .red then 1 else 0) := by
  induction h with
  | nil => simp [height]
  | red h1 h2 ih1 ih2 => simp [height] at *; omega
  | @black l a v r n c1 c2 h1 h2 ih1 ih2 =>
    simp only [height]
    split at ih1 <;> split at ih2 <;> simp <;> omega

theorem RB.height_log {t : T V} {n} (h : RB t .black n) : t.height ≤ 2 * Nat.log2 (t.toL.length + 1) := by
  have h1 := h.height_le
  have h2 := h.size_ge
  have h3 : n ≤ Nat.log2 (t.toL.length + 1) := (Nat.le_log2 (by omega)).2 h2
  simp at h1; omega

theorem height_le_length (t : T V) : t.height ≤ t.toL.length := by
  induction t with
  | nil => simp [height]
  | node c l a v r ih1 ih2 => simp [height]; omega

/-! ### Order -/

/-- Strictly increasing. -/
def Sorted (g : Cfg V K) (s : List (Nat × V)) : Prop := s.Pairwise (fun d e => g.lt d.2 e.2 = true)

end T

theorem Cfg.Lawful.asymm {g : Cfg V K} (h : g.Lawful) {a b : K} (h1 : g.comp a b = true) :
    g.comp b a = false := by
  cases h2 : g.comp b a with
  | false => rfl
  | true => have := h.trans _ _ _ h1 h2; rw [h.irrefl] at this; cases this

theorem Cfg.Lawful.negTrans {g : Cfg V K} (h : g.Lawful) {a b c : K} (h1 : g.comp a b = true)
    (h2 : g.comp a c = false) : g.comp c b = true := by
  cases h3 : g.comp c b with
  | true => rfl
  | false =>
    cases h4 : g.comp c a with
    | true => rw [h.trans _ _ _ h4 h1] at h3; cases h3
    | false =>
      cases h5 : g.comp b c with
      | true => rw [h.trans _ _ _ h1 h5] at h2; cases h2
      | false =>
        have := h.equivTrans a c b (by simp [Cfg.equiv, h2, h4]) (by simp [Cfg.equiv, h3, h5])
        simp [Cfg.equiv, h1] at this

theorem Cfg.Lawful.lt_equiv {g : Cfg V K} (h : g.Lawful) {a b c : K} (h1 : g.comp a b = true)
    (h2 : g.equiv b c = true) : g.comp a c = true := by
  simp [Cfg.equiv] at h2
  cases h3 : g.comp a c with
  | true => rfl
  | false => rw [h.negTrans h1 h3] at h2; cases h2.2

namespace T

theorem sorted_append {g : Cfg V K} {s t : List (Nat × V)} : Sorted g (s ++ t) ↔
    Sorted g s ∧ Sorted g t ∧ ∀ d ∈ s, ∀ e ∈ t, g.lt d.2 e.2 = true := List.pairwise_append
theorem sorted_cons {g : Cfg V K} {d} {t : List (Nat × V)} : Sorted g (d :: t) ↔
    (∀ e ∈ t, g.lt d.2 e.2 = true) ∧ Sorted g t := List.pairwise_cons

theorem look_eq {g : Cfg V K} (hg : g.Lawful) {t : T V} (hs : Sorted g t.toL) (k : K) :
    look g k t = lookup g t.toL k := by
  induction t with
  | nil => rfl
  | node c l a w r ih1 ih2 =>
    rw [toL_node, sorted_append, sorted_cons] at hs
    obtain ⟨h1, ⟨h2, h3⟩, h4⟩ := hs
    simp only [look]
    split
    · rename_i hk
      have hn : ((a, w) :: r.toL).find? (fun e => g.equiv (g.key e.2) k) = none := by
        rw [List.find?_eq_none]
        intro e he
        have : g.comp k (g.key e.2) = true := by
          rcases List.mem_cons.1 he with rfl | he
          · exact hk
          · exact hg.trans _ _ _ hk (h2 e he)
        simp [Cfg.equiv, this]
      rw [ih1 h1]
      simp only [lookup, toL_node, List.find?_append, hn, Option.or_none]
    · rename_i hk1
      have hk1' : g.comp k (g.key w) = false := by simpa using hk1
      have hl : g.comp (g.key w) k = true → l.toL.find? (fun e => g.equiv (g.key e.2) k) = none := by
        intro hk
        rw [List.find?_eq_none]
        intro e he
        have := hg.trans _ _ _ (h4 e he _ List.mem_cons_self) hk
        simp [Cfg.equiv, this]
      split
      · rename_i hk
        rw [ih2 h3]
        simp only [lookup, toL_node, List.find?_append, hl hk, Option.none_or]
        simp [Cfg.equiv, hk]
      · rename_i hk2
        have hk2' : g.comp (g.key w) k = false := by simpa using hk2
        have hl' : l.toL.find? (fun e => g.equiv (g.key e.2) k) = none := by
          rw [List.find?_eq_none]
          intro e he
          have := hg.lt_equiv (h4 e he _ List.mem_cons_self)
            (c := k) (by simp [Cfg.equiv, hk1', hk2'])
          simp [Cfg.equiv, this]
        simp only [lookup, toL_node, List.find?_append, hl', Option.none_or]
        simp [Cfg.equiv, hk1', hk2']

theorem filter_none {s : List (Nat × V)} {p : Nat × V → Bool} (h : ∀ e ∈ s, p e = false) :
    s.filter p = [] := by
  rw [List.filter_eq_nil_iff]; intro e he; simp [h e he]

/-- Inserting a value without equivalent puts it in its sorted place. -/
theorem ins_toL {g : Cfg V K} (hg : g.Lawful) {t : T V} (hs : Sorted g t.toL) (n : Nat) (v : V)
    (hl : look g (g.key v) t = none) : (ins g n v t).toL = insSorted g t.toL (n, v) := by
  induction t with
  | nil => rfl
  | node c l a w r ih1 ih2 =>
    rw [toL_node, sorted_append, sorted_cons] at hs
    obtain ⟨h1, ⟨h2, h3⟩, h4⟩ := hs
    simp only [look] at hl
    simp only [ins]
    split at hl
    · rename_i hk
      have hk' : g.lt v w = true := hk
      rw [if_pos hk', toL_bal, toL_node, ih1 h1 hl]
      have e1 : ((a, w) :: r.toL).filter (fun d => g.lt d.2 v) = [] := by
        apply filter_none
        intro e he
        rcases List.mem_cons.1 he with rfl | he
        · exact hg.asymm hk
        · exact hg.asymm (hg.trans _ _ _ hk (h2 e he))
      have e2 : ((a, w) :: r.toL).filter (fun d => g.lt v d.2) = (a, w) :: r.toL := by
        rw [List.filter_eq_self]
        intro e he
        rcases List.mem_cons.1 he with rfl | he
        · exact hk
        · exact hg.trans _ _ _ hk (h2 e he)
      simp only [insSorted, toL_node, List.filter_append, e1, e2, List.append_nil]
      simp
    · rename_i hk
      split at hl
      · rename_i hk2
        have hk' : g.lt w v = true := hk2
        have hk0 : g.lt v w = false := by simpa [Cfg.lt] using hk
        rw [if_neg (by simp [hk0]), if_pos hk', toL_bal, toL_node, ih2 h3 hl]
        have e1 : (l.toL).filter (fun d => g.lt v d.2) = [] := by
          apply filter_none
          intro e he
          exact hg.asymm (hg.trans _ _ _ (h4 e he _ List.mem_cons_self) hk2)
        have e2 : (l.toL).filter (fun d => g.lt d.2 v) = l.toL := by
          rw [List.filter_eq_self]
          intro e he
          exact hg.trans _ _ _ (h4 e he _ List.mem_cons_self) hk2
        simp only [insSorted, toL_node, List.filter_append, e1, e2, List.nil_append,
          List.filter_cons, hk', hk0]
        simp
      · simp at hl

/-- Inserting a value that has an equivalent changes nothing. -/
theorem ins_same {g : Cfg V K} {t : T V} {c m} (h : RB t c m) (n : Nat) (v : V)
    {e} (hl : look g (g.key v) t = some e) : ins g n v t = t := by
  have key : ∀ (t : T V) {c m}, RB t c m → ∀ {e}, look g (g.key v) t = some e → ins g n v t = t := by
    intro t
    induction t with
    | nil => intro c m h e hl; simp [look] at hl
    | node c l a w r ih1 ih2 =>
      intro c' m h e hl
      have hlr : ∃ c1 n1 c2 n2, RB l c1 n1 ∧ RB r c2 n2 := by
        cases h with
        | red h1 h2 => exact ⟨_, _, _, _, h1, h2⟩
        | black h1 h2 => exact ⟨_, _, _, _, h1, h2⟩
      obtain ⟨c1, n1, c2, n2, h1, h2⟩ := hlr
      simp only [look] at hl
      simp only [ins]
      split at hl
      · rename_i hk
        rw [if_pos (show g.lt v w = true from hk), ih1 h1 hl, bal_id h1 h2]
      · rename_i hk
        rw [if_neg (show ¬ g.lt v w = true from hk)]
        split at hl
        · rename_i hk2
          rw [if_pos (show g.lt w v = true from hk2), ih2 h2 hl, bal_id h1 h2]
        · rename_i hk2
          rw [if_neg (show ¬ g.lt w v = true from hk2)]
  exact key t h hl

theorem sorted_insSorted {g : Cfg V K} (hg : g.Lawful) {s : List (Nat × V)} (hs : Sorted g s) (e : Nat × V) :
    Sorted g (insSorted g s e) := by
  unfold insSorted
  rw [sorted_append, sorted_cons]
  refine ⟨hs.filter _, ⟨?_, hs.filter _⟩, ?_⟩
  · intro d hd; exact (List.mem_filter.1 hd).2
  · intro d hd d' hd'
    have h1 := (List.mem_filter.1 hd).2
    rcases List.mem_cons.1 hd' with rfl | hd'
    · exact h1
    · exact hg.trans _ _ _ h1 (List.mem_filter.1 hd').2

/-- Every element is smaller or larger than a value without equivalent. -/
theorem mem_insSorted {g : Cfg V K} {s : List (Nat × V)} {e d : Nat × V}
    (hl : lookup g s (g.key e.2) = none) : d ∈ insSorted g s e ↔ d = e ∨ d ∈ s := by
  unfold insSorted
  simp only [List.mem_append, List.mem_cons, List.mem_filter]
  constructor
  · rintro (h | h | h)
    · exact Or.inr h.1
    · exact Or.inl h
    · exact Or.inr h.1
  · rintro (h | h)
    · exact Or.inr (Or.inl h)
    · have h1 := (List.find?_eq_none.1 hl) d h
      simp [Cfg.equiv] at h1
      cases h2 : g.lt d.2 e.2 with
      | true => exact Or.inl ⟨h, rfl⟩
      | false => exact Or.inr (Or.inr ⟨h, h1 h2⟩)

theorem length_insSorted {g : Cfg V K} (hg : g.Lawful) {s : List (Nat × V)} {e : Nat × V}
    (hl : lookup g s (g.key e.2) = none) : (insSorted g s e).length = s.length + 1 := by
  have key : ∀ s : List (Nat × V), lookup g s (g.key e.2) = none →
      (s.filter (fun d => g.lt d.2 e.2)).length + (s.filter (fun d => g.lt e.2 d.2)).length = s.length := by
    intro s
    induction s with
    | nil => intro; rfl
    | cons d s ih =>
      intro hl
      simp only [lookup, List.find?_cons] at hl
      split at hl
      · simp at hl
      · rename_i hd
        have := ih hl
        simp [Cfg.equiv] at hd
        cases h2 : g.lt d.2 e.2 with
        | true =>
          have h3 : g.lt e.2 d.2 = false := hg.asymm h2
          simp only [List.filter_cons, h2, h3]; simp; omega
        | false =>
          have h3 : g.lt e.2 d.2 = true := hd h2
          simp only [List.filter_cons, h2, h3]; simp; omega
  have := key s hl
  simp [insSorted]; omega

end T
end Cest.Tree
