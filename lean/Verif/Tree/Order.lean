/-
Parameters of cest::set and cest::map: key extraction, comparator and key equality.
-/
namespace Cest.Tree

/-- `key`: the key of a stored value (`set`: the value, `map`: `first`); `comp`: the comparator `m_comp`;
`same`: `operator==` of keys, which only `map` uses (in its iterator's `++`). -/
structure Cfg (V K : Type) where
  key : V → K
  comp : K → K → Bool
  same : Option (K → K → Bool)

variable {V K : Type}

/-- Order on stored values. -/
def Cfg.lt (g : Cfg V K) (v w : V) : Bool := g.comp (g.key v) (g.key w)

/-- Neither key is less than the other. -/
def Cfg.equiv (g : Cfg V K) (k k' : K) : Bool := !g.comp k k' && !g.comp k' k

/-- What the C++ standard requires of a comparator (a strict weak ordering), and, for `map`, that the
key's `==` is reflexive and finer than or equal to the comparator's equivalence. -/
structure Cfg.Lawful (g : Cfg V K) : Prop where
  irrefl : ∀ a, g.comp a a = false
  trans : ∀ a b c, g.comp a b = true → g.comp b c = true → g.comp a c = true
  equivTrans : ∀ a b c, g.equiv a b = true → g.equiv b c = true → g.equiv a c = true
  sameRefl : ∀ e, g.same = some e → ∀ k, e k k = true
  sameEquiv : ∀ e, g.same = some e → ∀ k k', e k k' = true → g.equiv k k' = true

/-- `cest::set<K, comp>`. -/
def setCfg (comp : K → K → Bool) : Cfg K K := ⟨id, comp, none⟩
/-- `cest::map<K, T, comp>` where keys are compared by `eq` in the iterator. -/
def mapCfg {T : Type} (comp : K → K → Bool) (eq : K → K → Bool) : Cfg (K × T) K := ⟨Prod.fst, comp, some eq⟩

end Cest.Tree
