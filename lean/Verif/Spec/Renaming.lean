import Verif.Spec.Grammar
/-
Two grammars that differ only in how their elements are numbered and named and in which order rules and alternatives
are listed.
-/
namespace HPP.Spec
variable {I : Type}

/-- The alternative with its elements renumbered. -/
def renumber (φ : Nat → Nat) : Production → Production
  | .notEmpty els => .notEmpty (els.map φ)
  | .empty => .empty

/-- The element stands in some alternative of some rule. -/
def Occurs (pd : ParserData I) (e : Nat) : Prop :=
  ∃ A r p, AMap.get pd.rules A = some r ∧ p ∈ r.prods ∧ e ∈ prodElems p

/-- `pd'` is `pd` with element `e` renumbered to `φ e`: the kind of every element that occurs in a rule
and the text of every terminal that does are kept (names of non-terminals may change, elements no rule uses may come or go), the rule of `φ A` has the instructions of the rule of `A` and its renumbered
alternatives in some order, and there are no other rules.  Nothing is said about the order of the rules. -/
structure Renumbered (φ : Nat → Nat) (pd pd' : ParserData I) : Prop where
  injective : ∀ a b, φ a = φ b → a = b
  kinds : ∀ e, Occurs pd e → pd'.elementTypes[φ e]? = pd.elementTypes[e]?
  texts : ∀ e, Occurs pd e → pd.elementTypes[e]? = some .terminal →
    (pd'.elementData[φ e]?).map (·.name) = (pd.elementData[e]?).map (·.name)
  rules : ∀ A r, AMap.get pd.rules A = some r → ∃ r', AMap.get pd'.rules (φ A) = some r' ∧ r'.instr = r.instr ∧
    r'.prods.Perm (r.prods.map (renumber φ))
  noMore : ∀ A' r', AMap.get pd'.rules A' = some r' → ∃ A r, A' = φ A ∧ AMap.get pd.rules A = some r

end HPP.Spec
