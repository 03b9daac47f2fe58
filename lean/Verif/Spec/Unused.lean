import Verif.Spec.Grammar
/-
Two grammars that differ only in rules that are not needed.
-/
namespace HPP.Spec
variable {I : Type}

/-- `pd'` is `pd` restricted to the rules of the non-terminals in `K`: no rule of a non-terminal in `K` mentions a
non-terminal outside `K`; the rules of the non-terminals in `K` are those of `pd`, the others are gone; the elements are
those of `pd`, from which only elements at the end of the list may be missing. -/
structure Restricted (K : Nat → Prop) (pd pd' : ParserData I) : Prop where
  kinds : pd'.elementTypes <+: pd.elementTypes
  data : pd'.elementData <+: pd.elementData
  closed : ∀ A r, K A → AMap.get pd.rules A = some r → ∀ p ∈ r.prods, ∀ e ∈ prodElems p,
    pd.elementTypes[e]? = some .nonTerminal → K e
  kept : ∀ A, K A → AMap.get pd'.rules A = AMap.get pd.rules A
  dropped : ∀ A, ¬ K A → AMap.get pd'.rules A = none

end HPP.Spec
