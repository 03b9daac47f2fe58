import Verif.Spec.Cfg
/-
Well-formedness of grammar data, in terms of the stored lists only.
-/
namespace HPP.Spec
variable {I : Type}

/-- Facts that hold for all `ParserData` produced through the public interface with valid indices:
every rule belongs to a non-terminal, every element used in a production exists, and a production with
no elements is stored as the empty production. -/
structure WellFormed (pd : ParserData I) : Prop where
  rulesNodup : (pd.rules.map (·.1)).Nodup
  lengths : pd.elementTypes.length = pd.elementData.length
  keysNT : ∀ A r, AMap.get pd.rules A = some r → pd.elementTypes[A]? = some .nonTerminal
  inRange : ∀ A r, AMap.get pd.rules A = some r → ∀ p ∈ r.prods, ∀ e ∈ prodElems p,
    e < pd.elementTypes.length
  nonEmpty : ∀ A r, AMap.get pd.rules A = some r → ∀ p ∈ r.prods, p ≠ .notEmpty []

/-- Every non-terminal used in a production has a rule. -/
def AllDefined (pd : ParserData I) : Prop :=
  ∀ A r, AMap.get pd.rules A = some r → ∀ p ∈ r.prods, ∀ e ∈ prodElems p,
    pd.elementTypes[e]? = some .nonTerminal → ∃ r', AMap.get pd.rules e = some r'

end HPP.Spec
